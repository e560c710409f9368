import Verif.Spec.ArcArchive
import Verif.Lemmas.Archive
/-!
# Lemmas about archives with shared vectors: validation
-/
namespace Verif
namespace ArcArchive
open Std Verif.Archive
section
variable {K V : Type _} {l : ALayout} {b : ABuf K V}

theorem arcOk_of {q : Nat} (h1 : q + l.vecSize ≤ b.len) (h2 : q % l.vecAlign = 0) : arcOk l b (q : Int) = true := by
  simp only [arcOk, Bool.and_eq_true, decide_eq_true_eq, Int.toNat_natCast]
  refine ⟨⟨by omega, h1⟩, ?_⟩
  exact_mod_cast congrArg (Nat.cast : Nat → Int) h2

theorem of_arcOk {t : Int} (h : arcOk l b t = true) : ∃ q : Nat, t = q ∧ q + l.vecSize ≤ b.len ∧ q % l.vecAlign = 0 := by
  simp only [arcOk, Bool.and_eq_true, decide_eq_true_eq] at h
  obtain ⟨⟨h1, h2⟩, h3⟩ := h
  refine ⟨t.toNat, by omega, h2, ?_⟩
  have : ((t.toNat : Int)) % (l.vecAlign : Int) = 0 := by rw [Int.toNat_of_nonneg h1]; exact h3
  exact_mod_cast this

theorem VecAt.derefArc {q : Nat} {cs : List Nat} (h : VecAt l b q cs) : derefArc l b (q : Int) = some cs := by
  rw [ArcArchive.derefArc, if_pos (arcOk_of h.inside h.aligned), Int.toNat_natCast]
  exact h.slice.deref

theorem NodeAt.children {a : Nat} {p : List K} {v : Option V} {q : Nat} {cs : List Nat} (h : NodeAt l b a p v q cs) : childrenAt l b a = some cs := by
  rw [childrenAt, h.arc]
  exact h.vec.derefArc

theorem NodeAt.prefixAt {a : Nat} {p : List K} {v : Option V} {q : Nat} {cs : List Nat} (h : NodeAt l b a p v q cs) : prefixAt l b a = some p := by
  obtain ⟨xs, h1, h2⟩ := h.pre
  rw [ArcArchive.prefixAt, Archive.prefixAt]
  rw [show (b.flat.node a).pre = (b.node a).pre from rfl, h1.deref]
  exact h2.mapM

theorem NodeAt.length {a : Nat} {p : List K} {v : Option V} {q : Nat} {cs : List Nat} (h : NodeAt l b a p v q cs) : p.length = (b.node a).pre.len := by
  obtain ⟨xs, h1, h2⟩ := h.pre
  rw [h2.length, ← h1.slots, slots_length]

theorem NodeAt.head {a : Nat} {p : List K} {v : Option V} {q : Nat} {cs : List Nat} (h : NodeAt l b a p v q cs) : headAt l.toLayout b.flat a = p.head? := by
  obtain ⟨xs, h1, h2⟩ := h.pre
  rw [headAt, show (b.flat.node a).pre = (b.node a).pre from rfl, h1.deref]
  cases xs with
  | nil => cases p with
    | nil => rfl
    | cons => cases h2
  | cons x xs => cases p with
    | nil => cases h2
    | cons k p => exact h2.1

theorem NodeAt.unique {a : Nat} {p p' : List K} {v v' : Option V} {q q' : Nat} {cs cs' : List Nat} (h : NodeAt l b a p v q cs) (h' : NodeAt l b a p' v' q' cs') :
    p = p' ∧ v = v' ∧ q = q' ∧ cs = cs' := by
  have h1 := h.prefixAt
  rw [h'.prefixAt] at h1
  have h2 := h.children
  rw [h'.children] at h2
  have h3 := h.val
  rw [h'.val] at h3
  have h4 := h.arc
  rw [h'.arc] at h4
  cases h1; cases h2; cases h3
  exact ⟨rfl, rfl, by omega, rfl⟩

/-- elements of a slice of nodes are nodes inside the buffer -/
theorem SliceAt.mem {B : Buf K V} {size align : Nat} {p : VecPtr} {xs : List Nat} (h : SliceAt B size align p xs) (hs : size % align = 0) {x : Nat} (hx : x ∈ xs) :
    p.target.toNat ≤ x ∧ x + size ≤ p.target.toNat + p.len * size ∧ x + size ≤ B.len ∧ x % align = 0 := by
  obtain ⟨s, h1, h2, h3, rfl⟩ := h
  obtain ⟨i, hi, rfl⟩ := List.mem_map.1 hx
  rw [List.mem_range] at hi
  have h4 : (i + 1) * size ≤ p.len * size := Nat.mul_le_mul_right _ hi
  rw [Nat.succ_mul] at h4
  rw [h1, Int.toNat_natCast]
  refine ⟨by omega, by omega, by omega, ?_⟩
  rw [Nat.add_mod, h2, Nat.mul_mod, hs]
  simp

variable [Ord K]

/-! ### Acceptance means safety -/

/-- what has been established about a node when its check has succeeded -/
def NodeOk (l : ALayout) (b : ABuf K V) (seen : List Nat) (a : Nat) : Prop :=
  ∃ p v q cs, (a + l.nodeSize ≤ b.len ∧ a % l.nodeAlign = 0 ∧ (∃ xs, SliceAt b.flat l.keySize l.keyAlign (b.node a).pre xs ∧ KeysAt b.flat xs p) ∧
    (b.node a).val = some v ∧ (b.node a).kids = (q : Nat) ∧ derefArc l b q = some cs) ∧ q ∈ seen ∧
    cs.all (fun x => decide ((b.node x).pre.len ≠ 0)) = true ∧ ordered l.toLayout b.flat cs = .ok true

/-- and about a vector -/
def VecOk (l : ALayout) (b : ABuf K V) (seen : List Nat) (q : Nat) : Prop := ∃ cs, VecAt l b q cs ∧ ∀ x ∈ cs, NodeOk l b seen x

theorem NodeOk.mono {s s' : List Nat} {a : Nat} (h : NodeOk l b s a) (hs : ∀ q ∈ s, q ∈ s') : NodeOk l b s' a := by
  obtain ⟨p, v, q, cs, h1, h2, h3⟩ := h
  exact ⟨p, v, q, cs, h1, hs q h2, h3⟩

theorem VecOk.mono {s s' : List Nat} {a : Nat} (h : VecOk l b s a) (hs : ∀ q ∈ s, q ∈ s') : VecOk l b s' a := by
  obtain ⟨cs, h1, h2⟩ := h
  exact ⟨cs, h1, fun x hx => (h2 x hx).mono hs⟩

/-- what a successful check does to the state of the validator -/
structure Grew (l : ALayout) (b : ABuf K V) (start : Nat) (c c' : Ctx) : Prop where
  hi : c'.rng.hi = c.rng.hi
  lo : c.rng.lo ≤ c'.rng.lo
  seen : ∀ q ∈ c.seen, q ∈ c'.seen
  new : ∀ q ∈ c'.seen, q ∈ c.seen ∨ start ≤ q ∧ q + l.vecSize ≤ c.rng.hi ∧ VecOk l b c'.seen q

theorem Grew.refl (lo : Nat) (c : Ctx) : Grew l b lo c c := ⟨rfl, Nat.le_refl _, fun _ h => h, fun _ h => .inl h⟩

theorem Grew.weaken {lo lo' : Nat} {c c' : Ctx} (h : Grew l b lo c c') (hl : lo' ≤ lo) : Grew l b lo' c c' :=
  ⟨h.hi, h.lo, h.seen, fun q hq => (h.new q hq).imp_right fun ⟨h1, h2⟩ => ⟨by omega, h2⟩⟩

theorem Grew.trans {lo : Nat} {c c' c'' : Ctx} (h : Grew l b lo c c') (h' : Grew l b lo c' c'') : Grew l b lo c c'' := by
  refine ⟨h'.hi.trans h.hi, Nat.le_trans h.lo h'.lo, fun q hq => h'.seen q (h.seen q hq), fun q hq => ?_⟩
  rcases h'.new q hq with h1 | ⟨h1, h2, h3⟩
  · rcases h.new q h1 with h4 | ⟨h4, h5, h6⟩
    · exact .inl h4
    · exact .inr ⟨h4, h5, h6.mono h'.seen⟩
  · exact .inr ⟨h1, by rw [← h.hi]; exact h2, h3⟩

theorem checkEach_grew {rec : Nat → Ctx → Res Ctx} (hrec : ∀ a c c', rec a c = .ok c' → Grew l b c.rng.lo c c' ∧ NodeOk l b c'.seen a) :
    ∀ (cs : List Nat) (c c' : Ctx), checkEach rec cs c = .ok c' → Grew l b c.rng.lo c c' ∧ ∀ x ∈ cs, NodeOk l b c'.seen x := by
  intro cs
  induction cs with
  | nil =>
    intro c c' h
    cases h
    exact ⟨.refl _ _, fun x hx => by cases hx⟩
  | cons x xs ih =>
    intro c c' h
    rw [checkEach] at h
    cases hx : rec x c with
    | err e => rw [hx] at h; cases h
    | ub => rw [hx] at h; cases h
    | deep => rw [hx] at h; cases h
    | ok c1 =>
      rw [hx] at h
      obtain ⟨h1, h2⟩ := hrec x c c1 hx
      obtain ⟨h3, h4⟩ := ih c1 c' h
      refine ⟨h1.trans (h3.weaken h1.lo), fun y hy => ?_⟩
      rcases List.mem_cons.1 hy with rfl | hy
      · exact h2.mono h3.seen
      · exact h4 y hy

theorem checkArc_grew {rec : Nat → Ctx → Res Ctx} (hrec : ∀ a c c', rec a c = .ok c' → Grew l b c.rng.lo c c' ∧ NodeOk l b c'.seen a)
    (c c' : Ctx) (t : Int) (h : checkArc l b rec c t = .ok c') : Grew l b c.rng.lo c c' ∧ t.toNat ∈ c'.seen := by
  rw [checkArc] at h
  split at h
  · cases h
  rename_i h1
  split at h
  · rename_i h2
    cases h
    exact ⟨.refl _ _, by simpa using h2⟩
  rename_i h2
  split at h
  · cases h
  rename_i h3
  split at h
  · cases h
  rename_i h4
  simp only [Bool.not_eq_true, Bool.not_eq_eq_eq_not, Bool.not_not, Bool.not_false, Bool.not_true, Bool.and_eq_true, decide_eq_true_eq,
    Bool.not_eq_false] at h1 h3 h4
  rw [checkPtr_iff] at h4
  obtain ⟨q, rfl, h5, h6⟩ := of_arcOk h1
  rw [Int.toNat_natCast] at *
  cases hk : checkEach rec (slots l.nodeSize (b.vec q)) ⟨⟨c.rng.lo, (b.vec q).target.toNat⟩, q :: c.seen⟩ with
  | err e => rw [hk] at h; cases h
  | ub => rw [hk] at h; cases h
  | deep => rw [hk] at h; cases h
  | ok c1 =>
    rw [hk] at h
    cases h
    obtain ⟨g1, g2⟩ := checkEach_grew hrec _ _ _ hk
    simp only [] at g1
    refine ⟨⟨rfl, ?_, fun x hx => g1.seen x (List.mem_cons_of_mem _ hx), fun x hx => ?_⟩, g1.seen q (List.mem_cons_self ..)⟩
    · simp only []; omega
    · rcases g1.new x hx with h7 | ⟨h7, h8, h9⟩
      · rcases List.mem_cons.1 h7 with rfl | h7
        · exact .inr ⟨h3.1, h3.2, _, ⟨h5, h6, h4.1⟩, g2⟩
        · exact .inl h7
      · simp only [] at h8 h4
        exact .inr ⟨h7, by omega, h9⟩

/-- Inversion of a successful check of a node. -/
theorem checkNode_inv {fuel a : Nat} {c c' : Ctx} (h : checkNode l b (fuel + 1) a c = .ok c') : ∃ p v cs,
    a + l.nodeSize ≤ b.len ∧ a % l.nodeAlign = 0 ∧ SliceAt b.flat l.keySize l.keyAlign (b.node a).pre (slots l.keySize (b.node a).pre) ∧
    KeysAt b.flat (slots l.keySize (b.node a).pre) p ∧ c.rng.lo ≤ (b.node a).pre.target.toNat ∧
    (b.node a).pre.target.toNat + (b.node a).pre.len * l.keySize ≤ c.rng.hi ∧ (b.node a).val = some v ∧ derefArc l b (b.node a).kids = some cs ∧
    cs.all (fun x => decide ((b.node x).pre.len ≠ 0)) = true ∧ ordered l.toLayout b.flat cs = .ok true ∧
    checkArc l b (checkNode l b fuel) ⟨c.rng.pop l.keySize (b.node a).pre, c.seen⟩ (b.node a).kids = .ok c' := by
  rw [checkNode] at h
  split at h
  · cases h
  rename_i h1
  split at h
  · cases h
  rename_i h2
  split at h
  · cases h
  rename_i h3
  split at h
  · cases h
  rename_i h4
  simp only [Bool.not_eq_true, Bool.not_eq_eq_eq_not, Bool.not_not, Bool.not_false, Bool.not_true, Bool.and_eq_true, decide_eq_true_eq,
    Bool.not_eq_false] at h1 h2 h3
  rw [checkPtr_iff] at h2
  obtain ⟨h2, h2l, h2h⟩ := h2
  obtain ⟨p, hp⟩ := keysAt_of_all (b := b.flat) h3
  cases hv : (b.node a).val with
  | none => rw [hv] at h4; simp at h4
  | some v =>
    cases hd : derefArc l b (b.node a).kids with
    | none => rw [hd] at h; cases h
    | some cs =>
      rw [hd] at h
      simp only [] at h
      split at h
      · cases h
      rename_i h5
      simp only [Bool.not_eq_true, Bool.not_eq_eq_eq_not, Bool.not_not, Bool.not_false, Bool.not_true, Bool.not_eq_false] at h5
      cases ho : ordered l.toLayout b.flat cs with
      | err e => rw [ho] at h; cases h
      | ub => rw [ho] at h; cases h
      | deep => rw [ho] at h; cases h
      | ok x =>
        cases x with
        | false => rw [ho] at h; cases h
        | true =>
          rw [ho] at h
          simp only [] at h
          exact ⟨p, v, cs, h1.1, h1.2, h2, hp, h2l, h2h, rfl, rfl, h5, ho, h⟩

theorem checkNode_grew : ∀ (fuel a : Nat) (c c' : Ctx), checkNode l b fuel a c = .ok c' →
    Grew l b ((b.node a).pre.target.toNat + (b.node a).pre.len * l.keySize) c c' ∧ c.rng.lo ≤ (b.node a).pre.target.toNat ∧ NodeOk l b c'.seen a := by
  intro fuel
  induction fuel with
  | zero => intro a c c' h; cases h
  | succ fuel ih =>
    intro a c c' h
    obtain ⟨p, v, cs, h1, h2, h3, h4, h5, h6, h7, h8, h9, h10, h11⟩ := checkNode_inv h
    have hrec : ∀ a c c', checkNode l b fuel a c = .ok c' → Grew l b c.rng.lo c c' ∧ NodeOk l b c'.seen a := by
      intro a c c' h
      obtain ⟨g1, g2, g3⟩ := ih a c c' h
      exact ⟨g1.weaken (by omega), g3⟩
    obtain ⟨g1, g2⟩ := checkArc_grew hrec _ _ _ h11
    simp only [Range.pop] at g1
    refine ⟨⟨g1.hi, ?_, g1.seen, g1.new⟩, h5, ?_⟩
    · have := g1.lo
      simp only [] at this
      omega
    · have ha : arcOk l b (b.node a).kids = true := by
        rw [derefArc] at h8
        split at h8
        · assumption
        · cases h8
      obtain ⟨q, hq, hq1, hq2⟩ := of_arcOk ha
      rw [hq, Int.toNat_natCast] at g2
      rw [hq] at h8
      exact ⟨p, v, q, cs, ⟨h1, h2, ⟨_, h3, h4⟩, h7, hq, h8⟩, g2, h9, h10⟩

/-- an accepted archive -/
theorem accepted {root : Nat} {c : Ctx} (h : checkRoot l b root = some (.ok c)) :
    NodeOk l b c.seen root ∧ (∀ q ∈ c.seen, VecOk l b c.seen q) ∧
    ∀ q ∈ c.seen, (b.node root).pre.target.toNat + (b.node root).pre.len * l.keySize ≤ q ∧ q + l.vecSize ≤ root := by
  rw [checkRoot] at h
  split at h
  rotate_left
  · cases h
  obtain ⟨g1, -, g2⟩ := checkNode_grew _ _ _ _ (Option.some.inj h)
  refine ⟨g2, fun q hq => ?_, fun q hq => ?_⟩
  · rcases g1.new q hq with h1 | ⟨-, -, h1⟩
    · cases h1
    · exact h1
  · rcases g1.new q hq with h1 | ⟨h1, h2, -⟩
    · cases h1
    · exact ⟨h1, h2⟩

theorem accepted_reach {root : Nat} {c : Ctx} (h : checkRoot l b root = some (.ok c)) {a : Nat} (ha : Reach l b root a) : NodeOk l b c.seen a := by
  obtain ⟨h1, h2, -⟩ := accepted h
  induction ha with
  | root => exact h1
  | child _ hc hm ih =>
    obtain ⟨p, v, q, cs, ⟨-, -, -, -, k5, k6⟩, k7, -⟩ := ih
    rw [childrenAt, k5, k6] at hc
    cases hc
    obtain ⟨cs', k8, k9⟩ := h2 q k7
    rw [k8.derefArc] at k6
    cases k6
    exact k9 _ hm

theorem accepted_node {root : Nat} {c : Ctx} (h : checkRoot l b root = some (.ok c)) {a : Nat} (ha : Reach l b root a) :
    ∃ p v q cs, NodeAt l b a p v q cs ∧ q ∈ c.seen ∧ cs.all (fun x => decide ((b.node x).pre.len ≠ 0)) = true ∧ ordered l.toLayout b.flat cs = .ok true := by
  obtain ⟨p, v, q, cs, ⟨k1, k2, k3, k4, k5, k6⟩, k7, k8⟩ := accepted_reach h ha
  obtain ⟨cs', k9, -⟩ := (accepted h).2.1 q k7
  have := k9.derefArc
  rw [k6] at this
  cases this
  exact ⟨p, v, q, cs, ⟨k1, k2, k3, k4, k5, k9⟩, k7, k8⟩

/-- from the check of neighbouring children to the order of all children -/
theorem ordered_heads [TransOrd K] {cs : List Nat} (hs : ∀ x ∈ cs, ∃ p v q ds, NodeAt l b x p v q ds)
    (h1 : cs.all (fun x => decide ((b.node x).pre.len ≠ 0)) = true) (h2 : ordered l.toLayout b.flat cs = .ok true) :
    ∃ hs : List (K × List K), cs.map (prefixAt l b) = hs.map (fun h => some (h.1 :: h.2)) ∧ hs.Pairwise (fun h h' => compare h.1 h'.1 = .lt) := by
  induction cs with
  | nil => exact ⟨[], rfl, .nil⟩
  | cons x xs ih =>
    rw [List.all_cons, Bool.and_eq_true, decide_eq_true_eq] at h1
    obtain ⟨p, v, q, ds, hx⟩ := hs x (List.mem_cons_self ..)
    have hp : ∃ k p', p = k :: p' := by
      cases p with
      | nil => exact absurd hx.length.symm h1.1
      | cons k p' => exact ⟨k, p', rfl⟩
    obtain ⟨k, p', rfl⟩ := hp
    cases xs with
    | nil => exact ⟨[(k, p')], by simp [hx.prefixAt], .cons (fun _ h => by cases h) .nil⟩
    | cons y ys =>
      have h2' := h2
      rw [ordered, hx.head] at h2'
      obtain ⟨p2, v2, q2, ds2, hy⟩ := hs y (by simp)
      rw [hy.head] at h2'
      cases p2 with
      | nil => cases h2'
      | cons k2 p2' =>
        simp only [List.head?_cons] at h2'
        split at h2'
        rotate_left
        · cases h2'
        rename_i hlt
        obtain ⟨gs, g1, g2⟩ := ih (fun z hz => hs z (List.mem_cons_of_mem _ hz)) h1.2 h2'
        refine ⟨(k, p') :: gs, by rw [List.map_cons, hx.prefixAt, g1]; rfl, List.pairwise_cons.2 ⟨fun g hg => ?_, g2⟩⟩
        cases gs with
        | nil => cases hg
        | cons g0 gs =>
          rw [List.map_cons, hy.prefixAt, List.map_cons] at g1
          have e := (List.cons.inj g1).1
          simp only [Option.some.injEq, List.cons.injEq] at e
          rcases List.mem_cons.1 hg with rfl | hg
          · rw [← e.1]; exact hlt
          · have := (List.pairwise_cons.1 g2).1 g hg
            rw [← e.1] at this
            exact TransCmp.lt_trans hlt this

/-! ### Termination -/

theorem checkEach_deep {rec : Nat → Ctx → Res Ctx} (n : Nat) (hrec : ∀ a c, c.rng.hi < n → rec a c ≠ .deep)
    (hhi : ∀ a c c', rec a c = .ok c' → c'.rng.hi = c.rng.hi) : ∀ (cs : List Nat) (c : Ctx), c.rng.hi < n → checkEach rec cs c ≠ .deep := by
  intro cs
  induction cs with
  | nil => intro c _ h; cases h
  | cons x xs ih =>
    intro c hc h
    rw [checkEach] at h
    cases hx : rec x c with
    | err e => rw [hx] at h; cases h
    | ub => rw [hx] at h; cases h
    | deep => exact hrec x c hc hx
    | ok c1 =>
      rw [hx] at h
      exact ih c1 (by rw [hhi x c c1 hx]; exact hc) h

theorem checkNode_deep (hl : 0 < l.nodeSize) : ∀ (fuel a : Nat) (c : Ctx), c.rng.hi < fuel → checkNode l b fuel a c ≠ .deep := by
  intro fuel
  induction fuel with
  | zero => intro a c h; exact absurd h (Nat.not_lt_zero _)
  | succ fuel ih =>
    intro a c hc h
    rw [checkNode] at h
    split at h
    · cases h
    split at h
    · cases h
    split at h
    · cases h
    split at h
    · cases h
    split at h
    · cases h
    split at h
    · cases h
    split at h
    rotate_left
    · cases h
    · cases h
    · cases h
    · rename_i ho
      exact ordered_deep _ ho
    rw [checkArc] at h
    split at h
    · cases h
    split at h
    · cases h
    split at h
    · cases h
    rename_i h3
    split at h
    · cases h
    rename_i h4
    simp only [Bool.not_eq_true, Bool.not_eq_eq_eq_not, Bool.not_not, Bool.not_false, Bool.not_true, Bool.and_eq_true, decide_eq_true_eq,
      Bool.not_eq_false, Range.pop] at h3 h4
    rw [checkPtr_iff] at h4
    simp only [] at h4
    split at h
    · cases h
    · cases h
    rename_i h5 h6
    cases hn : slots l.nodeSize (b.vec (b.node a).kids.toNat) with
    | nil =>
      rw [hn, checkEach] at h
      cases h
    | cons y ys =>
      have hlen : (b.vec (b.node a).kids.toNat).len ≠ 0 := by
        have := slots_length l.nodeSize (b.vec (b.node a).kids.toNat)
        rw [hn] at this
        simp only [List.length_cons] at this
        omega
      have : 1 * l.nodeSize ≤ (b.vec (b.node a).kids.toNat).len * l.nodeSize := Nat.mul_le_mul_right _ (by omega)
      refine checkEach_deep fuel ih (fun a c c' h => (checkNode_grew _ _ _ _ h).1.hi) _ _ ?_ h
      simp only []
      have h3' := of_decide_eq_true h3.2
      omega

/-! ### Undefined behaviour -/

theorem ordered_ub {cs : List Nat} (hs : ∀ x ∈ cs, ∃ p v q ds, NodeAt l b x p v q ds)
    (h1 : cs.all (fun x => decide ((b.node x).pre.len ≠ 0)) = true) : ∃ y, ordered l.toLayout b.flat cs = .ok y := by
  induction cs with
  | nil => exact ⟨_, rfl⟩
  | cons x xs ih =>
    rw [List.all_cons, Bool.and_eq_true, decide_eq_true_eq] at h1
    cases xs with
    | nil => exact ⟨_, rfl⟩
    | cons y ys =>
      obtain ⟨p, v, q, ds, hx⟩ := hs x (by simp)
      obtain ⟨p2, v2, q2, ds2, hy⟩ := hs y (by simp)
      have h1' := h1.2
      rw [List.all_cons, Bool.and_eq_true, decide_eq_true_eq] at h1'
      obtain ⟨k, p', rfl⟩ : ∃ k p', p = k :: p' := by
        cases p with
        | nil => exact absurd hx.length.symm h1.1
        | cons k p' => exact ⟨k, p', rfl⟩
      obtain ⟨k2, p2', rfl⟩ : ∃ k p', p2 = k :: p' := by
        cases p2 with
        | nil => exact absurd hy.length.symm h1'.1
        | cons k p' => exact ⟨k, p', rfl⟩
      rw [ordered, hx.head, hy.head]
      simp only [List.head?_cons]
      split
      · exact ih (fun z hz => hs z (List.mem_cons_of_mem _ hz)) h1.2
      · exact ⟨_, rfl⟩

theorem checkEach_ub {rec : Nat → Ctx → Res Ctx} {cs : List Nat} (hrec : ∀ x ∈ cs, ∀ c, rec x c ≠ .ub) (c : Ctx) : checkEach rec cs c ≠ .ub := by
  induction cs generalizing c with
  | nil => intro h; cases h
  | cons x xs ih =>
    intro h
    rw [checkEach] at h
    cases hx : rec x c with
    | err e => rw [hx] at h; cases h
    | ub => exact hrec x (List.mem_cons_self ..) c hx
    | deep => rw [hx] at h; cases h
    | ok c1 =>
      rw [hx] at h
      exact ih (fun x hx => hrec x (List.mem_cons_of_mem _ hx)) c1 h

theorem checkNode_ub {root : Nat} (hsafe : Safe l b root) : ∀ (fuel a : Nat) (c : Ctx), Reach l b root a → checkNode l b fuel a c ≠ .ub := by
  intro fuel
  induction fuel with
  | zero => intro a c _ h; cases h
  | succ fuel ih =>
    intro a c ha h
    obtain ⟨p, v, q, cs, hn⟩ := hsafe a ha
    have hk := hn.children
    rw [checkNode] at h
    split at h
    · rename_i h1
      simp only [hn.inside, hn.aligned] at h1
      simp at h1
    split at h
    · cases h
    split at h
    · cases h
    split at h
    · cases h
    rw [show derefArc l b (b.node a).kids = some cs from hk] at h
    simp only [] at h
    split at h
    · cases h
    rename_i h5
    simp only [Bool.not_eq_true, Bool.not_eq_eq_eq_not, Bool.not_not, Bool.not_false, Bool.not_true, Bool.not_eq_false] at h5
    obtain ⟨y, ho⟩ := ordered_ub (fun x hx => hsafe x (.child ha hk hx)) h5
    rw [ho] at h
    cases y with
    | false => cases h
    | true =>
      simp only [] at h
      rw [checkArc] at h
      split at h
      · cases h
      split at h
      · cases h
      split at h
      · cases h
      split at h
      · cases h
      rw [hn.arc, Int.toNat_natCast, hn.vec.slice.slots] at h
      split at h
      · cases h
      · cases h
      · exact checkEach_ub (fun x hx c => ih x c (.child ha hk hx)) _ h

end
end ArcArchive
end Verif
