import Verif.Spec.Archive
import Verif.Lemmas.RadixMisc
/-! Lemmas for C79. -/
namespace Verif
namespace Archive
open Std
variable {K V : Type _} {l : Layout} {b : Buf K V}

theorem slots_eq {size : Nat} {p : VecPtr} {s : Nat} (h : p.target = s) : slots size p = (List.range p.len).map (fun i => s + i * size) := by
  rw [slots, h, Int.toNat_natCast]

theorem SliceAt.slots {size align : Nat} {p : VecPtr} {xs : List Nat} (h : SliceAt b size align p xs) : slots size p = xs := by
  obtain ⟨s, h1, -, -, rfl⟩ := h
  exact slots_eq h1

theorem SliceAt.deref {size align : Nat} {p : VecPtr} {xs : List Nat} (h : SliceAt b size align p xs) : deref b size align p = some xs := by
  have hs := h.slots
  obtain ⟨s, h1, h2, h3, -⟩ := h
  have ha : aligned align p = true := by
    simp only [aligned, decide_eq_true_eq, h1]
    exact_mod_cast congrArg (Nat.cast : Nat → Int) h2
  have hb : inBuf b size p = true := by
    simp only [inBuf, Bool.and_eq_true, decide_eq_true_eq, h1, Int.toNat_natCast]
    exact ⟨by omega, h3⟩
  simp only [Archive.deref, ha, hb, Bool.or_true, Bool.and_self, if_true, hs]

theorem checkPtr_iff {size align : Nat} {r : Range} {p : VecPtr} : checkPtr b size align r p = true ↔
    SliceAt b size align p (slots size p) ∧ r.lo ≤ p.target.toNat ∧ p.target.toNat + p.len * size ≤ r.hi := by
  simp only [checkPtr, inBuf, aligned, Bool.and_eq_true, decide_eq_true_eq]
  constructor
  · rintro ⟨⟨⟨⟨h1, h2⟩, h3⟩, h4⟩, h5⟩
    refine ⟨⟨p.target.toNat, by omega, ?_, h2, rfl⟩, h4, h5⟩
    have e : ((p.target.toNat : Nat) : Int) = p.target := by omega
    rw [← e] at h3
    exact_mod_cast h3
  · rintro ⟨⟨s, h1, h2, h3, -⟩, h4, h5⟩
    rw [h1, Int.toNat_natCast] at *
    exact ⟨⟨⟨⟨by omega, h3⟩, by exact_mod_cast congrArg (Nat.cast : Nat → Int) h2⟩, h4⟩, h5⟩

theorem slots_length (size : Nat) (p : VecPtr) : (slots size p).length = p.len := by simp [slots]

theorem keysAt_of_all {xs : List Nat} (h : xs.all (fun x => (b.key x).isSome) = true) : ∃ ks, KeysAt b xs ks := by
  induction xs with
  | nil => exact ⟨[], trivial⟩
  | cons x xs ih =>
    simp only [List.all_cons, Bool.and_eq_true] at h
    obtain ⟨ks, hk⟩ := ih h.2
    obtain ⟨k, e⟩ := Option.isSome_iff_exists.1 h.1
    exact ⟨k :: ks, e, hk⟩

theorem KeysAt.all {xs : List Nat} {ks : List K} (h : KeysAt b xs ks) : xs.all (fun x => (b.key x).isSome) = true := by
  induction xs generalizing ks with
  | nil => rfl
  | cons x xs ih =>
    cases ks with
    | nil => cases h
    | cons k ks => simp only [List.all_cons, h.1, Option.isSome_some, ih h.2, Bool.and_self]

theorem KeysAt.length {xs : List Nat} {ks : List K} (h : KeysAt b xs ks) : ks.length = xs.length := by
  induction xs generalizing ks with
  | nil => cases ks with
    | nil => rfl
    | cons => cases h
  | cons x xs ih =>
    cases ks with
    | nil => cases h
    | cons k ks => simp [ih h.2]

theorem KeysAt.mapM {xs : List Nat} {ks : List K} (h : KeysAt b xs ks) : xs.mapM b.key = some ks := by
  induction xs generalizing ks with
  | nil => cases ks with
    | nil => rfl
    | cons => cases h
  | cons x xs ih =>
    cases ks with
    | nil => cases h
    | cons k ks =>
      simp only [List.mapM_cons, h.1, ih h.2]
      rfl

theorem StoredList.length {cs : List Nat} {ts : List (Tree K V)} (h : StoredList l b cs ts) : ts.length = cs.length := by
  induction cs generalizing ts with
  | nil => cases ts with
    | nil => rfl
    | cons => cases h
  | cons c cs ih =>
    cases ts with
    | nil => cases h
    | cons t ts => simp [ih h.2]

/-- the prefix of a stored tree is what the node says -/
theorem Stored.prefix {a : Nat} {t : Tree K V} (h : Stored l b a t) : prefixAt l b a = some t.pre ∧ t.pre.length = (b.node a).pre.len := by
  obtain ⟨p, v, ts⟩ := t
  obtain ⟨-, -, ⟨xs, h1, h2⟩, -⟩ := h
  refine ⟨by simp only [prefixAt, h1.deref, h2.mapM], ?_⟩
  rw [show (Tree.pre ⟨p, v, ts⟩ : List K) = p from rfl, h2.length, ← h1.slots, slots_length]

theorem Stored.head {a : Nat} {t : Tree K V} (h : Stored l b a t) : headAt l b a = t.pre.head? := by
  obtain ⟨p, v, ts⟩ := t
  obtain ⟨-, -, ⟨xs, h1, h2⟩, -⟩ := h
  simp only [headAt, h1.deref]
  cases xs with
  | nil => cases p with
    | nil => rfl
    | cons => cases h2
  | cons x xs => cases p with
    | nil => cases h2
    | cons k ks => exact h2.1

theorem nonempty_stored {cs : List Nat} {ts : List (Tree K V)} (h : StoredList l b cs ts) :
    cs.all (fun c => decide ((b.node c).pre.len ≠ 0)) = ts.all (fun t => !t.pre.isEmpty) := by
  induction cs generalizing ts with
  | nil => cases ts with
    | nil => rfl
    | cons => cases h
  | cons c cs ih =>
    cases ts with
    | nil => cases h
    | cons t ts =>
      rw [List.all_cons, List.all_cons, ih h.2, ← h.1.prefix.2]
      congr 1
      cases t.pre <;> simp

theorem ordered_stored [Ord K] {cs : List Nat} {ts : List (Tree K V)} (h : StoredList l b cs ts) (hn : ∀ t ∈ ts, t.pre ≠ []) :
    ordered l b cs = .ok (Tree.ascendingHeads ts) := by
  induction cs generalizing ts with
  | nil => cases ts with
    | nil => rfl
    | cons => cases h
  | cons c cs ih =>
    cases ts with
    | nil => cases h
    | cons t ts =>
      cases cs with
      | nil => cases ts with
        | nil => rfl
        | cons => cases h.2
      | cons d cs => cases ts with
        | nil => cases h.2
        | cons u ts =>
          have h1 := h.1.head
          have h2 := h.2.1.head
          obtain ⟨x, xs, e1⟩ := List.exists_cons_of_ne_nil (hn t (by simp))
          obtain ⟨y, ys, e2⟩ := List.exists_cons_of_ne_nil (hn u (by simp))
          rw [e1] at h1; rw [e2] at h2
          simp only [List.head?_cons] at h1 h2
          rw [ordered, h1, h2]
          simp only []
          rw [ih h.2 (fun x hx => hn x (by simp [hx])), Tree.ascendingHeads, Tree.headCmp, e1, e2]
          simp only [List.head?_cons]
          have e : compare (some x) (some y) = compare x y := rfl
          rw [e]
          cases compare x y <;> simp

/-! ### Soundness -/

/-- bytes of out-of-line data of a list of trees -/
def weight (l : Layout) (t : Tree K V) : Nat := t.components * l.keySize + t.nodes * l.nodeSize

/-- for a list -/
def weightL (l : Layout) (ts : List (Tree K V)) : Nat := Tree.components.componentsL ts * l.keySize + Tree.nodes.nodesL ts * l.nodeSize

theorem weight_mk (p : List K) (v : Option V) (ts : List (Tree K V)) : weight l ⟨p, v, ts⟩ = p.length * l.keySize + l.nodeSize + weightL l ts := by
  simp only [weight, weightL, Tree.components, Tree.nodes, Nat.add_mul, Nat.one_mul]
  omega

theorem weightL_cons (t : Tree K V) (ts : List (Tree K V)) : weightL l (t :: ts) = weight l t + weightL l ts := by
  simp only [weight, weightL, Tree.components.componentsL, Tree.nodes.nodesL, Nat.add_mul]
  omega

variable [Ord K] [TransOrd K]

/-- what an accepted node is -/
def Accepted (l : Layout) (b : Buf K V) (a : Nat) (r r' : Range) (t : Tree K V) : Prop :=
  Stored l b a t ∧ t.Valid ∧ r'.hi = r.hi ∧ r.lo + weight l t ≤ r'.lo + l.nodeSize ∧ r.lo ≤ r'.lo ∧ r'.lo ≤ r.hi

omit [TransOrd K] in
theorem checkAll_sound {rec : Nat → Range → Res Range} (hrec : ∀ a r r', rec a r = .ok r' → ∃ t, Accepted l b a r r' t) :
    ∀ (cs : List Nat) (r r' : Range), r.lo ≤ r.hi → checkAll rec cs r = .ok r' → ∃ ts, StoredList l b cs ts ∧ (∀ t ∈ ts, t.Valid) ∧
      r'.hi = r.hi ∧ r.lo + weightL l ts ≤ r'.lo + cs.length * l.nodeSize ∧ r.lo ≤ r'.lo ∧ r'.lo ≤ r.hi := by
  intro cs
  induction cs with
  | nil =>
    intro r r' hr h
    rw [checkAll] at h
    cases h
    exact ⟨[], trivial, by simp, rfl, by simp [weightL, Tree.components.componentsL, Tree.nodes.nodesL], Nat.le_refl _, hr⟩
  | cons c cs ih =>
    intro r r' hr h
    rw [checkAll] at h
    cases hc : rec c r with
    | ok r1 =>
      rw [hc] at h
      obtain ⟨t, h1, h2, h3, h4, h5, h6⟩ := hrec c r r1 hc
      obtain ⟨ts, k1, k2, k3, k4, k5, k6⟩ := ih r1 r' (by omega) h
      refine ⟨t :: ts, ⟨h1, k1⟩, ?_, by omega, ?_, by omega, by omega⟩
      · intro x hx
        rcases List.mem_cons.1 hx with rfl | hx
        · exact h2
        · exact k2 x hx
      · rw [weightL_cons, List.length_cons, Nat.succ_mul]
        omega
    | err e => rw [hc] at h; cases h
    | ub => rw [hc] at h; cases h
    | deep => rw [hc] at h; cases h

theorem checkNode_sound : ∀ (fuel a : Nat) (r r' : Range), checkNode l b fuel a r = .ok r' → ∃ t, Accepted l b a r r' t := by
  intro fuel
  induction fuel with
  | zero => intro a r r' h; cases h
  | succ fuel ih =>
    intro a r r' h
    rw [checkNode] at h
    split at h
    · cases h
    rename_i h1
    split at h
    · cases h
    rename_i h2
    split at h
    · cases h
    rename_i h3
    split at h
    · cases h
    rename_i h4
    simp only [Bool.not_eq_true, Bool.not_eq_eq_eq_not, Bool.not_not, Bool.not_false, Bool.not_true, Bool.and_eq_true, decide_eq_true_eq,
      Bool.not_eq_false] at h1 h2 h3
    rw [checkPtr_iff] at h2
    obtain ⟨h2, h2l, h2h⟩ := h2
    obtain ⟨p, hp⟩ := keysAt_of_all h3
    have hpl : p.length = (b.node a).pre.len := by rw [hp.length, slots_length]
    cases hd : deref b l.nodeSize l.nodeAlign (b.node a).kids with
    | none => rw [hd] at h; cases h
    | some cs =>
      rw [hd] at h
      simp only [] at h
      split at h
      · cases h
      rename_i h5
      simp only [Bool.not_eq_true, Bool.not_eq_eq_eq_not, Bool.not_not, Bool.not_false, Bool.not_true, Bool.not_eq_false] at h5
      cases ho : ordered l b cs with
      | err e => rw [ho] at h; cases h
      | ub => rw [ho] at h; cases h
      | deep => rw [ho] at h; cases h
      | ok x =>
        cases x with
        | false => rw [ho] at h; cases h
        | true =>
          rw [ho] at h
          simp only [] at h
          rw [checkChildren] at h
          split at h
          rotate_left
          · cases h
          rename_i h6
          rw [checkPtr_iff] at h6
          obtain ⟨h6, h6l, h6h⟩ := h6
          have hcs : slots l.nodeSize (b.node a).kids = cs := by
            have := h6.deref
            rw [hd] at this
            cases this; rfl
          rw [hcs] at h h6
          simp only [Range.pop] at h6l h6h
          cases hk : checkAll (checkNode l b fuel) cs ((r.pop l.keySize (b.node a).pre).push (b.node a).kids) with
          | err e => rw [hk] at h; cases h
          | ub => rw [hk] at h; cases h
          | deep => rw [hk] at h; cases h
          | ok r1 =>
            rw [hk] at h
            cases h
            have hlen : cs.length = (b.node a).kids.len := by rw [← hcs, slots_length]
            obtain ⟨ts, k1, k2, k3, k4, k5, k6⟩ := checkAll_sound (fun a r r' h => ih a r r' h) cs _ _ (by simp only [Range.push, Range.pop]; omega) hk
            rw [nonempty_stored k1, List.all_eq_true] at h5
            have hne : ∀ t ∈ ts, t.pre ≠ [] := by
              intro t ht e
              have := h5 t ht
              rw [e] at this
              cases this
            rw [ordered_stored k1 hne] at ho
            simp only [Res.ok.injEq] at ho
            have hv : ∃ v, (b.node a).val = some v := by
              cases hv : (b.node a).val with
              | none => rw [hv] at h4; simp at h4
              | some v => exact ⟨v, rfl⟩
            obtain ⟨v, hv⟩ := hv
            refine ⟨⟨p, v, ts⟩, ⟨h1.1, h1.2, ⟨_, h2, hp⟩, hv, cs, h6, k1⟩, .mk hne ((Tree.ascendingHeads_iff ts).1 ho) k2, rfl, ?_, ?_, ?_⟩
            · simp only [Range.push, Range.pop] at *
              rw [weight_mk, hpl]
              rw [hlen] at k4
              omega
            · simp only [Range.pop]; omega
            · simp only [Range.pop]; omega

/-! ### Termination and undefined behaviour -/

omit [TransOrd K] in
theorem checkAll_deep {rec : Nat → Range → Res Range} (n : Nat) (hrec : ∀ a r, r.hi < n → rec a r ≠ .deep)
    (hhi : ∀ a r r', rec a r = .ok r' → r'.hi = r.hi) : ∀ (cs : List Nat) (r : Range), r.hi < n → checkAll rec cs r ≠ .deep := by
  intro cs
  induction cs with
  | nil => intro r _ h; cases h
  | cons c cs ih =>
    intro r hr h
    rw [checkAll] at h
    cases hc : rec c r with
    | ok r1 => rw [hc] at h; exact ih r1 (by rw [hhi c r r1 hc]; exact hr) h
    | err e => rw [hc] at h; cases h
    | ub => rw [hc] at h; cases h
    | deep => exact hrec c r hr hc

omit [TransOrd K] in
theorem ordered_deep (cs : List Nat) : ordered l b cs ≠ .deep := by
  induction cs with
  | nil => intro h; cases h
  | cons c cs ih =>
    cases cs with
    | nil => intro h; cases h
    | cons d cs =>
      intro h
      rw [ordered] at h
      split at h
      · split at h
        · exact ih h
        · cases h
      · cases h

theorem checkNode_deep (hl : 0 < l.nodeSize) : ∀ (fuel a : Nat) (r : Range), r.hi < fuel → checkNode l b fuel a r ≠ .deep := by
  intro fuel
  induction fuel with
  | zero => intro a r h; exact absurd h (Nat.not_lt_zero _)
  | succ fuel ih =>
    intro a r hr h
    rw [checkNode] at h
    split at h
    · cases h
    split at h
    · cases h
    split at h
    · cases h
    split at h
    · cases h
    split at h
    · cases h
    rename_i cs hd
    split at h
    · cases h
    cases ho : ordered l b cs with
    | err e => rw [ho] at h; cases h
    | ub => rw [ho] at h; cases h
    | deep => exact ordered_deep cs ho
    | ok x =>
      cases x with
      | false => rw [ho] at h; cases h
      | true =>
        rw [ho] at h
        simp only [] at h
        rw [checkChildren] at h
        split at h
        rotate_left
        · cases h
        rename_i h6
        rw [checkPtr_iff] at h6
        obtain ⟨h6, -, h6h⟩ := h6
        simp only [Range.pop] at h6h
        cases hk : checkAll (checkNode l b fuel) (slots l.nodeSize (b.node a).kids) ((r.pop l.keySize (b.node a).pre).push (b.node a).kids) with
        | ok r1 => rw [hk] at h; cases h
        | err e => rw [hk] at h; cases h
        | ub => rw [hk] at h; cases h
        | deep =>
          cases hn : (b.node a).kids.len with
          | zero =>
            have e : slots l.nodeSize (b.node a).kids = [] := by simp [slots, hn]
            rw [e] at hk
            cases hk
          | succ n =>
            rw [hn, Nat.succ_mul] at h6h
            refine checkAll_deep fuel ih (fun a r r' h => ?_) _ _ ?_ hk
            · obtain ⟨_, _, _, h, _⟩ := checkNode_sound fuel a r r' h
              exact h
            · simp only [Range.push, Range.pop]; omega

omit [TransOrd K] in
theorem checkAll_ub {rec : Nat → Range → Res Range} {cs : List Nat} {ts : List (Tree K V)} (h : StoredList l b cs ts)
    (hrec : ∀ t ∈ ts, ∀ a r, Stored l b a t → rec a r ≠ .ub) (r : Range) : checkAll rec cs r ≠ .ub := by
  induction cs generalizing ts r with
  | nil => intro h; cases h
  | cons c cs ih =>
    cases ts with
    | nil => cases h
    | cons t ts =>
      intro hu
      rw [checkAll] at hu
      cases hc : rec c r with
      | ok r1 => rw [hc] at hu; exact ih h.2 (fun t ht => hrec t (by simp [ht])) r1 hu
      | err e => rw [hc] at hu; cases hu
      | ub => exact hrec t (by simp) c r h.1 hc
      | deep => rw [hc] at hu; cases hu

theorem checkNode_ub (t : Tree K V) : ∀ (fuel a : Nat) (r : Range), Stored l b a t → checkNode l b fuel a r ≠ .ub := by
  refine Tree.induct (P := fun t => ∀ (fuel a : Nat) (r : Range), Stored l b a t → checkNode l b fuel a r ≠ .ub) ?_ t
  intro p v ts ih fuel a r hs h
  cases fuel with
  | zero => cases h
  | succ fuel =>
    obtain ⟨s1, s2, ⟨xs, s3, s4⟩, s5, cs, s6, s7⟩ := hs
    rw [checkNode] at h
    split at h
    · rename_i h1
      simp [s1, s2] at h1
    split at h
    · cases h
    split at h
    · cases h
    split at h
    · cases h
    rw [s6.deref] at h
    simp only [] at h
    split at h
    · cases h
    rename_i h5
    simp only [Bool.not_eq_true, Bool.not_eq_eq_eq_not, Bool.not_not, Bool.not_false, Bool.not_true, Bool.not_eq_false] at h5
    rw [nonempty_stored s7, List.all_eq_true] at h5
    have hne : ∀ t ∈ ts, t.pre ≠ [] := by
      intro t ht e
      have := h5 t ht
      rw [e] at this
      cases this
    rw [ordered_stored s7 hne] at h
    cases hx : Tree.ascendingHeads ts with
    | false => rw [hx] at h; cases h
    | true =>
      rw [hx] at h
      simp only [] at h
      rw [checkChildren] at h
      split at h
      rotate_left
      · cases h
      rw [s6.slots] at h
      cases hk : checkAll (checkNode l b fuel) cs ((r.pop l.keySize (b.node a).pre).push (b.node a).kids) with
      | ok r1 => rw [hk] at h; cases h
      | err e => rw [hk] at h; cases h
      | deep => rw [hk] at h; cases h
      | ub => exact checkAll_ub s7 (fun t ht a r hs => ih t ht fuel a r hs) _ hk

/-! ### Reading -/

omit [Ord K] [TransOrd K] in
theorem load_list {fuel : Nat} {cs : List Nat} {ts : List (Tree K V)} (h : StoredList l b cs ts)
    (hrec : ∀ t ∈ ts, ∀ a, Stored l b a t → load l b fuel a = some t) : cs.mapM (load l b fuel) = some ts := by
  induction cs generalizing ts with
  | nil => cases ts with
    | nil => rfl
    | cons => cases h
  | cons c cs ih =>
    cases ts with
    | nil => cases h
    | cons t ts =>
      simp only [List.mapM_cons, hrec t (by simp) c h.1, ih h.2 (fun t ht => hrec t (by simp [ht]))]
      rfl

omit [Ord K] [TransOrd K] in
theorem nodes_le_nodesL {t : Tree K V} {ts : List (Tree K V)} (h : t ∈ ts) : t.nodes ≤ Tree.nodes.nodesL ts := by
  induction ts with
  | nil => cases h
  | cons u ts ih =>
    rw [Tree.nodes.nodesL]
    rcases List.mem_cons.1 h with rfl | h
    · omega
    · have := ih h; omega

omit [Ord K] [TransOrd K] in
theorem load_stored (t : Tree K V) : ∀ (fuel a : Nat), t.nodes ≤ fuel → Stored l b a t → load l b fuel a = some t := by
  refine Tree.induct (P := fun t => ∀ (fuel a : Nat), t.nodes ≤ fuel → Stored l b a t → load l b fuel a = some t) ?_ t
  intro p v ts ih fuel a hf hs
  have hp := hs.prefix.1
  obtain ⟨-, -, -, s5, cs, s6, s7⟩ := hs
  rw [Tree.nodes] at hf
  cases fuel with
  | zero => omega
  | succ fuel =>
    rw [load, hp, valueAt, s5, childrenAt, s6.deref]
    simp only []
    rw [load_list s7 (fun t ht a hs => ih t ht fuel a (by have := nodes_le_nodesL ht; omega) hs)]

/-! ### Writing -/

theorem alignUp_le (align pos : Nat) : pos ≤ alignUp align pos := Nat.le_add_right _ _

theorem alignUp_mod {align : Nat} (h : 0 < align) (pos : Nat) : alignUp align pos % align = 0 := by
  rw [alignUp]
  by_cases hz : pos % align = 0
  · rw [hz, Nat.sub_zero, Nat.mod_self, Nat.add_zero, hz]
  · have hlt := Nat.mod_lt pos h
    rw [Nat.mod_eq_of_lt (show align - pos % align < align by omega)]
    have e : pos + (align - pos % align) = align * (pos / align) + align := by
      have := Nat.div_add_mod pos align
      omega
    rw [e, Nat.add_mod_right, Nat.mul_mod_right]

omit [Ord K] [TransOrd K] in
theorem mem_place {α : Type _} {size : Nat} {f : α → Obj K V} {pos : Nat} {xs : List α} {i : Nat} {x : α} (h : xs[i]? = some x) :
    (pos + i * size, f x) ∈ place size f pos xs := by
  induction xs generalizing pos i with
  | nil => cases h
  | cons y ys ih =>
    cases i with
    | zero =>
      simp only [List.getElem?_cons_zero, Option.some.injEq] at h
      rw [place, h, Nat.zero_mul, Nat.add_zero]
      exact List.mem_cons_self ..
    | succ i =>
      rw [List.getElem?_cons_succ] at h
      rw [place, show pos + (i + 1) * size = pos + size + i * size by rw [Nat.succ_mul]; omega]
      exact List.mem_cons_of_mem _ (ih h)

theorem range_map_succ (n s size : Nat) : (List.range (n + 1)).map (fun i => s + i * size) = s :: (List.range n).map (fun i => (s + size) + i * size) := by
  rw [List.range_succ_eq_map, List.map_cons, Nat.zero_mul, Nat.add_zero, List.map_map]
  congr 1
  apply List.map_congr_left
  intro i _
  simp only [Function.comp, Nat.succ_mul]
  omega

omit [Ord K] [TransOrd K] in
theorem keysAt_place {size : Nat} {s : Nat} {ks : List K} (h : Holds b (place size .key s ks)) :
    KeysAt b ((List.range ks.length).map (fun i => s + i * size)) ks := by
  induction ks generalizing s with
  | nil => exact trivial
  | cons k ks ih =>
    rw [List.length_cons, range_map_succ]
    rw [place] at h
    exact ⟨h (s, .key k) (List.mem_cons_self ..), ih (fun x hx => h x (List.mem_cons_of_mem _ hx))⟩

omit [Ord K] [TransOrd K] in
theorem Holds.left {xs ys : List (Nat × Obj K V)} (h : Holds b (xs ++ ys)) : Holds b xs := fun x hx => h x (List.mem_append_left _ hx)
omit [Ord K] [TransOrd K] in
theorem Holds.right {xs ys : List (Nat × Obj K V)} (h : Holds b (xs ++ ys)) : Holds b ys := fun x hx => h x (List.mem_append_right _ hx)

/-- nodes at the given positions have the given headers -/
def HdrsAt (b : Buf K V) : List Nat → List (Hdr V) → Prop
  | [], [] => True
  | x :: xs, k :: ks => b.node x = k ∧ HdrsAt b xs ks
  | _, _ => False

omit [Ord K] [TransOrd K] in
theorem hdrsAt_place {size : Nat} {s : Nat} {ks : List (Hdr V)} (h : Holds b (place size .node s ks)) :
    HdrsAt b ((List.range ks.length).map (fun i => s + i * size)) ks := by
  induction ks generalizing s with
  | nil => exact trivial
  | cons k ks ih =>
    rw [List.length_cons, range_map_succ]
    rw [place] at h
    exact ⟨h (s, .node k) (List.mem_cons_self ..), ih (fun x hx => h x (List.mem_cons_of_mem _ hx))⟩

omit [Ord K] [TransOrd K] in
theorem emitKids_length (ts : List (Tree K V)) (pos : Nat) : (emitKids l ts pos).2.1.length = ts.length := by
  induction ts generalizing pos with
  | nil => rfl
  | cons t ts ih => rw [emitKids]; simp [ih]

omit [Ord K] [TransOrd K] in
theorem emit_le (t : Tree K V) : ∀ pos, pos ≤ (emit l t pos).2.2 := by
  refine Tree.induct (P := fun t => ∀ pos, pos ≤ (emit l t pos).2.2) ?_ t
  intro p v ts ih pos
  have hk : ∀ (us : List (Tree K V)), (∀ u ∈ us, ∀ pos, pos ≤ (emit l u pos).2.2) → ∀ pos, pos ≤ (emitKids l us pos).2.2 := by
    intro us
    induction us with
    | nil => intro _ pos; exact Nat.le_refl _
    | cons u us ihu =>
      intro h pos
      rw [emitKids]
      exact Nat.le_trans (h u (by simp) pos) (ihu (fun x hx => h x (by simp [hx])) _)
  rw [emit]
  have h1 := alignUp_le l.keyAlign pos
  have h2 := hk ts ih (alignUp l.keyAlign pos + p.length * l.keySize)
  have h3 := alignUp_le l.nodeAlign (emitKids l ts (alignUp l.keyAlign pos + p.length * l.keySize)).2.2
  simp only []
  omega

omit [Ord K] [TransOrd K] in
theorem emitKids_le (ts : List (Tree K V)) (pos : Nat) : pos ≤ (emitKids l ts pos).2.2 := by
  induction ts generalizing pos with
  | nil => exact Nat.le_refl _
  | cons t ts ih => rw [emitKids]; exact Nat.le_trans (emit_le t pos) (ih _)

/-- what has been written is accepted, and is the tree -/
def Good (l : Layout) (b : Buf K V) (t : Tree K V) : Prop :=
  ∀ (fuel a pos : Nat) (r : Range), t.Valid → Holds b (emit l t pos).1 → b.node a = (emit l t pos).2.1 → a + l.nodeSize ≤ b.len → a % l.nodeAlign = 0 →
    r.lo ≤ pos → (emit l t pos).2.2 ≤ r.hi → (emit l t pos).2.2 ≤ b.len → r.hi < fuel →
    checkNode l b fuel a r = .ok ⟨(emit l t pos).2.2, r.hi⟩ ∧ Stored l b a t

omit [TransOrd K] in
theorem good_list {fuel : Nat} {ts : List (Tree K V)} (hg : ∀ t ∈ ts, Good l b t) (hv : ∀ t ∈ ts, t.Valid) :
    ∀ (cs : List Nat) (pos : Nat) (r : Range), Holds b (emitKids l ts pos).1 → HdrsAt b cs (emitKids l ts pos).2.1 →
      (∀ c ∈ cs, c + l.nodeSize ≤ b.len ∧ c % l.nodeAlign = 0) → r.lo ≤ pos → (emitKids l ts pos).2.2 ≤ r.hi → (emitKids l ts pos).2.2 ≤ b.len →
      r.hi < fuel → ∃ q, checkAll (checkNode l b fuel) cs r = .ok q ∧ StoredList l b cs ts := by
  induction ts with
  | nil =>
    intro cs pos r h1 h2 h3 h4 h5 h6 h7
    cases cs with
    | nil => exact ⟨r, rfl, trivial⟩
    | cons => cases h2
  | cons t ts ih =>
    intro cs pos r h1 h2 h3 h4 h5 h6 h7
    rw [emitKids] at h1 h2 h5 h6
    simp only [] at h1 h2 h5 h6
    cases cs with
    | nil => cases h2
    | cons c cs =>
      have hle := emitKids_le (l := l) ts (emit l t pos).2.2
      obtain ⟨g1, g2⟩ := hg t (by simp) fuel c pos r (hv t (by simp)) h1.left h2.1 (h3 c (by simp)).1 (h3 c (by simp)).2 h4 (by omega) (by omega) h7
      obtain ⟨q, k1, k2⟩ := ih (fun t ht => hg t (by simp [ht])) (fun t ht => hv t (by simp [ht])) cs (emit l t pos).2.2 ⟨(emit l t pos).2.2, r.hi⟩
        h1.right h2.2 (fun c hc => h3 c (by simp [hc])) (Nat.le_refl _) h5 h6 h7
      exact ⟨q, by rw [checkAll, g1]; exact k1, g2, k2⟩

theorem good (hl : l.Ok) (t : Tree K V) : Good l b t := by
  refine Tree.induct (P := fun t => Good l b t) ?_ t
  intro p v ts ih fuel a pos r hv h1 h2 h3 h4 h5 h6 h7 h8
  rw [emit] at h1 h2 h6 h7
  simp only [] at h1 h2 h6 h7
  have a1 := alignUp_le l.keyAlign pos
  have a2 := emitKids_le (l := l) ts (alignUp l.keyAlign pos + p.length * l.keySize)
  have a3 := alignUp_le l.nodeAlign (emitKids l ts (alignUp l.keyAlign pos + p.length * l.keySize)).2.2
  have a4 := alignUp_mod hl.keyAlign pos
  have a5 := alignUp_mod hl.nodeAlign (emitKids l ts (alignUp l.keyAlign pos + p.length * l.keySize)).2.2
  have a6 := emitKids_length (l := l) ts (alignUp l.keyAlign pos + p.length * l.keySize)
  have hend : (emit l ⟨p, v, ts⟩ pos).2.2 = alignUp l.nodeAlign (emitKids l ts (alignUp l.keyAlign pos + p.length * l.keySize)).2.2 + ts.length * l.nodeSize := by
    rw [emit]
  rw [hend]
  generalize hsk : alignUp l.keyAlign pos = sk at *
  generalize hek : emitKids l ts (sk + p.length * l.keySize) = ek at *
  generalize hsn : alignUp l.nodeAlign ek.2.2 = sn at *
  obtain ⟨hvn, hva, hvc⟩ : (∀ c ∈ ts, c.pre ≠ []) ∧ AscendingBy (fun c : Tree K V => c.pre.head?) ts ∧ ∀ c ∈ ts, c.Valid := by
    cases hv with
    | mk x y z => exact ⟨x, y, z⟩
  have hpre : SliceAt b l.keySize l.keyAlign (b.node a).pre ((List.range p.length).map (fun i => sk + i * l.keySize)) := by
    rw [h2]
    exact ⟨sk, rfl, a4, by simp only []; omega, rfl⟩
  have hkeys : KeysAt b ((List.range p.length).map (fun i => sk + i * l.keySize)) p := keysAt_place h1.left.left
  have hkid : SliceAt b l.nodeSize l.nodeAlign (b.node a).kids ((List.range ts.length).map (fun i => sn + i * l.nodeSize)) := by
    rw [h2]
    exact ⟨sn, rfl, a5, by simp only []; omega, rfl⟩
  have hh : HdrsAt b ((List.range ts.length).map (fun i => sn + i * l.nodeSize)) ek.2.1 := by
    have := hdrsAt_place h1.right
    rwa [a6] at this
  have hin : ∀ c ∈ (List.range ts.length).map (fun i => sn + i * l.nodeSize), c + l.nodeSize ≤ b.len ∧ c % l.nodeAlign = 0 := by
    intro c hc
    obtain ⟨i, hi, rfl⟩ := List.mem_map.1 hc
    rw [List.mem_range] at hi
    have hm : (i + 1) * l.nodeSize ≤ ts.length * l.nodeSize := Nat.mul_le_mul_right _ hi
    rw [Nat.succ_mul] at hm
    refine ⟨by omega, ?_⟩
    rw [Nat.add_mod, a5, Nat.mul_mod, hl.nodeSize, Nat.mul_zero]
    simp
  have hlist : ∀ f r, r.lo ≤ sk + p.length * l.keySize → ek.2.2 ≤ r.hi → r.hi < f → ∃ q, checkAll (checkNode l b f)
      ((List.range ts.length).map (fun i => sn + i * l.nodeSize)) r = .ok q ∧ StoredList l b ((List.range ts.length).map (fun i => sn + i * l.nodeSize)) ts := by
    intro f r r1 r2 r3
    refine good_list ih hvc _ (sk + p.length * l.keySize) r ?_ ?_ hin r1 ?_ ?_ r3
    · rw [hek]; exact h1.left.right
    · rw [hek]; exact hh
    · rw [hek]; exact r2
    · rw [hek]; omega
  have hst : StoredList l b ((List.range ts.length).map (fun i => sn + i * l.nodeSize)) ts := by
    obtain ⟨_, _, h⟩ := hlist (ek.2.2 + 1) ⟨sk + p.length * l.keySize, ek.2.2⟩ (Nat.le_refl _) (Nat.le_refl _) (Nat.lt_succ_self _)
    exact h
  refine ⟨?_, h3, h4, ⟨_, hpre, hkeys⟩, by rw [h2], _, hkid, hst⟩
  cases fuel with
  | zero => omega
  | succ fuel =>
    rw [checkNode, if_neg (by simp [h3, h4]), if_neg, if_neg, if_neg]
    · rw [hkid.deref]
      simp only []
      rw [if_neg]
      · rw [ordered_stored hst hvn, (Tree.ascendingHeads_iff ts).2 hva]
        simp only []
        rw [checkChildren, if_pos]
        · rw [hkid.slots]
          have e1 : (b.node a).kids.target.toNat = sn := by rw [h2]; simp
          have e2 : (b.node a).kids.len = ts.length := by rw [h2]
          have e3 : (b.node a).pre.target.toNat = sk := by rw [h2]; simp
          have e4 : (b.node a).pre.len = p.length := by rw [h2]
          cases hts : ts with
          | nil =>
            simp only [List.length_nil, List.range_zero, List.map_nil, checkAll, Range.pop, e1, e2, hts]
          | cons t0 ts0 =>
            rw [← hts]
            have hpos : 0 < ts.length := by rw [hts]; simp
            have hm : 1 * l.nodeSize ≤ ts.length * l.nodeSize := Nat.mul_le_mul_right _ hpos
            have := hl.node
            obtain ⟨q, k1, -⟩ := hlist fuel ((r.pop l.keySize (b.node a).pre).push (b.node a).kids)
              (by simp only [Range.push, Range.pop, e3, e4]; exact Nat.le_refl _) (by simp only [Range.push, Range.pop, e1]; omega)
              (by simp only [Range.push, Range.pop, e1]; omega)
            rw [k1]
            simp only [Range.pop, e1, e2]
        · rw [checkPtr_iff, hkid.slots]
          refine ⟨hkid, ?_, ?_⟩
          · rw [h2]; simp only [Range.pop, Int.toNat_natCast]; omega
          · rw [h2]; simp only [Range.pop, Int.toNat_natCast]; omega
      · rw [nonempty_stored hst]
        have : ts.all (fun t => !t.pre.isEmpty) = true := by
          rw [List.all_eq_true]
          intro t ht
          have := hvn t ht
          cases hp : t.pre with
          | nil => exact absurd hp this
          | cons => rfl
        simp [this]
    · rw [h2]; simp
    · rw [hpre.slots, hkeys.all]; simp
    · have : checkPtr b l.keySize l.keyAlign r (b.node a).pre = true := by
        rw [checkPtr_iff, hpre.slots]
        refine ⟨hpre, ?_, ?_⟩
        · rw [h2]; simp only [Int.toNat_natCast]; omega
        · rw [h2]; simp only [Int.toNat_natCast]; omega
      simp [this]


/-! ### What is written does not overlap -/

/-- positions ascend and are between the limits -/
def Within (lo hi : Nat) (objs : List (Nat × Obj K V)) : Prop :=
  objs.Pairwise (fun x y => x.1 < y.1) ∧ ∀ x ∈ objs, lo ≤ x.1 ∧ x.1 < hi

omit [Ord K] [TransOrd K] in
theorem Within.append {lo mid hi : Nat} {xs ys : List (Nat × Obj K V)} (h1 : Within lo mid xs) (h2 : Within mid hi ys) (h : lo ≤ mid) (h' : mid ≤ hi) :
    Within lo hi (xs ++ ys) := by
  refine ⟨List.pairwise_append.2 ⟨h1.1, h2.1, fun x hx y hy => ?_⟩, fun x hx => ?_⟩
  · have := h1.2 x hx
    have := h2.2 y hy
    omega
  · rcases List.mem_append.1 hx with hx | hx
    · have := h1.2 x hx; omega
    · have := h2.2 x hx; omega

omit [Ord K] [TransOrd K] in
theorem Within.mono {lo hi lo' hi' : Nat} {xs : List (Nat × Obj K V)} (h1 : Within lo hi xs) (h : lo' ≤ lo) (h' : hi ≤ hi') : Within lo' hi' xs :=
  ⟨h1.1, fun x hx => by have := h1.2 x hx; omega⟩

omit [Ord K] [TransOrd K] in
theorem within_place {α : Type _} {size : Nat} (hs : 0 < size) (f : α → Obj K V) (s : Nat) (xs : List α) : Within s (s + xs.length * size) (place size f s xs) := by
  induction xs generalizing s with
  | nil => exact ⟨.nil, by simp [place]⟩
  | cons x xs ih =>
    have h := ih (s + size)
    rw [place, List.length_cons, Nat.succ_mul]
    refine ⟨.cons (fun y hy => ?_) h.1, fun y hy => ?_⟩
    · have := h.2 y hy
      simp only [] at *
      omega
    · rcases List.mem_cons.1 hy with rfl | hy
      · simp only []; omega
      · have := h.2 y hy
        omega

omit [Ord K] [TransOrd K] in
theorem within_emit (hk : 0 < l.keySize) (hn : 0 < l.nodeSize) (t : Tree K V) : ∀ pos, Within pos (emit l t pos).2.2 (emit l t pos).1 := by
  refine Tree.induct (P := fun t => ∀ pos, Within pos (emit l t pos).2.2 (emit l t pos).1) ?_ t
  intro p v ts ih pos
  have hkids : ∀ (us : List (Tree K V)), (∀ u ∈ us, ∀ pos, Within pos (emit l u pos).2.2 (emit l u pos).1) →
      ∀ pos, Within pos (emitKids l us pos).2.2 (emitKids l us pos).1 := by
    intro us
    induction us with
    | nil => intro _ pos; exact ⟨.nil, by simp [emitKids]⟩
    | cons u us ihu =>
      intro h pos
      rw [emitKids]
      exact (h u (by simp) pos).append (ihu (fun x hx => h x (by simp [hx])) _) (emit_le u pos) (emitKids_le us _)
  rw [emit]
  simp only []
  have h1 := alignUp_le l.keyAlign pos
  have h2 := emitKids_le (l := l) ts (alignUp l.keyAlign pos + p.length * l.keySize)
  have h3 := alignUp_le l.nodeAlign (emitKids l ts (alignUp l.keyAlign pos + p.length * l.keySize)).2.2
  have hl := emitKids_length (l := l) ts (alignUp l.keyAlign pos + p.length * l.keySize)
  have w1 := within_place (K := K) (V := V) hk .key (alignUp l.keyAlign pos) p
  have w2 := hkids ts ih (alignUp l.keyAlign pos + p.length * l.keySize)
  have w3 := within_place (K := K) (V := V) hn .node (alignUp l.nodeAlign (emitKids l ts (alignUp l.keyAlign pos + p.length * l.keySize)).2.2)
    (emitKids l ts (alignUp l.keyAlign pos + p.length * l.keySize)).2.1
  rw [hl] at w3
  exact (((w1.append w2 (by omega) h2).mono h1 (Nat.le_refl _)).append (w3.mono h3 (Nat.le_refl _)) (by omega) (by omega))

omit [Ord K] [TransOrd K] in
/-- objects at ascending positions can be in a buffer together -/
theorem exists_buf [Inhabited (Hdr V)] {objs : List (Nat × Obj K V)} (h : objs.Pairwise (fun x y => x.1 < y.1)) (len : Nat) :
    ∃ b : Buf K V, b.len = len ∧ Holds b objs := by
  have key : ∀ (objs : List (Nat × Obj K V)), objs.Pairwise (fun x y => x.1 < y.1) → ∀ x ∈ objs, objs.find? (fun y => y.1 == x.1) = some x := by
    intro objs h
    induction objs with
    | nil => intro x hx; cases hx
    | cons o os ih =>
      intro x hx
      rw [List.pairwise_cons] at h
      rcases List.mem_cons.1 hx with rfl | hx
      · simp
      · have := h.1 x hx
        rw [List.find?_cons_of_neg (by simp; omega)]
        exact ih h.2 x hx
  refine ⟨⟨len, fun a => match objs.find? (fun y => y.1 == a) with | some (_, .key k) => some k | _ => none,
    fun a => match objs.find? (fun y => y.1 == a) with | some (_, .node h) => h | _ => default⟩, rfl, ?_⟩
  intro x hx
  have := key objs h x hx
  obtain ⟨a, o⟩ := x
  simp only [] at this
  cases o with
  | key k => simp only [this]
  | node h => simp only [this]

/-! ### Sets and maps -/

omit [Ord K] [TransOrd K] in
theorem ascending_keys {cmp : K → K → Ordering} {xs : List Nat} {ks : List K} (h : KeysAt b xs ks) :
    ascending cmp b xs = .ok ((ks.zip (ks.drop 1)).all (fun p => cmp p.1 p.2 == .lt)) := by
  induction xs generalizing ks with
  | nil => cases ks with
    | nil => rfl
    | cons => cases h
  | cons x xs ih =>
    cases ks with
    | nil => cases h
    | cons k ks =>
      cases xs with
      | nil => cases ks with
        | nil => rfl
        | cons => cases h.2
      | cons y ys => cases ks with
        | nil => cases h.2
        | cons k' ks =>
          rw [ascending, h.1, h.2.1]
          simp only []
          rw [ih h.2]
          cases hc : cmp k k' <;> simp [hc]

omit [Ord K] [TransOrd K] in
theorem checkVec_cases (cmp : K → K → Ordering) (size align : Nat) (b : Buf K V) (r : Range) (p : VecPtr) :
    (checkVec cmp size align b r p = .err .value ∧ ¬(checkPtr b size align r p = true ∧ ∃ xs ks, SliceAt b size align p xs ∧ KeysAt b xs ks)) ∨
    ∃ xs ks, checkPtr b size align r p = true ∧ SliceAt b size align p xs ∧ KeysAt b xs ks ∧
      checkVec cmp size align b r p = if (ks.zip (ks.drop 1)).all (fun p => cmp p.1 p.2 == .lt) then .ok (r.pop size p) else .err .order := by
  rw [checkVec]
  by_cases h1 : checkPtr b size align r p = true
  · rw [if_neg (by simp [h1])]
    obtain ⟨h2, -, -⟩ := checkPtr_iff.1 h1
    by_cases h3 : (slots size p).all (fun x => (b.key x).isSome) = true
    · rw [if_neg (by rw [h3]; simp), h2.deref]
      obtain ⟨ks, hk⟩ := keysAt_of_all h3
      refine .inr ⟨_, ks, h1, h2, hk, ?_⟩
      simp only [ascending_keys hk]
      cases (ks.zip (ks.drop 1)).all (fun p => cmp p.1 p.2 == .lt) <;> rfl
    · rw [if_pos (by simpa using h3)]
      refine .inl ⟨rfl, ?_⟩
      rintro ⟨-, xs, ks, g1, g2⟩
      rw [← g1.slots] at g2
      exact h3 g2.all
  · rw [if_pos (by simp [h1])]
    exact .inl ⟨rfl, fun h => h1 h.1⟩

omit [Ord K] [TransOrd K] in
theorem zip_pairwise {cmp : K → K → Ordering} [TransCmp cmp] (ks : List K) :
    (ks.zip (ks.drop 1)).all (fun p => cmp p.1 p.2 == .lt) = true ↔ ks.Pairwise (fun x y => cmp x y = .lt) := by
  induction ks with
  | nil => simp
  | cons k ks ih =>
    cases ks with
    | nil => simp
    | cons k' ks =>
      simp only [List.drop_succ_cons, List.drop_zero, List.zip_cons_cons, List.all_cons, Bool.and_eq_true, beq_iff_eq] at ih ⊢
      rw [ih, List.pairwise_cons (a := k)]
      constructor
      · rintro ⟨h1, h2⟩
        refine ⟨fun y hy => ?_, h2⟩
        rcases List.mem_cons.1 hy with rfl | hy
        · exact h1
        · exact TransCmp.lt_trans h1 ((List.pairwise_cons.1 h2).1 y hy)
      · rintro ⟨h1, h2⟩
        exact ⟨h1 k' (by simp), h2⟩

end Archive
end Verif
