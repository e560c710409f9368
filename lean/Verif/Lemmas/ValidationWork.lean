import Verif.Model.ValidationWork
import Verif.Lemmas.ArcArchiveLoad
/-!
# Lemmas about the work of validation
-/
namespace Verif
namespace Archive
open Std
section
variable {K V : Type _} [Ord K] {l : Layout} {b : Buf K V}

theorem checkAllW_fst {rec : Nat → Range → Res Range} {recW : Nat → Range → Res Range × Nat} (h : ∀ a r, (recW a r).1 = rec a r) :
    ∀ (cs : List Nat) (r : Range), (checkAllW recW cs r).1 = checkAll rec cs r := by
  intro cs
  induction cs with
  | nil => intro r; rfl
  | cons c cs ih =>
    intro r
    have h1 := h c r
    rw [checkAllW, checkAll]
    rcases hx : recW c r with ⟨e, n⟩
    rw [hx] at h1
    simp only [] at h1
    rw [← h1]
    cases e with
    | ok r1 => exact ih r1
    | err e => rfl
    | ub => rfl
    | deep => rfl

theorem checkChildrenW_fst {rec : Nat → Range → Res Range} {recW : Nat → Range → Res Range × Nat} (h : ∀ a r, (recW a r).1 = rec a r) (r : Range) (p : VecPtr) :
    (checkChildrenW l b recW r p).1 = checkChildren l b rec r p := by
  rw [checkChildrenW, checkChildren]
  split
  · have h1 := checkAllW_fst h (slots l.nodeSize p) (r.push p)
    rcases hx : checkAllW recW (slots l.nodeSize p) (r.push p) with ⟨e, n⟩
    rw [hx] at h1
    simp only [] at h1
    rw [← h1]
    cases e <;> rfl
  · rfl

theorem checkNodeW_fst : ∀ (fuel a : Nat) (r : Range), (checkNodeW l b fuel a r).1 = checkNode l b fuel a r := by
  intro fuel
  induction fuel with
  | zero => intro a r; rfl
  | succ fuel ih =>
    intro a r
    rw [checkNodeW, checkNode]
    split
    · rfl
    split
    · rfl
    split
    · rfl
    split
    · rfl
    cases hd : deref b l.nodeSize l.nodeAlign (b.node a).kids with
    | none => rfl
    | some cs =>
      simp only []
      split
      · rfl
      cases ordered l b cs with
      | err e => rfl
      | ub => rfl
      | deep => rfl
      | ok x =>
        cases x with
        | false => rfl
        | true => exact checkChildrenW_fst ih _ _

/-- the bound for a node: if it is accepted, in terms of what it takes of the range; otherwise, of the range and the buffer -/
def Bounded (n : Nat) (r : Range) (x : Res Range × Nat) (k : Nat) : Prop :=
  (∀ r', x.1 = .ok r' → r'.hi = r.hi ∧ r.lo ≤ r'.lo ∧ r'.lo ≤ r.hi ∧ x.2 ≤ k + 3 * (r'.lo - r.lo)) ∧ x.2 ≤ k + 3 * (r.hi - r.lo) + 2 * n

theorem checkAllW_bounded {n : Nat} {rec : Nat → Range → Res Range × Nat} (h : ∀ a r, r.lo ≤ r.hi → Bounded n r (rec a r) 1) :
    ∀ (cs : List Nat) (r : Range), r.lo ≤ r.hi → Bounded n r (checkAllW rec cs r) cs.length := by
  intro cs
  induction cs with
  | nil =>
    intro r hr
    refine ⟨fun r' h => ?_, Nat.zero_le _⟩
    rw [checkAllW] at h ⊢
    cases h
    exact ⟨rfl, Nat.le_refl _, hr, Nat.zero_le _⟩
  | cons c cs ih =>
    intro r hr
    obtain ⟨h1, h2⟩ := h c r hr
    rw [checkAllW]
    rcases hx : rec c r with ⟨e, m⟩
    rw [hx] at h1 h2
    simp only [] at h1 h2
    rw [List.length_cons]
    cases e with
    | ok r1 =>
      obtain ⟨k1, k2, k3, k4⟩ := h1 r1 rfl
      obtain ⟨j1, j2⟩ := ih r1 (by omega)
      simp only []
      refine ⟨fun r' he => ?_, by omega⟩
      obtain ⟨i1, i2, i3, i4⟩ := j1 r' he
      simp only []
      omega
    | err e => exact ⟨fun r' he => (by cases he), by simp only []; omega⟩
    | ub => exact ⟨fun r' he => (by cases he), by simp only []; omega⟩
    | deep => exact ⟨fun r' he => (by cases he), by simp only []; omega⟩

theorem deref_le {cs : List Nat} {p : VecPtr} {size align : Nat} (hs : 0 < size) (h : deref b size align p = some cs) : cs.length ≤ b.len ∧ cs.length = p.len := by
  rw [deref] at h
  split at h
  rotate_left
  · cases h
  rename_i hd
  have e := Option.some.inj h
  have hl : cs.length = p.len := by rw [← e, slots, List.length_map, List.length_range]
  simp only [Bool.and_eq_true, Bool.or_eq_true, decide_eq_true_eq, inBuf] at hd
  have : p.len * 1 ≤ p.len * size := Nat.mul_le_mul_left _ hs
  refine ⟨?_, hl⟩
  rcases hd.2 with h0 | h0 <;> omega

theorem checkNodeW_bounded (hn : 0 < l.nodeSize) (hk : 0 < l.keySize) : ∀ (fuel a : Nat) (r : Range), r.lo ≤ r.hi → Bounded b.len r (checkNodeW l b fuel a r) 1 := by
  intro fuel
  induction fuel with
  | zero => intro a r hr; exact ⟨fun r' h => (by cases h), Nat.zero_le _⟩
  | succ fuel ih =>
    intro a r hr
    rw [checkNodeW]
    split
    · exact ⟨fun r' h => (by cases h), by simp only []; omega⟩
    split
    · exact ⟨fun r' h => (by cases h), by simp only []; omega⟩
    rename_i h2
    simp only [Bool.not_eq_true, Bool.not_eq_eq_eq_not, Bool.not_not, Bool.not_false, Bool.not_true, Bool.not_eq_false] at h2
    rw [checkPtr_iff] at h2
    obtain ⟨h2s, h2l, h2h⟩ := h2
    have e1 : (b.node a).pre.len * 1 ≤ (b.node a).pre.len * l.keySize := Nat.mul_le_mul_left _ hk
    split
    · exact ⟨fun r' h => (by cases h), by simp only []; omega⟩
    split
    · exact ⟨fun r' h => (by cases h), by simp only []; omega⟩
    split
    · exact ⟨fun r' h => (by cases h), by simp only []; omega⟩
    rename_i cs hd
    obtain ⟨d1, d2⟩ := deref_le hn hd
    split
    · exact ⟨fun r' h => (by cases h), by simp only []; omega⟩
    split
    · rw [checkChildrenW]
      split
      · rename_i h6
        rw [checkPtr_iff] at h6
        obtain ⟨h6, h6l, h6h⟩ := h6
        simp only [Range.pop] at h6l h6h
        have e2 : (b.node a).kids.len * 1 ≤ (b.node a).kids.len * l.nodeSize := Nat.mul_le_mul_left _ hn
        obtain ⟨k1, k2⟩ := checkAllW_bounded ih (slots l.nodeSize (b.node a).kids) ((r.pop l.keySize (b.node a).pre).push (b.node a).kids)
          (by simp only [Range.push, Range.pop]; omega)
        have e3 : (slots l.nodeSize (b.node a).kids).length = (b.node a).kids.len := by rw [slots, List.length_map, List.length_range]
        rw [e3] at k1 k2
        simp only [Range.push, Range.pop] at k1 k2 ⊢
        rcases hx : checkAllW (checkNodeW l b fuel) (slots l.nodeSize (b.node a).kids)
          ⟨(b.node a).pre.target.toNat + (b.node a).pre.len * l.keySize, (b.node a).kids.target.toNat⟩ with ⟨e, m⟩
        rw [hx] at k1 k2
        simp only [] at k1 k2
        cases e with
        | ok r1 =>
          obtain ⟨i1, i2, i3, i4⟩ := k1 r1 rfl
          refine ⟨fun r' he => ?_, by simp only []; omega⟩
          cases he
          refine ⟨rfl, ?_, ?_, ?_⟩ <;> simp only [] <;> omega
        | err e => exact ⟨fun r' he => (by cases he), by simp only []; omega⟩
        | ub => exact ⟨fun r' he => (by cases he), by simp only []; omega⟩
        | deep => exact ⟨fun r' he => (by cases he), by simp only []; omega⟩
      · exact ⟨fun r' h => (by cases h), by simp only []; omega⟩
    · exact ⟨fun r' h => (by cases h), by simp only []; omega⟩
    · exact ⟨fun r' h => (by cases h), by simp only []; omega⟩
    · exact ⟨fun r' h => (by cases h), by simp only []; omega⟩
    · exact ⟨fun r' h => (by cases h), by simp only []; omega⟩

end
end Archive

namespace ArcArchive
open Std Archive
section
variable {K V : Type _} [Ord K] {l : ALayout} {b : ABuf K V}

theorem checkEachW_fst {rec : Nat → Ctx → Res Ctx} {recW : Nat → Ctx → Res Ctx × Work} (h : ∀ a r, (recW a r).1 = rec a r) :
    ∀ (cs : List Nat) (r : Ctx), (checkEachW recW cs r).1 = checkEach rec cs r := by
  intro cs
  induction cs with
  | nil => intro r; rfl
  | cons c cs ih =>
    intro r
    have h1 := h c r
    rw [checkEachW, checkEach]
    rcases hx : recW c r with ⟨e, n⟩
    rw [hx] at h1
    simp only [] at h1
    rw [← h1]
    cases e with
    | ok r1 => exact ih r1
    | err e => rfl
    | ub => rfl
    | deep => rfl

theorem checkArcW_fst {rec : Nat → Ctx → Res Ctx} {recW : Nat → Ctx → Res Ctx × Work} (h : ∀ a r, (recW a r).1 = rec a r) (c : Ctx) (t : Int) :
    (checkArcW l b recW c t).1 = checkArc l b rec c t := by
  rw [checkArcW, checkArc]
  split
  · rfl
  split
  · rfl
  split
  · rfl
  split
  · rfl
  have h1 := checkEachW_fst h (slots l.nodeSize (b.vec t.toNat)) ⟨⟨c.rng.lo, (b.vec t.toNat).target.toNat⟩, t.toNat :: c.seen⟩
  rcases hx : checkEachW recW (slots l.nodeSize (b.vec t.toNat)) ⟨⟨c.rng.lo, (b.vec t.toNat).target.toNat⟩, t.toNat :: c.seen⟩ with ⟨e, n⟩
  rw [hx] at h1
  simp only [] at h1
  rw [← h1]
  cases e <;> rfl

theorem checkNodeW_fst : ∀ (fuel a : Nat) (c : Ctx), (checkNodeW l b fuel a c).1 = checkNode l b fuel a c := by
  intro fuel
  induction fuel with
  | zero => intro a r; rfl
  | succ fuel ih =>
    intro a r
    rw [checkNodeW, checkNode]
    split
    · rfl
    split
    · rfl
    split
    · rfl
    split
    · rfl
    cases hd : derefArc l b (b.node a).kids with
    | none => rfl
    | some cs =>
      simp only []
      split
      · rfl
      cases ordered l.toLayout b.flat cs with
      | err e => rfl
      | ub => rfl
      | deep => rfl
      | ok x =>
        cases x with
        | false => rfl
        | true => exact checkArcW_fst ih _ _

/-- the bound for a node -/
def Bounded (n : Nat) (r : Range) (x : Res Ctx × Work) (k : Nat) : Prop :=
  (∀ c', x.1 = .ok c' → c'.rng.hi = r.hi ∧ r.lo ≤ c'.rng.lo ∧ c'.rng.lo ≤ r.hi ∧ x.2.checks ≤ k + (c'.rng.lo - r.lo)) ∧
  x.2.checks ≤ k + (r.hi - r.lo) ∧ x.2.looks ≤ 2 * n * x.2.checks

theorem checkEachW_bounded {n : Nat} {rec : Nat → Ctx → Res Ctx × Work} (h : ∀ a c, c.rng.lo ≤ c.rng.hi → Bounded n c.rng (rec a c) 1) :
    ∀ (cs : List Nat) (c : Ctx), c.rng.lo ≤ c.rng.hi → Bounded n c.rng (checkEachW rec cs c) cs.length := by
  intro cs
  induction cs with
  | nil =>
    intro r hr
    refine ⟨fun r' h => ?_, Nat.zero_le _, Nat.zero_le _⟩
    rw [checkEachW] at h ⊢
    cases h
    exact ⟨rfl, Nat.le_refl _, hr, Nat.zero_le _⟩
  | cons c cs ih =>
    intro r hr
    obtain ⟨h1, h2, h3⟩ := h c r hr
    rw [checkEachW]
    rcases hx : rec c r with ⟨e, m⟩
    rw [hx] at h1 h2 h3
    simp only [] at h1 h2 h3
    rw [List.length_cons]
    cases e with
    | ok r1 =>
      obtain ⟨k1, k2, k3, k4⟩ := h1 r1 rfl
      obtain ⟨j1, j2, j3⟩ := ih r1 (by omega)
      simp only [Work.add]
      refine ⟨fun r' he => ?_, by simp only []; omega, by simp only []; rw [Nat.mul_add]; omega⟩
      obtain ⟨i1, i2, i3, i4⟩ := j1 r' he
      simp only []
      omega
    | err e => exact ⟨fun r' he => (by cases he), by simp only []; omega, h3⟩
    | ub => exact ⟨fun r' he => (by cases he), by simp only []; omega, h3⟩
    | deep => exact ⟨fun r' he => (by cases he), by simp only []; omega, h3⟩

theorem derefArc_le {cs : List Nat} {t : Int} (hs : 0 < l.nodeSize) (h : derefArc l b t = some cs) : cs.length ≤ b.len := by
  rw [derefArc] at h
  split at h
  · exact (deref_le (b := b.flat) hs h).1
  · cases h

theorem looks_le {n k p : Nat} (h : k ≤ n) : 2 * k ≤ 2 * n * (1 + p) := by
  rw [Nat.mul_add]
  omega

theorem checkNodeW_bounded (hn : 0 < l.nodeSize) (hk : 0 < l.keySize) : ∀ (fuel a : Nat) (c : Ctx), c.rng.lo ≤ c.rng.hi →
    Bounded b.len c.rng (checkNodeW l b fuel a c) 1 := by
  intro fuel
  induction fuel with
  | zero => intro a r hr; exact ⟨fun r' h => (by cases h), Nat.zero_le _, Nat.zero_le _⟩
  | succ fuel ih =>
    intro a c hr
    rw [checkNodeW]
    split
    · exact ⟨fun r' h => (by cases h), by simp only []; omega, Nat.zero_le _⟩
    split
    · exact ⟨fun r' h => (by cases h), by simp only []; omega, Nat.zero_le _⟩
    rename_i h2
    simp only [Bool.not_eq_true, Bool.not_eq_eq_eq_not, Bool.not_not, Bool.not_false, Bool.not_true, Bool.not_eq_false] at h2
    rw [checkPtr_iff] at h2
    obtain ⟨h2s, h2l, h2h⟩ := h2
    have e1 : (b.node a).pre.len * 1 ≤ (b.node a).pre.len * l.keySize := Nat.mul_le_mul_left _ hk
    split
    · exact ⟨fun r' h => (by cases h), by simp only []; omega, Nat.zero_le _⟩
    split
    · exact ⟨fun r' h => (by cases h), by simp only []; omega, Nat.zero_le _⟩
    split
    · exact ⟨fun r' h => (by cases h), by simp only []; omega, Nat.zero_le _⟩
    rename_i cs hd
    have d1 := derefArc_le hn hd
    have d2 := looks_le (p := (b.node a).pre.len) d1
    split
    · exact ⟨fun r' h => (by cases h), by simp only []; omega, by simp only []; omega⟩
    split
    · rw [checkArcW]
      split
      · exact ⟨fun r' h => (by cases h), by simp only [Work.add]; omega, by simp only [Work.add]; exact d2⟩
      split
      · refine ⟨fun r' h => ?_, by simp only [Work.add]; omega, by simp only [Work.add]; exact d2⟩
        cases h
        refine ⟨rfl, ?_, ?_, ?_⟩ <;> simp only [Work.add, Range.pop] <;> omega
      split
      · exact ⟨fun r' h => (by cases h), by simp only [Work.add]; omega, by simp only [Work.add]; exact d2⟩
      rename_i h3
      split
      · exact ⟨fun r' h => (by cases h), by simp only [Work.add]; omega, by simp only [Work.add]; exact d2⟩
      rename_i h4
      simp only [Bool.not_eq_true, Bool.not_eq_eq_eq_not, Bool.not_not, Bool.not_false, Bool.not_true, Bool.and_eq_true, decide_eq_true_eq,
        Bool.not_eq_false, Range.pop] at h3 h4
      have h3' := of_decide_eq_true h3.1
      have h3'' := of_decide_eq_true h3.2
      rw [checkPtr_iff] at h4
      obtain ⟨h4s, h4l, h4h⟩ := h4
      simp only [] at h4l h4h
      have e2 : (b.vec (b.node a).kids.toNat).len * 1 ≤ (b.vec (b.node a).kids.toNat).len * l.nodeSize := Nat.mul_le_mul_left _ hn
      obtain ⟨k1, k2, k3⟩ := checkEachW_bounded ih (slots l.nodeSize (b.vec (b.node a).kids.toNat))
        ⟨⟨(c.rng.pop l.keySize (b.node a).pre).lo, (b.vec (b.node a).kids.toNat).target.toNat⟩, (b.node a).kids.toNat :: c.seen⟩
        (by simp only [Range.pop]; omega)
      have e3 : (slots l.nodeSize (b.vec (b.node a).kids.toNat)).length = (b.vec (b.node a).kids.toNat).len := by rw [slots, List.length_map, List.length_range]
      rw [e3] at k1 k2
      simp only [Range.pop] at k1 k2 k3 ⊢
      rcases hx : checkEachW (checkNodeW l b fuel) (slots l.nodeSize (b.vec (b.node a).kids.toNat))
        ⟨⟨(b.node a).pre.target.toNat + (b.node a).pre.len * l.keySize, (b.vec (b.node a).kids.toNat).target.toNat⟩, (b.node a).kids.toNat :: c.seen⟩ with ⟨e, m⟩
      rw [hx] at k1 k2 k3
      simp only [] at k1 k2 k3
      have k4 : 2 * cs.length + m.looks ≤ 2 * b.len * (1 + (b.node a).pre.len + m.checks) := by
        rw [Nat.mul_add]
        omega
      cases e with
      | ok r1 =>
        obtain ⟨i1, i2, i3, i4⟩ := k1 r1 rfl
        refine ⟨fun r' he => ?_, by simp only [Work.add]; omega, by simp only [Work.add]; exact k4⟩
        cases he
        refine ⟨rfl, ?_, ?_, ?_⟩ <;> simp only [Work.add] <;> omega
      | err e => exact ⟨fun r' he => (by cases he), by simp only [Work.add]; omega, by simp only [Work.add]; exact k4⟩
      | ub => exact ⟨fun r' he => (by cases he), by simp only [Work.add]; omega, by simp only [Work.add]; exact k4⟩
      | deep => exact ⟨fun r' he => (by cases he), by simp only [Work.add]; omega, by simp only [Work.add]; exact k4⟩
    · exact ⟨fun r' h => (by cases h), by simp only []; omega, by simp only []; exact d2⟩
    · exact ⟨fun r' h => (by cases h), by simp only []; omega, by simp only []; exact d2⟩
    · exact ⟨fun r' h => (by cases h), by simp only []; omega, by simp only []; exact d2⟩
    · exact ⟨fun r' h => (by cases h), by simp only []; omega, by simp only []; exact d2⟩

theorem checkEachW_least {rec : Nat → Ctx → Res Ctx × Work} {f : Nat → Nat} (h : ∀ a c c', (rec a c).1 = .ok c' → f a ≤ (rec a c).2.looks) :
    ∀ (cs : List Nat) (c c' : Ctx), (checkEachW rec cs c).1 = .ok c' → (cs.map f).sum ≤ (checkEachW rec cs c).2.looks := by
  intro cs
  induction cs with
  | nil => intro c c' _; exact Nat.zero_le _
  | cons x xs ih =>
    intro c c' ho
    have h1 := h x c
    rw [checkEachW] at ho ⊢
    rcases hx : rec x c with ⟨e, n⟩
    rw [hx] at ho h1
    cases e with
    | ok c1 =>
      have h2 := ih c1 c' ho
      have h3 := h1 c1 rfl
      simp only [Work.add, List.map_cons, List.sum_cons] at h3 ⊢
      omega
    | err e => cases ho
    | ub => cases ho
    | deep => cases ho

/-- the number of children of the node at a position, `0` if they cannot be reached -/
def kidsAt (l : ALayout) (b : ABuf K V) (a : Nat) : Nat :=
  match derefArc l b (b.node a).kids with
  | some cs => cs.length
  | none => 0

theorem checkNodeW_least (fuel a : Nat) (c c' : Ctx) (h : (checkNodeW l b fuel a c).1 = .ok c') : 2 * kidsAt l b a ≤ (checkNodeW l b fuel a c).2.looks := by
  cases fuel with
  | zero => cases h
  | succ fuel =>
    rw [checkNodeW] at h ⊢
    rw [kidsAt]
    split at h
    · cases h
    rename_i h1
    rw [if_neg h1]
    split at h
    · cases h
    rename_i h2
    rw [if_neg h2]
    split at h
    · cases h
    rename_i h3
    rw [if_neg h3]
    split at h
    · cases h
    rename_i h4
    rw [if_neg h4]
    cases hd : derefArc l b (b.node a).kids with
    | none => simp only [Nat.mul_zero]; exact Nat.zero_le _
    | some cs =>
      rw [hd] at h
      simp only [] at h ⊢
      split at h
      · cases h
      rename_i h5
      rw [if_neg h5]
      cases ho : ordered l.toLayout b.flat cs with
      | err e => rw [ho] at h; cases h
      | ub => rw [ho] at h; cases h
      | deep => rw [ho] at h; cases h
      | ok x =>
        rw [ho] at h
        cases x with
        | false => cases h
        | true => simp only [Work.add]; omega

/-- the root and its children -/
theorem checkNodeW_least_two (fuel a : Nat) (r : Range) (c' : Ctx) (cs : List Nat) (hcs : derefArc l b (b.node a).kids = some cs)
    (h : (checkNodeW l b (fuel + 1) a ⟨r, []⟩).1 = .ok c') :
    2 * cs.length + (cs.map (fun x => 2 * kidsAt l b x)).sum ≤ (checkNodeW l b (fuel + 1) a ⟨r, []⟩).2.looks := by
  rw [checkNodeW] at h ⊢
  split at h
  · cases h
  rename_i h1
  rw [if_neg h1]
  split at h
  · cases h
  rename_i h2
  rw [if_neg h2]
  split at h
  · cases h
  rename_i h3
  rw [if_neg h3]
  split at h
  · cases h
  rename_i h4
  rw [if_neg h4]
  rw [hcs] at h ⊢
  simp only [] at h ⊢
  split at h
  · cases h
  rename_i h5
  rw [if_neg h5]
  cases ho : ordered l.toLayout b.flat cs with
  | err e => rw [ho] at h; cases h
  | ub => rw [ho] at h; cases h
  | deep => rw [ho] at h; cases h
  | ok x =>
    rw [ho] at h
    cases x with
    | false => cases h
    | true =>
      have e : slots l.nodeSize (b.vec (b.node a).kids.toNat) = cs := by
        rw [derefArc] at hcs
        split at hcs
        · rw [deref] at hcs
          split at hcs
          · exact Option.some.inj hcs
          · cases hcs
        · cases hcs
      simp only [] at h ⊢
      rw [checkArcW] at h ⊢
      simp only [List.contains_nil, Bool.false_eq_true, ↓reduceIte] at h ⊢
      split at h
      · cases h
      rename_i g1
      rw [if_neg g1]
      split at h
      · cases h
      rename_i g2
      rw [if_neg g2]
      split at h
      · cases h
      rename_i g3
      rw [if_neg g3]
      rw [e] at h ⊢
      have hl := checkEachW_least (rec := checkNodeW l b fuel) (f := fun x => 2 * kidsAt l b x) (fun a c c' h => checkNodeW_least fuel a c c' h) cs
        ⟨⟨(r.pop l.keySize (b.node a).pre).lo, (b.vec (b.node a).kids.toNat).target.toNat⟩, [(b.node a).kids.toNat]⟩
      rcases hx : checkEachW (checkNodeW l b fuel) cs
        ⟨⟨(r.pop l.keySize (b.node a).pre).lo, (b.vec (b.node a).kids.toNat).target.toNat⟩, [(b.node a).kids.toNat]⟩ with ⟨e, n⟩
      rw [hx] at h hl
      cases e with
      | ok c1 =>
        have := hl c1 rfl
        simp only [Work.add] at this ⊢
        omega
      | err e => cases h
      | ub => cases h
      | deep => cases h

/-- the number of elements of the vectors in the registry -/
def Reg.total (g : Reg K V) : Nat := (g.known.map (fun e => e.2.2.length)).sum

omit [Ord K] in
theorem loadEachW_counts {rec : Nat → Reg K V → Option (ATree K V × Reg K V)} {recW : Nat → Reg K V → Option (ATree K V × Reg K V × Nat)}
    (h : ∀ a g t g', rec a g = some (t, g') → ∃ n, recW a g = some (t, g', n) ∧ n + g.total = 1 + g'.total) :
    ∀ (cs : List Nat) (g : Reg K V) (ts : List (ATree K V)) (g' : Reg K V), loadEach rec cs g = some (ts, g') →
      ∃ n, loadEachW recW cs g = some (ts, g', n) ∧ n + g.total = cs.length + g'.total ∧ ts.length = cs.length := by
  intro cs
  induction cs with
  | nil =>
    intro g ts g' h
    rw [loadEach] at h
    cases h
    exact ⟨0, rfl, by simp, rfl⟩
  | cons x xs ih =>
    intro g ts g' hl
    rw [loadEach] at hl
    split at hl
    · cases hl
    rename_i t g1 h1
    split at hl
    · cases hl
    rename_i us g2 h2
    cases hl
    obtain ⟨n, k1, k2⟩ := h _ _ _ _ h1
    obtain ⟨m, j1, j2, j3⟩ := ih _ _ _ h2
    refine ⟨n + m, ?_, ?_, ?_⟩
    · rw [loadEachW, k1]
      simp only [j1]
    · rw [List.length_cons]; omega
    · rw [List.length_cons, List.length_cons, j3]

omit [Ord K] in
theorem loadW_counts : ∀ (fuel a : Nat) (g : Reg K V) (t : ATree K V) (g' : Reg K V), load l b fuel a g = some (t, g') →
    ∃ n, loadW l b fuel a g = some (t, g', n) ∧ n + g.total = 1 + g'.total := by
  intro fuel
  induction fuel with
  | zero => intro a g t g' h; cases h
  | succ fuel ih =>
    intro a g t g' h
    simp only [load] at h
    simp only [loadW]
    cases e1 : prefixAt l b a with
    | none => simp only [e1] at h; cases h
    | some p =>
    cases e2 : valueAt b a with
    | none => simp only [e1, e2] at h; cases h
    | some v =>
    cases e3 : childrenAt l b a with
    | none => simp only [e1, e2, e3] at h; cases h
    | some cs =>
    simp only [e1, e2, e3] at h ⊢
    cases hl : g.known.lookup (b.node a).kids.toNat with
    | some q =>
      simp only [hl] at h ⊢
      cases h
      exact ⟨1, rfl, by omega⟩
    | none =>
      simp only [hl] at h ⊢
      split at h
      · cases h
      rename_i ts g1 h1
      cases h
      obtain ⟨n, k1, k2, k3⟩ := loadEachW_counts ih _ _ _ _ h1
      refine ⟨1 + n, by rw [k1], ?_⟩
      simp only [Reg.total, List.map_cons, List.sum_cons] at k2 ⊢
      omega

end
end ArcArchive
end Verif
