import Verif.Spec.Order
/-! Helper lemmas about lawful comparisons, strictly ascending lists and first matches. -/
namespace Verif
open Std

variable {α κ : Type _} [Ord κ] [TransOrd κ]

theorem cmp_self (x : κ) : compare x x = .eq := ReflCmp.compare_self
theorem cmp_gt_iff {x y : κ} : compare x y = .gt ↔ compare y x = .lt := OrientedCmp.gt_iff_lt
theorem cmp_lt_iff {x y : κ} : compare x y = .lt ↔ compare y x = .gt := cmp_gt_iff.symm
theorem cmp_symm {x y : κ} (h : compare x y = .eq) : compare y x = .eq := OrientedCmp.eq_symm h
theorem cmp_eq_comm {x y : κ} : compare x y = .eq ↔ compare y x = .eq := ⟨cmp_symm, cmp_symm⟩
theorem cmp_eq_trans {x y z : κ} (h : compare x y = .eq) (h' : compare y z = .eq) :
    compare x z = .eq := TransCmp.eq_trans h h'
theorem cmp_lt_trans {x y z : κ} (h : compare x y = .lt) (h' : compare y z = .lt) :
    compare x z = .lt := TransCmp.lt_trans h h'
theorem cmp_gt_trans {x y z : κ} (h : compare x y = .gt) (h' : compare y z = .gt) :
    compare x z = .gt := cmp_gt_iff.2 (cmp_lt_trans (cmp_gt_iff.1 h') (cmp_gt_iff.1 h))
theorem cmp_lt_of_lt_of_eq {x y z : κ} (h : compare x y = .lt) (h' : compare y z = .eq) :
    compare x z = .lt := TransCmp.lt_of_lt_of_eq h h'
theorem cmp_lt_of_eq_of_lt {x y z : κ} (h : compare x y = .eq) (h' : compare y z = .lt) :
    compare x z = .lt := TransCmp.lt_of_eq_of_lt h h'
theorem cmp_congr_left {x y z : κ} (h : compare x y = .eq) : compare x z = compare y z :=
  TransCmp.congr_left h
theorem cmp_congr_right {x y z : κ} (h : compare y z = .eq) : compare x y = compare x z :=
  TransCmp.congr_right h
theorem cmp_ne_lt_of_eq {x y : κ} (h : compare x y = .eq) : compare x y ≠ .lt := by simp [h]

theorem cmp_eq_iff [LawfulEqOrd κ] {x y : κ} : compare x y = .eq ↔ x = y :=
  ⟨fun h => LawfulEqCmp.eq_of_compare h, fun h => h ▸ cmp_self x⟩

/-! ### Ascending lists -/

omit [TransOrd κ] in
@[simp] theorem ascendingBy_nil (key : α → κ) : AscendingBy key [] := List.Pairwise.nil

omit [TransOrd κ] in
theorem ascendingBy_cons {key : α → κ} {x : α} {l : List α} :
    AscendingBy key (x :: l) ↔
      (∀ y ∈ l, compare (key x) (key y) = .lt) ∧ AscendingBy key l := List.pairwise_cons

omit [TransOrd κ] in
theorem ascendingBy_append {key : α → κ} {l m : List α} :
    AscendingBy key (l ++ m) ↔ AscendingBy key l ∧ AscendingBy key m ∧
      ∀ x ∈ l, ∀ y ∈ m, compare (key x) (key y) = .lt := List.pairwise_append

omit [TransOrd κ] in
theorem AscendingBy.sublist {key : α → κ} {l m : List α} (h : AscendingBy key m)
    (s : List.Sublist l m) : AscendingBy key l := List.Pairwise.sublist s h

omit [TransOrd κ] in
theorem ascending_iff_id (l : List κ) : Ascending l ↔ AscendingBy (fun x => x) l := Iff.rfl

omit [TransOrd κ] in
theorem ascendingBy_map {key : α → κ} {l : List α} :
    AscendingBy key l ↔ Ascending (l.map key) := by
  simp [AscendingBy, Ascending, List.pairwise_map]

/-- first element of `l` with key equal to `k` -/
def findBy (key : α → κ) (l : List α) (k : κ) : Option α :=
  l.find? (fun x => compare (key x) k == .eq)

omit [TransOrd κ] in
@[simp] theorem findBy_nil (key : α → κ) (k : κ) : findBy key [] k = none := rfl

omit [TransOrd κ] in
theorem findBy_cons (key : α → κ) (x : α) (l : List α) (k : κ) :
    findBy key (x :: l) k = if compare (key x) k = .eq then some x else findBy key l k := by
  unfold findBy
  by_cases h : compare (key x) k = .eq <;> simp [List.find?_cons, h]

omit [TransOrd κ] in
theorem findBy_append (key : α → κ) (l m : List α) (k : κ) :
    findBy key (l ++ m) k = (findBy key l k).or (findBy key m k) := by
  simp [findBy, List.find?_append]

omit [TransOrd κ] in
theorem findBy_none {key : α → κ} {l : List α} {k : κ} :
    findBy key l k = none ↔ ∀ x ∈ l, compare (key x) k ≠ .eq := by
  simp [findBy]

omit [TransOrd κ] in
theorem findBy_some_mem {key : α → κ} {l : List α} {k : κ} {x : α}
    (h : findBy key l k = some x) : x ∈ l ∧ compare (key x) k = .eq := by
  refine ⟨List.mem_of_find?_eq_some h, ?_⟩
  have := List.find?_some h
  simpa using this

/-- In an ascending list the match is unique. -/
theorem AscendingBy.eq_of_mem {key : α → κ} {l : List α} (h : AscendingBy key l) {x y : α}
    (hx : x ∈ l) (hy : y ∈ l) (e : compare (key x) (key y) = .eq) : x = y := by
  induction l with
  | nil => cases hx
  | cons z l ih =>
    rw [ascendingBy_cons] at h
    rcases List.mem_cons.1 hx with rfl | hx' <;> rcases List.mem_cons.1 hy with rfl | hy'
    · rfl
    · simp [h.1 _ hy'] at e
    · simp [cmp_symm e] at *
      have := h.1 _ hx'
      simp [cmp_symm e] at this
    · exact ih h.2 hx' hy'

theorem AscendingBy.findBy_eq_some {key : α → κ} {l : List α} (h : AscendingBy key l) {k : κ}
    {x : α} : findBy key l k = some x ↔ x ∈ l ∧ compare (key x) k = .eq := by
  refine ⟨findBy_some_mem, fun ⟨hx, e⟩ => ?_⟩
  cases hf : findBy key l k with
  | none => exact absurd e (findBy_none.1 hf x hx)
  | some y =>
    have := findBy_some_mem hf
    rw [h.eq_of_mem this.1 hx (cmp_eq_trans this.2 (cmp_symm e))]

theorem findBy_congr (key : α → κ) (l : List α) {k k' : κ} (e : compare k k' = .eq) :
    findBy key l k = findBy key l k' := by
  induction l with
  | nil => rfl
  | cons x l ih => simp only [findBy_cons, ih, cmp_congr_right e]

/-- Two ascending lists with the same lookup function are identical. -/
theorem AscendingBy.ext {key : α → κ} {l m : List α} (hl : AscendingBy key l)
    (hm : AscendingBy key m) (h : ∀ k, findBy key l k = findBy key m k) : l = m := by
  have mem : ∀ x, x ∈ l ↔ x ∈ m := by
    intro x
    constructor <;> intro hx
    · have := (hl.findBy_eq_some (k := key x)).2 ⟨hx, cmp_self _⟩
      rw [h] at this; exact (findBy_some_mem this).1
    · have := (hm.findBy_eq_some (k := key x)).2 ⟨hx, cmp_self _⟩
      rw [← h] at this; exact (findBy_some_mem this).1
  clear h
  induction l generalizing m with
  | nil =>
    cases m with
    | nil => rfl
    | cons y m => exact absurd ((mem y).2 (by simp)) (by simp)
  | cons x l ih =>
    cases m with
    | nil => exact absurd ((mem x).1 (by simp)) (by simp)
    | cons y m =>
      rw [ascendingBy_cons] at hl hm
      have hxy : x = y := by
        rcases List.mem_cons.1 ((mem x).1 (by simp)) with e | hx
        · exact e
        rcases List.mem_cons.1 ((mem y).2 (by simp)) with e | hy
        · exact e.symm
        have h1 := hl.1 _ hy
        have h2 := hm.1 _ hx
        have := cmp_lt_trans h1 h2
        simp [cmp_self] at this
      subst hxy
      congr 1
      apply ih hl.2 hm.2
      intro z
      constructor <;> intro hz
      · rcases List.mem_cons.1 ((mem z).1 (List.mem_cons_of_mem _ hz)) with e | h'
        · subst e; have := hl.1 _ hz; simp [cmp_self] at this
        · exact h'
      · rcases List.mem_cons.1 ((mem z).2 (List.mem_cons_of_mem _ hz)) with e | h'
        · subst e; have := hm.1 _ hz; simp [cmp_self] at this
        · exact h'

end Verif
