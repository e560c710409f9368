import Verif.Lemmas.SetOps
/-!
# Properties of `VecSet` (C01–C11, C13–C17)

`Built s` (Verif/Spec/SetHistory.lean): `s` was produced by some finite history of public operations.
`Has l x`: an element equal to `x` (in the order) occurs in `l`. `asSlice` is what `as_ref`/`iter`/`into_iter` expose.
-/
namespace Verif
open Std VecSet
variable {T : Type _} [Ord T] [TransOrd T]

/-! ## C01 -/

/-- **C01.** However a set came about, the exposed slice is strictly ascending. -/
theorem C01_always_strictly_ascending (s : VecSet T) (h : Built s) : Ascending s.asSlice := h.ascending

/-- a non-trivial history: collect, insert, xor with another set, panicking `union_with`, retain -/
example : Built ((((VecSet.fromIter [5, 3, 9, 3]).insert 4).1.bitxorAssign (VecSet.fromVec [9, 7])).1.unionWith
    (VecSet.single 100)).1 :=
  .unionWith (.bitxorAssign (.insert (.fromIter _) 4) (.fromVec _)) (.single 100)

/-- Conversely every strictly ascending sequence is the content of some set, so "`Built`" loses no valid set. -/
theorem C01_every_ascending_is_built (l : List T) (h : Ascending l) : Built (⟨l⟩ : VecSet T) := .fromBTreeSet l h

/-! ## C02 -/

/-- **C02.** A collected set (or a set converted from a `Vec`) contains exactly the items. -/
theorem C02_collect_membership (items : List T) (x : T) :
    (Has (VecSet.fromIter items).asSlice x ↔ Has items x) ∧ (Has (VecSet.fromVec items).asSlice x ↔ Has items x) :=
  ⟨fromIter_has items x, fromVec_has items x⟩

/-- ... and `contains` says so. -/
theorem C02_collect_contains (items : List T) (x : T) :
    ((VecSet.fromIter items).contains x = true ↔ Has items x) ∧
    ((VecSet.fromVec items).contains x = true ↔ Has items x) := by
  rw [contains_iff (fromIter_asc _), contains_iff (fromVec_asc _), fromIter_has, fromVec_has]
  exact ⟨Iff.rfl, Iff.rfl⟩

/-! ## C03 -/

/-- **C03.** `sort_dedup_by_key`: strictly ascending keys; the items of the result are exactly the first (last) occurrence of
each key in the input. -/
theorem C03_sort_dedup_by_key {α : Type _} (keep : Keep) (key : α → T) (items : List α) :
    AscendingBy key (sortDedupByKey keep key items) ∧
    (∀ x, x ∈ sortDedupByKey keep key items ↔
      ∃ before after, items = before ++ x :: after ∧
        match keep with
        | .first => ∀ y ∈ before, compare (key y) (key x) ≠ .eq
        | .last => ∀ y ∈ after, compare (key y) (key x) ≠ .eq) := by
  obtain ⟨hasc, hfind⟩ := sortDedupByKey_spec (key := key) keep items
  refine ⟨hasc, fun x => ?_⟩
  have h1 : x ∈ sortDedupByKey keep key items ↔ pick key keep items (key x) = some x := by
    rw [← hfind, hasc.findBy_eq_some]
    simp [cmp_self]
  rw [h1]
  have hfirst : ∀ l : List α, findBy key l (key x) = some x ↔
      ∃ before after, l = before ++ x :: after ∧ ∀ y ∈ before, compare (key y) (key x) ≠ .eq := by
    intro l
    induction l with
    | nil => simp
    | cons z l ih =>
      rw [findBy_cons]
      by_cases e : compare (key z) (key x) = .eq
      · simp only [e, ↓reduceIte, Option.some.injEq]
        constructor
        · rintro rfl; exact ⟨[], l, rfl, by simp⟩
        · rintro ⟨before, after, h, hb⟩
          cases before with
          | nil => simp at h; exact h.1
          | cons w before =>
            simp only [List.cons_append, List.cons.injEq] at h
            exact absurd (h.1 ▸ e) (hb w (by simp))
      · simp only [e, ↓reduceIte, ih]
        constructor
        · rintro ⟨before, after, h, hb⟩
          exact ⟨z :: before, after, by simp [h], by simpa [e] using hb⟩
        · rintro ⟨before, after, h, hb⟩
          cases before with
          | nil => simp at h; rw [h.1, cmp_self] at e; exact absurd rfl e
          | cons w before =>
            simp only [List.cons_append, List.cons.injEq] at h
            exact ⟨before, after, h.2, fun y hy => hb y (by simp [hy])⟩
  cases keep with
  | first => exact hfirst items
  | last =>
    show findBy key items.reverse (key x) = some x ↔ _
    rw [hfirst]
    constructor
    · rintro ⟨before, after, h, hb⟩
      refine ⟨after.reverse, before.reverse, ?_, by simpa using hb⟩
      have := congrArg List.reverse h
      simpa using this
    · rintro ⟨before, after, rfl, hb⟩
      exact ⟨after.reverse, before.reverse, by simp, by simpa using hb⟩

/-- **C03.** the same for `sort_dedup` -/
theorem C03_sort_dedup (keep : Keep) (items : List T) :
    Ascending (sortDedup keep items) ∧
    (∀ x, x ∈ sortDedup keep items ↔
      ∃ before after, items = before ++ x :: after ∧
        match keep with
        | .first => ∀ y ∈ before, compare y x ≠ .eq
        | .last => ∀ y ∈ after, compare y x ≠ .eq) :=
  C03_sort_dedup_by_key (key := fun x : T => x) keep items

/-- keep-last really differs from keep-first on keyed items -/
example (key : Nat × String → Nat) (hk : key = Prod.fst) :
    ((1, "b") ∈ sortDedupByKey .last key [(1, "a"), (0, "c"), (1, "b")]) ∧
    ((1, "a") ∈ sortDedupByKey .first key [(1, "a"), (0, "c"), (1, "b")]) := by
  constructor
  · rw [(C03_sort_dedup_by_key .last key _).2]; exact ⟨[(1, "a"), (0, "c")], [], by simp⟩
  · rw [(C03_sort_dedup_by_key .first key _).2]; exact ⟨[], [(0, "c"), (1, "b")], by simp⟩

/-! ## C04 -/

/-- **C04.** `contains` decides membership. (The model of binary search answers for every slice; it has no panicking
branch that is reachable.) -/
theorem C04_contains (s : VecSet T) (h : Built s) (x : T) : s.contains x = true ↔ Has s.asSlice x :=
  contains_iff h.ascending x

/-! ## C05 -/

/-- **C05.** set algebra by reference: the result is a valid set with the right members, and nothing panics. -/
theorem C05_union (a b : VecSet T) (ha : Built a) (hb : Built b) :
    (a.union b).2 ≠ .panic ∧ Ascending (a.union b).1.asSlice ∧
    ∀ x, Has (a.union b).1.asSlice x ↔ Has a.asSlice x ∨ Has b.asSlice x := by
  rw [union_eq ha.ascending hb.ascending]
  exact ⟨by simp, unionList_asc ha.ascending hb.ascending, unionList_has ha.ascending hb.ascending⟩

theorem C05_intersection (a b : VecSet T) (ha : Built a) (hb : Built b) :
    (a.intersection b).2 ≠ .panic ∧ Ascending (a.intersection b).1.asSlice ∧
    ∀ x, Has (a.intersection b).1.asSlice x ↔ Has a.asSlice x ∧ Has b.asSlice x := by
  rw [intersection_eq ha.ascending hb.ascending]
  exact ⟨by simp, interList_asc ha.ascending hb.ascending, interList_has ha.ascending hb.ascending⟩

theorem C05_difference (a b : VecSet T) (ha : Built a) (hb : Built b) :
    (a.difference b).2 ≠ .panic ∧ Ascending (a.difference b).1.asSlice ∧
    ∀ x, Has (a.difference b).1.asSlice x ↔ Has a.asSlice x ∧ ¬ Has b.asSlice x := by
  rw [difference_eq ha.ascending hb.ascending]
  exact ⟨by simp, diffList_asc ha.ascending hb.ascending, diffList_has ha.ascending hb.ascending⟩

theorem C05_symmetric_difference (a b : VecSet T) (ha : Built a) (hb : Built b) :
    (a.symmetricDifference b).2 ≠ .panic ∧ Ascending (a.symmetricDifference b).1.asSlice ∧
    ∀ x, Has (a.symmetricDifference b).1.asSlice x ↔
      (Has a.asSlice x ∧ ¬ Has b.asSlice x) ∨ (¬ Has a.asSlice x ∧ Has b.asSlice x) := by
  rw [symmetricDifference_eq ha.ascending hb.ascending]
  refine ⟨by simp, xorList_asc ha.ascending hb.ascending, fun x => ?_⟩
  have := xorList_has ha.ascending hb.ascending x
  rw [show (⟨xorList a.elems b.elems⟩ : VecSet T).asSlice = xorList a.elems b.elems from rfl, this,
    show a.asSlice = a.elems from rfl, show b.asSlice = b.elems from rfl]
  by_cases h1 : Has a.elems x <;> by_cases h2 : Has b.elems x <;> simp [h1, h2]

/-- two overlapping reachable sets -/
example : Built (VecSet.fromIter [1, 5, 3]) ∧ Built (VecSet.fromIter [5, 2]) ∧
    Has (VecSet.fromIter [1, 5, 3]).asSlice 5 ∧ Has (VecSet.fromIter [5, 2]).asSlice 5 ∧
    ¬ Has (VecSet.fromIter [5, 2]).asSlice 1 := by
  refine ⟨.fromIter _, .fromIter _, ?_, ?_, ?_⟩ <;> rw [VecSet.asSlice, fromIter_has] <;> simp [Has]

/-! ## C06 -/

/-- **C06.** the in-place operators, with an owned or a borrowed right operand, give exactly the slice of the by-reference
operator and never panic -/
theorem C06_assign_ops_agree (a b : VecSet T) (ha : Built a) (hb : Built b) :
    (a.bitorAssign b = ((a.union b).1, .cont) ∧ a.bitorAssignRef b = ((a.union b).1, .cont)) ∧
    (a.bitandAssign b = ((a.intersection b).1, .cont) ∧ a.bitandAssignRef b = ((a.intersection b).1, .cont)) ∧
    (a.bitxorAssign b = ((a.symmetricDifference b).1, .cont) ∧
      a.bitxorAssignRef b = ((a.symmetricDifference b).1, .cont)) ∧
    (a.subAssign b = ((a.difference b).1, .cont) ∧ a.subAssignRef b = ((a.difference b).1, .cont)) := by
  have ha := ha.ascending
  have hb := hb.ascending
  rw [union_eq ha hb, intersection_eq ha hb, symmetricDifference_eq ha hb, difference_eq ha hb]
  exact ⟨⟨bitorAssign_eq ha hb, bitorAssignRef_eq ha hb⟩, ⟨bitandAssign_eq ha hb, bitandAssignRef_eq ha hb⟩,
    ⟨bitxorAssign_eq ha hb, bitxorAssignRef_eq ha hb⟩, ⟨subAssign_eq ha hb, subAssignRef_eq ha hb⟩⟩

/-- **C06.** `extend` is `|=` with the collected iterator -/
theorem C06_extend (a : VecSet T) (ha : Built a) (items : List T) :
    (a.extend items).2 = .cont ∧ ∀ x, Has (a.extend items).1.asSlice x ↔ Has a.asSlice x ∨ Has items x := by
  rw [VecSet.extend, bitorAssign_eq ha.ascending (fromIter_asc items)]
  refine ⟨rfl, fun x => ?_⟩
  rw [show Has (VecSet.asSlice ⟨unionList a.elems (VecSet.fromIter items).elems⟩) x ↔ _ from
    unionList_has ha.ascending (fromIter_asc items) x, fromIter_has]
  rfl

/-! ## C07 -/

/-- **C07.** the boolean relations -/
theorem C07_relations (a b : VecSet T) (ha : Built a) (hb : Built b) :
    (a.isSubset b = true ↔ ∀ x, Has a.asSlice x → Has b.asSlice x) ∧
    (a.isSuperset b = true ↔ ∀ x, Has b.asSlice x → Has a.asSlice x) ∧
    (a.isDisjoint b = true ↔ ¬ ∃ x, Has a.asSlice x ∧ Has b.asSlice x) := by
  have ha := ha.ascending
  have hb := hb.ascending
  refine ⟨?_, ?_, ?_⟩
  · rw [VecSet.isSubset, boolDiff_eq ha hb, Bool.not_not, isEmpty_iff_has]
    simp only [diffList_has ha hb, not_and, Classical.not_not, asSlice]
  · rw [VecSet.isSuperset, boolDiff_eq hb ha, Bool.not_not, isEmpty_iff_has]
    simp only [diffList_has hb ha, not_and, Classical.not_not, asSlice]
  · rw [isDisjoint_eq ha hb, isEmpty_iff_has]
    simp only [interList_has ha hb, asSlice, not_exists]

/-- **C07.** superset is the converse of subset -/
theorem C07_superset_iff_subset (a b : VecSet T) : a.isSuperset b = b.isSubset a := rfl

/-! ## C08 -/

/-- **C08.** Starting from the empty set, the observations of any sequence of (admissible) operations are those of the
mathematical set, and the final slice enumerates the final mathematical set. -/
theorem C08_history_refines_sets (ops : List (SetOp T)) (ok : ∀ op ∈ ops, op.Ok) :
    ∃ S : T → Prop, SetRun (fun _ => False) ops (execSet VecSet.empty ops).2 S ∧
      Enumerates (execSet VecSet.empty ops).1.asSlice S := by
  obtain ⟨S, h1, h2, h3⟩ := setRun_of_exec ops VecSet.empty (fun _ => False) List.Pairwise.nil
    (by simp [VecSet.empty, Has]) ok
  exact ⟨S, h1, (enumerates_congr h3).1 (ascending_enumerates h2)⟩

/-- The specification run is deterministic in its final set, so the theorem above pins it down. -/
theorem C08_spec_deterministic {ops : List (SetOp T)} {o1 o2 : List SetOut} {S S1 S2 : T → Prop}
    (h1 : SetRun S ops o1 S1) (h2 : SetRun S ops o2 S2) : S1 = S2 ∧ o1 = o2 := by
  induction h1 generalizing o2 S2 with
  | nil => cases h2; exact ⟨rfl, rfl⟩
  | @cons S S' op ops o os ans run ih =>
    cases h2 with
    | @cons _ _ _ _ o' os' ans' run' =>
      obtain ⟨e1, e2⟩ := ih run'
      refine ⟨e1, ?_⟩
      rw [e2]
      congr 1
      cases op with
      | insert x =>
        obtain ⟨b, rfl, hb⟩ := ans; obtain ⟨b', rfl, hb'⟩ := ans'
        congr 1; rw [Bool.eq_iff_iff, hb, hb']
      | remove x =>
        obtain ⟨b, rfl, hb⟩ := ans; obtain ⟨b', rfl, hb'⟩ := ans'
        congr 1; rw [Bool.eq_iff_iff, hb, hb']
      | contains x =>
        obtain ⟨b, rfl, hb⟩ := ans; obtain ⟨b', rfl, hb'⟩ := ans'
        congr 1; rw [Bool.eq_iff_iff, hb, hb']
      | isEmpty =>
        obtain ⟨b, rfl, hb⟩ := ans; obtain ⟨b', rfl, hb'⟩ := ans'
        congr 1; rw [Bool.eq_iff_iff, hb, hb']
      | len =>
        obtain ⟨n, rfl, ⟨l, hl⟩, hn⟩ := ans; obtain ⟨n', rfl, _, hn'⟩ := ans'
        rw [← hn l hl, ← hn' l hl]
      | retain p => exact Eq.trans ans (Eq.symm ans')
      | extend l => exact Eq.trans ans (Eq.symm ans')
      | orAssign o b => exact Eq.trans ans (Eq.symm ans')
      | andAssign o b => exact Eq.trans ans (Eq.symm ans')
      | xorAssign o b => exact Eq.trans ans (Eq.symm ans')
      | subAssign o b => exact Eq.trans ans (Eq.symm ans')

/-- an admissible history that uses every kind of operation -/
example : ∀ op ∈ ([.insert 3, .extend [5, 1, 5], .orAssign true (VecSet.single 9), .remove 1,
    .xorAssign false (VecSet.fromIter [3, 4]), .andAssign true (VecSet.fromVec [4, 9]), .subAssign false (VecSet.single 4),
    .retain (· > 2), .contains 9, .len, .isEmpty] : List (SetOp Nat)), op.Ok := by
  intro op hop
  simp only [List.mem_cons, List.not_mem_nil, or_false] at hop
  rcases hop with rfl | rfl | rfl | rfl | rfl | rfl | rfl | rfl | rfl | rfl | rfl
  all_goals first
    | trivial
    | exact Built.single _
    | exact Built.fromIter _
    | exact Built.fromVec _
    | exact fun x y h => by rw [compare_eq_iff_eq.1 h]

/-! ## C09 -/

/-- **C09.** `==` and `cmp == Equal` hold exactly when the members are the same. -/
theorem C09_eq_iff_same_members (a b : VecSet T) (ha : Built a) (hb : Built b) :
    (a.eq b = true ↔ ∀ x, Has a.asSlice x ↔ Has b.asSlice x) ∧
    (a.cmp b = .eq ↔ ∀ x, Has a.asSlice x ↔ Has b.asSlice x) := by
  refine ⟨VecSet.eq_iff ha.ascending hb.ascending, ?_⟩
  rw [VecSet.cmp, lexCompare_eq_iff, eqList_iff ha.ascending hb.ascending]; rfl

/-- **C09.** equal sets feed the same data to the hasher, for every element hash that respects equality -/
theorem C09_hash {H : Type _} (h : T → H) (hh : ∀ x y, compare x y = .eq → h x = h y) (a b : VecSet T)
    (e : a.eq b = true) : a.hashFeed h = b.hashFeed h := by
  simp only [VecSet.eq, Bool.and_eq_true, beq_iff_eq, List.all_eq_true] at e
  obtain ⟨hl, hz⟩ := e
  unfold hashFeed
  rw [hl]
  congr 1
  revert hl hz
  generalize a.elems = l; generalize b.elems = m
  intro hl hz
  induction l generalizing m with
  | nil => cases m with
    | nil => rfl
    | cons y m => simp at hl
  | cons x l ih =>
    cases m with
    | nil => simp at hl
    | cons y m =>
      simp only [List.zip_cons_cons, List.mem_cons, forall_eq_or_imp, List.length_cons,
        Nat.add_right_cancel_iff] at hz hl
      rw [List.map_cons, List.map_cons, hh x y hz.1, ih m hl hz.2]

/-- **C09.** `cmp` is a total order on sets (antisymmetric up to `==`) -/
theorem C09_cmp_total_order : (∀ a : VecSet T, a.cmp a = .eq) ∧
    (∀ a b : VecSet T, a.cmp b = (b.cmp a).swap) ∧
    (∀ a b c : VecSet T, a.cmp b ≠ .gt → b.cmp c ≠ .gt → a.cmp c ≠ .gt) ∧
    (∀ a b : VecSet T, a.cmp b = .eq ↔ a.eq b = true) := by
  refine ⟨?_, fun a b => lexCompare_swap _ _, fun a b c => lexCompare_trans_ne_gt, ?_⟩
  · intro a
    have := lexCompare_swap a.elems a.elems
    unfold VecSet.cmp
    cases h : lexCompare a.elems a.elems <;> rw [h] at this <;> simp at this ⊢
  · intro a b
    rw [VecSet.cmp, lexCompare_eq_iff, VecSet.eq]
    simp

/-! ## C10 -/

section laws
variable (a b c : VecSet T) (ha : Built a) (hb : Built b) (hc : Built c)
include ha hb

/-- **C10.** commutativity -/
theorem C10_commutative : (a.union b).1.eq (b.union a).1 = true ∧ (a.intersection b).1.eq (b.intersection a).1 = true ∧
    (a.symmetricDifference b).1.eq (b.symmetricDifference a).1 = true := by
  refine ⟨(C09_eq_iff_same_members _ _ (.union ha hb) (.union hb ha)).1.2 fun x => ?_,
    (C09_eq_iff_same_members _ _ (.intersection ha hb) (.intersection hb ha)).1.2 fun x => ?_,
    (C09_eq_iff_same_members _ _ (.symmetricDifference ha hb) (.symmetricDifference hb ha)).1.2 fun x => ?_⟩
  · rw [(C05_union a b ha hb).2.2, (C05_union b a hb ha).2.2]; exact Or.comm
  · rw [(C05_intersection a b ha hb).2.2, (C05_intersection b a hb ha).2.2]; exact And.comm
  · rw [(C05_symmetric_difference a b ha hb).2.2, (C05_symmetric_difference b a hb ha).2.2]
    constructor <;> rintro (⟨h1, h2⟩ | ⟨h1, h2⟩) <;> simp [h1, h2]

/-- **C10.** `a - b = a & (a ^ b)`, and `a ^ b = (a | b) - (a & b)` -/
theorem C10_difference_laws :
    (a.difference b).1.eq (a.intersection (a.symmetricDifference b).1).1 = true ∧
    (a.symmetricDifference b).1.eq ((a.union b).1.difference (a.intersection b).1).1 = true := by
  have hx := Built.symmetricDifference ha hb
  refine ⟨(C09_eq_iff_same_members _ _ (.difference ha hb) (.intersection ha hx)).1.2 fun x => ?_,
    (C09_eq_iff_same_members _ _ hx (.difference (.union ha hb) (.intersection ha hb))).1.2 fun x => ?_⟩
  · rw [(C05_difference a b ha hb).2.2, (C05_intersection a _ ha hx).2.2, (C05_symmetric_difference a b ha hb).2.2]
    by_cases h1 : Has a.asSlice x <;> by_cases h2 : Has b.asSlice x <;> simp [h1, h2]
  · rw [(C05_difference _ _ (.union ha hb) (.intersection ha hb)).2.2, (C05_intersection a b ha hb).2.2,
      (C05_symmetric_difference a b ha hb).2.2, (C05_union a b ha hb).2.2]
    by_cases h1 : Has a.asSlice x <;> by_cases h2 : Has b.asSlice x <;> simp [h1, h2]

include hc in
/-- **C10.** associativity -/
theorem C10_associative :
    ((a.union b).1.union c).1.eq (a.union (b.union c).1).1 = true ∧
    ((a.intersection b).1.intersection c).1.eq (a.intersection (b.intersection c).1).1 = true ∧
    ((a.symmetricDifference b).1.symmetricDifference c).1.eq
      (a.symmetricDifference (b.symmetricDifference c).1).1 = true := by
  refine ⟨(C09_eq_iff_same_members _ _ (.union (.union ha hb) hc) (.union ha (.union hb hc))).1.2 fun x => ?_,
    (C09_eq_iff_same_members _ _ (.intersection (.intersection ha hb) hc)
      (.intersection ha (.intersection hb hc))).1.2 fun x => ?_,
    (C09_eq_iff_same_members _ _ (.symmetricDifference (.symmetricDifference ha hb) hc)
      (.symmetricDifference ha (.symmetricDifference hb hc))).1.2 fun x => ?_⟩
  · rw [(C05_union _ _ (.union ha hb) hc).2.2, (C05_union _ _ ha (.union hb hc)).2.2, (C05_union a b ha hb).2.2,
      (C05_union b c hb hc).2.2]
    exact or_assoc
  · rw [(C05_intersection _ _ (.intersection ha hb) hc).2.2, (C05_intersection _ _ ha (.intersection hb hc)).2.2,
      (C05_intersection a b ha hb).2.2, (C05_intersection b c hb hc).2.2]
    exact and_assoc
  · rw [(C05_symmetric_difference _ _ (.symmetricDifference ha hb) hc).2.2,
      (C05_symmetric_difference _ _ ha (.symmetricDifference hb hc)).2.2,
      (C05_symmetric_difference a b ha hb).2.2, (C05_symmetric_difference b c hb hc).2.2]
    by_cases h1 : Has a.asSlice x <;> by_cases h2 : Has b.asSlice x <;> by_cases h3 : Has c.asSlice x <;>
      simp [h1, h2, h3]

include hc in
/-- **C10.** distributivity, both ways, and de Morgan for difference -/
theorem C10_distributive :
    (a.intersection (b.union c).1).1.eq ((a.intersection b).1.union (a.intersection c).1).1 = true ∧
    (a.union (b.intersection c).1).1.eq ((a.union b).1.intersection (a.union c).1).1 = true ∧
    (a.difference (b.union c).1).1.eq ((a.difference b).1.intersection (a.difference c).1).1 = true := by
  refine ⟨(C09_eq_iff_same_members _ _ (.intersection ha (.union hb hc))
      (.union (.intersection ha hb) (.intersection ha hc))).1.2 fun x => ?_,
    (C09_eq_iff_same_members _ _ (.union ha (.intersection hb hc))
      (.intersection (.union ha hb) (.union ha hc))).1.2 fun x => ?_,
    (C09_eq_iff_same_members _ _ (.difference ha (.union hb hc))
      (.intersection (.difference ha hb) (.difference ha hc))).1.2 fun x => ?_⟩
  · rw [(C05_intersection _ _ ha (.union hb hc)).2.2, (C05_union _ _ (.intersection ha hb) (.intersection ha hc)).2.2,
      (C05_union b c hb hc).2.2, (C05_intersection a b ha hb).2.2, (C05_intersection a c ha hc).2.2]
    by_cases h1 : Has a.asSlice x <;> simp [h1]
  · rw [(C05_union _ _ ha (.intersection hb hc)).2.2, (C05_intersection _ _ (.union ha hb) (.union ha hc)).2.2,
      (C05_intersection b c hb hc).2.2, (C05_union a b ha hb).2.2, (C05_union a c ha hc).2.2]
    by_cases h1 : Has a.asSlice x <;> simp [h1]
  · rw [(C05_difference _ _ ha (.union hb hc)).2.2, (C05_intersection _ _ (.difference ha hb) (.difference ha hc)).2.2,
      (C05_union b c hb hc).2.2, (C05_difference a b ha hb).2.2, (C05_difference a c ha hc).2.2]
    by_cases h1 : Has a.asSlice x <;> simp [h1]

end laws

/-- **C10.** idempotence and the laws of the empty set -/
theorem C10_idempotent_empty (a : VecSet T) (ha : Built a) :
    (a.union a).1.eq a = true ∧ (a.intersection a).1.eq a = true ∧ (a.difference a).1.eq VecSet.empty = true ∧
    (a.symmetricDifference a).1.eq VecSet.empty = true ∧
    (a.union VecSet.empty).1.eq a = true ∧ (a.intersection VecSet.empty).1.eq VecSet.empty = true ∧
    (a.difference VecSet.empty).1.eq a = true ∧ (VecSet.empty.difference a).1.eq VecSet.empty = true ∧
    (a.symmetricDifference VecSet.empty).1.eq a = true := by
  have he : Built (VecSet.empty : VecSet T) := .empty
  have hne : ∀ x, ¬ Has (VecSet.empty : VecSet T).asSlice x := fun x => by simp [Has, VecSet.empty, asSlice]
  refine ⟨(C09_eq_iff_same_members _ _ (.union ha ha) ha).1.2 fun x => ?_,
    (C09_eq_iff_same_members _ _ (.intersection ha ha) ha).1.2 fun x => ?_,
    (C09_eq_iff_same_members _ _ (.difference ha ha) he).1.2 fun x => ?_,
    (C09_eq_iff_same_members _ _ (.symmetricDifference ha ha) he).1.2 fun x => ?_,
    (C09_eq_iff_same_members _ _ (.union ha he) ha).1.2 fun x => ?_,
    (C09_eq_iff_same_members _ _ (.intersection ha he) he).1.2 fun x => ?_,
    (C09_eq_iff_same_members _ _ (.difference ha he) ha).1.2 fun x => ?_,
    (C09_eq_iff_same_members _ _ (.difference he ha) he).1.2 fun x => ?_,
    (C09_eq_iff_same_members _ _ (.symmetricDifference ha he) ha).1.2 fun x => ?_⟩
  · rw [(C05_union a a ha ha).2.2]; simp
  · rw [(C05_intersection a a ha ha).2.2]; simp
  · rw [(C05_difference a a ha ha).2.2]; simp [hne]
  · rw [(C05_symmetric_difference a a ha ha).2.2]; simp [hne]
  · rw [(C05_union a _ ha he).2.2]; simp [hne]
  · rw [(C05_intersection a _ ha he).2.2]; simp [hne]
  · rw [(C05_difference a _ ha he).2.2]; simp [hne]
  · rw [(C05_difference _ a he ha).2.2]; simp [hne]
  · rw [(C05_symmetric_difference a _ ha he).2.2]; simp [hne]

/-! ## C11

The full claim — all four named in-place methods compute what they are named after, without panicking — is
```
∀ a b, Built a → Built b →
  a.unionWith b = ((a.union b).1, .cont) ∧ a.intersectionWith b = ((a.intersection b).1, .cont) ∧
  a.xorWith b = ((a.symmetricDifference b).1, .cont) ∧ a.differenceWith b = ((a.difference b).1, .cont)
```
It is FALSE of the code for `union_with` and `xor_with`. -/

/-- **C11 (partial).** `intersection_with` and `difference_with` are correct; `union_with` is correct when `b ⊆ a`. Missing:
`union_with` otherwise (it panics, see below) and `xor_with` (wrong result, see below). -/
theorem C11_named_methods_partial (a b : VecSet T) (ha : Built a) (hb : Built b) :
    a.intersectionWith b = ((a.intersection b).1, .cont) ∧ a.differenceWith b = ((a.difference b).1, .cont) ∧
    ((∀ x, Has b.asSlice x → Has a.asSlice x) → a.unionWith b = ((a.union b).1, .cont)) := by
  have ha := ha.ascending
  have hb := hb.ascending
  rw [intersection_eq ha hb, difference_eq ha hb, union_eq ha hb]
  refine ⟨intersectionWith_eq ha hb, differenceWith_eq ha hb, fun h => ?_⟩
  rw [unionWith_eq ha hb]
  have := unionWith_join_of_subset ha hb h
  rw [this]

/-- **C11.** `union_with` panics whenever the argument has an element that `self` lacks — exactly when it has work to do -/
theorem C11_union_with_panics (a b : VecSet T) (ha : Built a) (hb : Built b) :
    (a.unionWith b).2 = .panic ↔ ∃ x, Has b.asSlice x ∧ ¬ Has a.asSlice x := by
  have ha' := ha.ascending
  have hb' := hb.ascending
  constructor
  · intro h
    by_cases hx : ∀ x, Has b.asSlice x → Has a.asSlice x
    · rw [(C11_named_methods_partial a b ha hb).2.2 hx] at h; cases h
    · simpa [Classical.not_forall] using hx
  · rintro ⟨x, h1, h2⟩
    rw [unionWith_eq ha' hb']
    exact unionWith_join_panic ha' hb' h1 h2

/-- **C11.** `xor_with` computes the intersection -/
theorem C11_xor_with_is_intersection (a b : VecSet T) (ha : Built a) (hb : Built b) :
    a.xorWith b = ((a.intersection b).1, .cont) := by
  rw [intersection_eq ha.ascending hb.ascending]; exact xorWith_eq ha.ascending hb.ascending

/-- **C11 is false as stated**: concrete witnesses -/
theorem C11_counterexample : ∃ a b : VecSet Nat, Built a ∧ Built b ∧ (a.unionWith b).2 = .panic ∧
    (a.xorWith b).1.eq (a.symmetricDifference b).1 = false := by
  have ha : Built (VecSet.single 1) := .single 1
  have hb : Built (VecSet.single 2) := .single 2
  refine ⟨_, _, ha, hb, (C11_union_with_panics _ _ ha hb).2 ⟨2, ?_, ?_⟩, ?_⟩
  · simp [Has, VecSet.single, asSlice]
  · simp [Has, VecSet.single, asSlice]
  · rw [Bool.eq_false_iff]
    intro h
    rw [(C09_eq_iff_same_members _ _ (.xorWith ha hb) (.symmetricDifference ha hb)).1,
      C11_xor_with_is_intersection _ _ ha hb] at h
    have := h 1
    rw [(C05_intersection _ _ ha hb).2.2, (C05_symmetric_difference _ _ ha hb).2.2] at this
    simp [Has, VecSet.single, asSlice] at this

/-! ## C13 (sets) -/

/-- **C13.** `retain` with a (stateful) predicate that does not panic: every element is shown to the predicate once, in
order, and exactly the accepted ones stay, in the same order. -/
theorem C13_set_retain {P : Type _} (s : VecSet T) (h : Built s) (f : P → T → Call (P × Bool)) (p q : P) (l : List T)
    (hk : keepRun f p s.asSlice = .ret (q, l)) :
    (s.retain f p).1.asSlice = l ∧ (s.retain f p).2 = (q, .cont) ∧ Ascending l := by
  have : smallVecRetain f s.elems p = (l, q, .cont) := smallVecRetain_ret hk
  simp only [VecSet.retain, this]
  exact ⟨rfl, trivial, AscendingBy.sublist (key := fun x : T => x) h.ascending (keepRun_sublist hk)⟩

/-- **C13.** the pure special case -/
theorem C13_set_retain_pure (s : VecSet T) (p : T → Bool) :
    (s.retain (fun _ x => .ret ((), p x)) ()).1.asSlice = s.asSlice.filter p := by
  rw [VecSet.retain, smallVecRetain_ret (keepRun_pure p s.elems ())]
  rfl

/-- a stateful predicate: keep every second element -/
example : (keepRun (fun n (_ : Nat) => .ret (n + 1, n % 2 == 0)) 0 [10, 20, 30]) = .ret (3, [10, 30]) := rfl

/-! ## C14 -/

/-- **C14.** identity (not just equality) of the stored elements -/
theorem C14_representatives (a b : VecSet T) (ha : Built a) (hb : Built b) (x : T) :
    (x ∈ (a.union b).1.asSlice ↔ x ∈ a.asSlice ∨ (x ∈ b.asSlice ∧ ¬ Has a.asSlice x)) ∧
    (x ∈ (a.intersection b).1.asSlice ↔ x ∈ a.asSlice ∧ Has b.asSlice x) ∧
    (x ∈ (a.difference b).1.asSlice ↔ x ∈ a.asSlice ∧ ¬ Has b.asSlice x) ∧
    (x ∈ (a.symmetricDifference b).1.asSlice ↔
      (x ∈ a.asSlice ∧ ¬ Has b.asSlice x) ∨ (x ∈ b.asSlice ∧ ¬ Has a.asSlice x)) := by
  have ha := ha.ascending
  have hb := hb.ascending
  rw [union_eq ha hb, intersection_eq ha hb, difference_eq ha hb, symmetricDifference_eq ha hb]
  have key : ∀ {l : List T}, Ascending l → (x ∈ l ↔ findBy (fun y => y) l x = some x) := by
    intro l hl
    rw [AscendingBy.findBy_eq_some (key := fun y : T => y) hl]; simp [cmp_self]
  simp only [asSlice]
  rw [key (unionList_asc ha hb), key (interList_asc ha hb), key (diffList_asc ha hb), key (xorList_asc ha hb),
    key ha, key hb, has_iff_findBy, has_iff_findBy, unionList_find ha hb, interList_find ha hb, diffList_find ha hb,
    xorList_find ha hb]
  refine ⟨?_, ?_, ?_, ?_⟩ <;> cases findBy (fun y => y) a.elems x <;> cases findBy (fun y => y) b.elems x <;> simp

/-- **C14.** `insert` replaces the stored element by the new one; `remove` removes all elements equal to the argument -/
theorem C14_insert_remove (s : VecSet T) (h : Built s) (x y : T) :
    (y ∈ (s.insert x).1.asSlice ↔ y = x ∨ (y ∈ s.asSlice ∧ compare y x ≠ .eq)) ∧
    (y ∈ (s.remove x).1.asSlice ↔ y ∈ s.asSlice ∧ compare y x ≠ .eq) := by
  have key : ∀ {l : List T}, Ascending l → (y ∈ l ↔ findBy (fun y => y) l y = some y) := by
    intro l hl
    rw [AscendingBy.findBy_eq_some (key := fun y : T => y) hl]; simp [cmp_self]
  obtain ⟨i1, _, i3⟩ := insert_spec h.ascending x
  obtain ⟨r1, _, r3⟩ := remove_spec h.ascending x
  simp only [asSlice]
  rw [key i1, key r1, i3, r3, key h.ascending]
  by_cases e : compare x y = .eq
  · simp only [e, ↓reduceIte, Option.some.injEq, ne_eq, cmp_symm e, not_true, and_false, or_false]
    exact ⟨⟨Eq.symm, Eq.symm⟩, by simp⟩
  · have e' : ¬ compare y x = .eq := fun h => e (cmp_symm h)
    simp only [e, ↓reduceIte, ne_eq, e', not_false_eq_true, and_true]
    refine ⟨fun h => .inr h, ?_⟩
    rintro (rfl | h)
    · exact absurd (cmp_self y) e
    · exact h

/-- **C14.** collecting keeps the first of equal items -/
theorem C14_collect_keeps_first (items : List T) (x : T) :
    x ∈ (VecSet.fromIter items).asSlice ↔
      ∃ before after, items = before ++ x :: after ∧ ¬ Has before x := by
  have := (C03_sort_dedup .first items).2 x
  simp only at this
  rw [show (VecSet.fromIter items).asSlice = sortDedup .first items from rfl, this]
  simp [Has]

/-! ## C15 -/

/-- **C15.** deserialising what was serialised gives the same set -/
theorem C15_roundtrip {E : Type _} (s : VecSet T) (h : Built s) :
    VecSet.visitSeq (E := E) (s.serialize.map .ok) = .ok s := by
  rw [VecSet.visitSeq, visitSeq_go_ok, List.nil_append]
  congr 1
  show VecSet.fromVec s.elems = s
  cases s with
  | mk l =>
    simp only [VecSet.fromVec, VecSet.mk.injEq]
    exact AscendingBy.ext (key := fun x : T => x) (fromVec_asc l) h.ascending (fromVec_find l)

/-- **C15.** any sequence of elements gives a valid set with exactly these members; an element error fails the whole -/
theorem C15_any_sequence {E : Type _} (l : List T) :
    (∃ s, VecSet.visitSeq (E := E) (l.map .ok) = .ok s ∧ Built s ∧ ∀ x, Has s.asSlice x ↔ Has l x) ∧
    (∀ (e : E) rest, VecSet.visitSeq (l.map .ok ++ .error e :: rest) = .error e) := by
  refine ⟨⟨_, by rw [VecSet.visitSeq, visitSeq_go_ok], .fromVec _, fun x => ?_⟩, fun e rest => ?_⟩
  · exact fromVec_has _ _
  · rw [VecSet.visitSeq, visitSeq_go_err]

/-! ## C16 (sets) -/

/-- **C16.** validation of an archived set whose elements are valid succeeds iff the sequence is strictly ascending, and
an accepted archive answers `contains` correctly -/
theorem C16_set_check_bytes (valid : T → Bool) (l : List T) (hv : ∀ x ∈ l, valid x = true) :
    ((∃ s, VecSet.checkBytes valid l = .ok s) ↔ Ascending l) ∧
    (∀ s, VecSet.checkBytes valid l = .ok s → s.asSlice = l ∧ ∀ x, s.contains x = true ↔ Has l x) ∧
    (¬ Ascending l → VecSet.checkBytes valid l = .error .orderCheck) := by
  refine ⟨⟨fun ⟨s, h⟩ => (checkBytes_ok.1 h).2.1, fun h => ⟨⟨l⟩, checkBytes_ok.2 ⟨hv, h, rfl⟩⟩⟩, ?_, ?_⟩
  · intro s h
    obtain ⟨_, h2, h3⟩ := checkBytes_ok.1 h
    refine ⟨h3, fun x => ?_⟩
    rw [contains_iff (by rw [h3]; exact h2), h3]
  · intro h
    have h1 : l.all valid = true := List.all_eq_true.2 hv
    unfold VecSet.checkBytes
    rw [← zip_adjacent, Bool.not_eq_true] at h
    rw [h1, h]
    rfl

/-- **C16.** an archive with an invalid element is rejected -/
theorem C16_set_invalid_element (valid : T → Bool) (l : List T) (x : T) (hx : x ∈ l) (hv : valid x = false) :
    VecSet.checkBytes valid l = .error .valueCheck := by
  unfold VecSet.checkBytes
  have : l.all valid = false := by
    rw [List.all_eq_false]; exact ⟨x, hx, by simp [hv]⟩
  simp [this]

/-- **C16.** archiving with an order-preserving archived element type yields an archive that passes validation, and
deserialising it gives back the same set -/
theorem C16_set_archive_roundtrip {U E : Type _} [Ord U] [TransOrd U] (arch : T → U) (de : U → Except E T)
    (hde : ∀ x, de (arch x) = .ok x) (hord : ∀ x y, compare (arch x) (arch y) = compare x y)
    (s : VecSet T) (h : Built s) :
    VecSet.checkBytes (fun _ => true) (s.archive arch).asSlice = .ok (s.archive arch) ∧
    (s.archive arch).unarchive de = .ok s := by
  constructor
  · rw [checkBytes_ok]
    refine ⟨by simp, ?_, rfl⟩
    show Ascending (s.elems.map arch)
    rw [Ascending, List.pairwise_map]
    simp only [hord]
    exact h.ascending
  · unfold VecSet.unarchive VecSet.archive
    have : (s.elems.map arch).mapM de = Except.ok (ε := E) s.elems := by
      induction s.elems with
      | nil => rfl
      | cons x l ih => simp only [List.map_cons, List.mapM_cons, hde, ih]; rfl
    simp only [this]

/-! ## C17 -/

/-- **C17.** At every moment of collecting `items` (before or after the compaction check of each push), the buffer holds at
most `max 16 (2 n + 1)` elements, where `n` is the size of the resulting set. -/
theorem C17_bounded_buffer (items before after : List T) (x : T) (h : items = before ++ x :: after) :
    let buf := before.foldl (SortAndDedup.push compare .first) { data := [], sorted := 0 }
    (buf.pushElem compare .first x).data.length ≤ max 16 (2 * (VecSet.fromIter items).len + 1) ∧
    (buf.push compare .first x).data.length ≤ max 16 (2 * (VecSet.fromIter items).len + 1) := by
  subst h
  exact collect_bound before after x

/-- the bound is attained: sixteen ascending items followed by seventeen copies of the first one need a buffer of
`33 = 2 * 16 + 1`, so the documented "never more than twice the size of the resulting set" is off by one -/
theorem C17_bound_attained :
    ∃ (before : List Nat) (x : Nat),
      ((before.foldl (SortAndDedup.push compare .first) { data := [], sorted := 0 }).pushElem
        compare .first x).data.length = 2 * (VecSet.fromIter (before ++ [x])).len + 1 ∧
      16 < 2 * (VecSet.fromIter (before ++ [x])).len + 1 := by
  have hlen : (VecSet.fromIter (List.range 16 ++ List.replicate 16 0 ++ [0])).len = 16 := by
    have e1 := ascending_enumerates (fromIter_asc (List.range 16 ++ List.replicate 16 0 ++ [0]))
    have e2 : Enumerates (List.range 16) (Has (VecSet.fromIter (List.range 16 ++ List.replicate 16 0 ++ [0])).elems) := by
      refine ⟨by decide, fun x => ?_⟩
      rw [fromIter_has]
      simp only [Has, List.mem_append, List.mem_range, List.mem_replicate, List.mem_singleton, compare_eq_iff_eq]
      constructor
      · rintro ⟨y, h, rfl⟩; exact ⟨y, by omega, rfl⟩
      · rintro ⟨y, h, rfl⟩; exact ⟨y, by omega, rfl⟩
    exact (enumerates_length e1 e2).trans (by simp)
  refine ⟨List.range 16 ++ List.replicate 16 0, 0, ?_⟩
  rw [hlen]
  exact ⟨by decide +kernel, by decide⟩

end Verif
