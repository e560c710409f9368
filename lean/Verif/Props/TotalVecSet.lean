import Verif.Props.VecSet
import Verif.Spec.Total
/-!
# Properties of `TotalVecSet` (C30–C34)
-/
namespace Verif
open Std VecSet TotalVecSet
variable {T : Type _} [Ord T] [TransOrd T]

/-- the elements stored in a total set always come from the `VecSet` API -/
theorem BuiltTotal.built {s : TotalVecSet T} (h : BuiltTotal s) : Built s.elements := by
  induction h with
  | constant b => exact .empty
  | fromVecSet h => exact h
  | deserialized seq n h =>
    unfold TotalVecSet.deserialize at h
    split at h
    · cases h
    · rename_i s hs
      split at h
      · cases h
      · cases h; exact .deserialized seq hs
  | insert h x ih => unfold TotalVecSet.insert; split <;> first | exact .insert ih x | exact .remove ih x
  | remove h x ih => unfold TotalVecSet.remove; split <;> first | exact .insert ih x | exact .remove ih x
  | not h ih => exact ih
  | bitand ha hb iha ihb =>
    unfold TotalVecSet.bitand
    split <;> first | exact .intersection iha ihb | exact .difference iha ihb | exact .difference ihb iha | exact .union ihb iha
  | bitor ha hb iha ihb =>
    unfold TotalVecSet.bitor
    split <;> first | exact .union iha ihb | exact .difference ihb iha | exact .difference iha ihb | exact .intersection ihb iha
  | bitxor ha hb iha ihb => exact .symmetricDifference iha ihb
  | sub ha hb iha ihb =>
    unfold TotalVecSet.sub
    split <;> first | exact .difference iha ihb | exact .intersection iha ihb | exact .union iha ihb | exact .difference ihb iha
  | bitandAssign ha hb iha ihb =>
    unfold TotalVecSet.bitandAssign
    split <;> unfold bitandAssign.assign <;> split <;>
      first | exact .bitandAssign iha ihb | exact .subAssign iha ihb | exact .subAssign ihb iha | exact .bitorAssign iha ihb
  | bitorAssign ha hb iha ihb =>
    unfold TotalVecSet.bitorAssign
    split <;> unfold bitandAssign.assign <;> split <;>
      first | exact .bitandAssign iha ihb | exact .subAssign iha ihb | exact .subAssign ihb iha | exact .bitorAssign iha ihb
  | bitxorAssign ha hb iha ihb =>
    unfold TotalVecSet.bitxorAssign bitandAssign.assign
    split <;> exact .bitxorAssign iha ihb
  | subAssign ha hb iha ihb =>
    unfold TotalVecSet.subAssign
    split <;> unfold bitandAssign.assign <;> split <;>
      first | exact .bitandAssign iha ihb | exact .subAssign iha ihb | exact .subAssign ihb iha | exact .bitorAssign iha ihb

private theorem contains_eq_of {s : VecSet T} (hs : Built s) {x : T} {c : Bool} (h : Has s.asSlice x ↔ c = true) :
    s.contains x = c := by
  have := C04_contains s hs x
  rw [h] at this
  cases hc : s.contains x <;> cases c <;> simp_all

private theorem union_contains {a b : VecSet T} (ha : Built a) (hb : Built b) (x : T) :
    (a.union b).1.contains x = (a.contains x || b.contains x) :=
  contains_eq_of (.union ha hb) (by
    rw [(C05_union a b ha hb).2.2, ← C04_contains a ha, ← C04_contains b hb, Bool.or_eq_true])
private theorem inter_contains {a b : VecSet T} (ha : Built a) (hb : Built b) (x : T) :
    (a.intersection b).1.contains x = (a.contains x && b.contains x) :=
  contains_eq_of (.intersection ha hb) (by
    rw [(C05_intersection a b ha hb).2.2, ← C04_contains a ha, ← C04_contains b hb, Bool.and_eq_true])
private theorem diff_contains {a b : VecSet T} (ha : Built a) (hb : Built b) (x : T) :
    (a.difference b).1.contains x = (a.contains x && !b.contains x) :=
  contains_eq_of (.difference ha hb) (by
    rw [(C05_difference a b ha hb).2.2, ← C04_contains a ha, ← C04_contains b hb, Bool.and_eq_true, Bool.not_eq_true',
      Bool.not_eq_true])
private theorem xor_contains {a b : VecSet T} (ha : Built a) (hb : Built b) (x : T) :
    (a.symmetricDifference b).1.contains x = (a.contains x ^^ b.contains x) :=
  contains_eq_of (.symmetricDifference ha hb) (by
    rw [(C05_symmetric_difference a b ha hb).2.2, ← C04_contains a ha, ← C04_contains b hb]
    cases a.contains x <;> cases b.contains x <;> simp)

/-! ## C30 -/

/-- **C30.** `&`, `|`, `^`, `-`, `!` are the pointwise boolean operations, for every combination of polarities, and never panic. -/
theorem C30_pointwise (a b : TotalVecSet T) (ha : BuiltTotal a) (hb : BuiltTotal b) :
    ((a.bitand b).2 ≠ .panic ∧ ∀ x, (a.bitand b).1.contains x = (a.contains x && b.contains x)) ∧
    ((a.bitor b).2 ≠ .panic ∧ ∀ x, (a.bitor b).1.contains x = (a.contains x || b.contains x)) ∧
    ((a.bitxor b).2 ≠ .panic ∧ ∀ x, (a.bitxor b).1.contains x = (a.contains x ^^ b.contains x)) ∧
    ((a.sub b).2 ≠ .panic ∧ ∀ x, (a.sub b).1.contains x = (a.contains x && !b.contains x)) ∧
    (∀ x, a.not.contains x = !a.contains x) := by
  replace ha := ha.built
  replace hb := hb.built
  obtain ⟨ea, na⟩ := a
  obtain ⟨eb, nb⟩ := b
  simp only at ha hb
  refine ⟨⟨?_, fun x => ?_⟩, ⟨?_, fun x => ?_⟩, ⟨?_, fun x => ?_⟩, ⟨?_, fun x => ?_⟩, fun x => ?_⟩
  · cases na <;> cases nb <;> simp only [TotalVecSet.bitand, TotalVecSet.new] <;>
      first | exact (C05_intersection _ _ ha hb).1 | exact (C05_difference _ _ ha hb).1 | exact (C05_difference _ _ hb ha).1 | exact (C05_union _ _ hb ha).1
  · cases na <;> cases nb <;> simp only [TotalVecSet.bitand, TotalVecSet.new, TotalVecSet.contains, inter_contains ha hb,
      diff_contains ha hb, diff_contains hb ha, union_contains hb ha] <;> cases ea.contains x <;> cases eb.contains x <;> rfl
  · cases na <;> cases nb <;> simp only [TotalVecSet.bitor, TotalVecSet.new] <;>
      first | exact (C05_union _ _ ha hb).1 | exact (C05_difference _ _ hb ha).1 | exact (C05_difference _ _ ha hb).1 | exact (C05_intersection _ _ hb ha).1
  · cases na <;> cases nb <;> simp only [TotalVecSet.bitor, TotalVecSet.new, TotalVecSet.contains, inter_contains hb ha,
      diff_contains ha hb, diff_contains hb ha, union_contains ha hb] <;> cases ea.contains x <;> cases eb.contains x <;> rfl
  · exact (C05_symmetric_difference _ _ ha hb).1
  · simp only [TotalVecSet.bitxor, TotalVecSet.new, TotalVecSet.contains, xor_contains ha hb]
    cases na <;> cases nb <;> cases ea.contains x <;> cases eb.contains x <;> rfl
  · cases na <;> cases nb <;> simp only [TotalVecSet.sub, TotalVecSet.new] <;>
      first | exact (C05_difference _ _ ha hb).1 | exact (C05_intersection _ _ ha hb).1 | exact (C05_union _ _ ha hb).1 | exact (C05_difference _ _ hb ha).1
  · cases na <;> cases nb <;> simp only [TotalVecSet.sub, TotalVecSet.new, TotalVecSet.contains, inter_contains ha hb,
      diff_contains ha hb, diff_contains hb ha, union_contains ha hb] <;> cases ea.contains x <;> cases eb.contains x <;> rfl
  · simp only [TotalVecSet.not, TotalVecSet.contains]
    cases na <;> cases ea.contains x <;> rfl

/-- **C30.** what a total set contains, in terms of the `VecSet` it was made of -/
theorem C30_basic (s : VecSet T) (hs : Built s) (b : Bool) (x : T) :
    (TotalVecSet.constant b : TotalVecSet T).contains x = b ∧
    ((TotalVecSet.fromVecSet s).contains x = true ↔ Has s.asSlice x) ∧
    ((TotalVecSet.fromVecSet s).not.contains x = true ↔ ¬ Has s.asSlice x) := by
  refine ⟨?_, ?_, ?_⟩
  · have : (VecSet.empty : VecSet T).contains x = false := contains_eq_of .empty (by simp [VecSet.empty, VecSet.asSlice, Has])
    simp [TotalVecSet.constant, TotalVecSet.contains, this]
  · rw [← C04_contains s hs]; simp [TotalVecSet.fromVecSet, TotalVecSet.contains]
  · rw [← C04_contains s hs]; simp [TotalVecSet.fromVecSet, TotalVecSet.not, TotalVecSet.contains]

/-- **C30.** `empty()` and `all()` are the two constant sets, recognised by `is_empty` and `is_all` and complements of each other -/
theorem C30_empty_all (x : T) :
    (TotalVecSet.empty : TotalVecSet T).contains x = false ∧ (TotalVecSet.all : TotalVecSet T).contains x = true ∧
    (TotalVecSet.empty : TotalVecSet T).isEmpty = true ∧ (TotalVecSet.empty : TotalVecSet T).isAll = false ∧
    (TotalVecSet.all : TotalVecSet T).isAll = true ∧ (TotalVecSet.all : TotalVecSet T).isEmpty = false ∧
    (TotalVecSet.empty : TotalVecSet T).not = TotalVecSet.all ∧ (TotalVecSet.all : TotalVecSet T).not = TotalVecSet.empty :=
  ⟨(C30_basic VecSet.empty .empty false x).1, (C30_basic VecSet.empty .empty true x).1, rfl, rfl, rfl, rfl, rfl, rfl⟩

/-- a negated and a plain reachable set that overlap -/
example : BuiltTotal (TotalVecSet.fromVecSet (VecSet.fromIter [3, 1])).not ∧
    BuiltTotal (TotalVecSet.fromVecSet (VecSet.fromIter [1, 2])) ∧
    (TotalVecSet.fromVecSet (VecSet.fromIter [3, 1])).not.contains 2 = true := by
  refine ⟨.not (.fromVecSet (.fromIter _)), .fromVecSet (.fromIter _), ?_⟩
  rw [(C30_basic _ (.fromIter _) true 2).2.2, (C02_collect_membership [3, 1] 2).1]
  simp [Has]

/-! ## C31 -/

/-- **C31.** the assignment operators give the value of the operators, and never panic -/
theorem C31_assign_ops_agree (a b : TotalVecSet T) (ha : BuiltTotal a) (hb : BuiltTotal b) :
    (∃ r, a.bitandAssign b = (r, .cont) ∧ r.eq (a.bitand b).1 = true ∧ ∀ x, r.contains x = (a.contains x && b.contains x)) ∧
    (∃ r, a.bitorAssign b = (r, .cont) ∧ r.eq (a.bitor b).1 = true ∧ ∀ x, r.contains x = (a.contains x || b.contains x)) ∧
    (∃ r, a.bitxorAssign b = (r, .cont) ∧ r.eq (a.bitxor b).1 = true ∧ ∀ x, r.contains x = (a.contains x ^^ b.contains x)) ∧
    (∃ r, a.subAssign b = (r, .cont) ∧ r.eq (a.sub b).1 = true ∧ ∀ x, r.contains x = (a.contains x && !b.contains x)) := by
  have hA := ha.built
  have hB := hb.built
  have refl : ∀ {s : VecSet T}, Built s → s.eq s = true := fun hs => (C09_eq_iff_same_members _ _ hs hs).1.2 (fun _ => Iff.rfl)
  have hcu : ∀ {s t : VecSet T}, Built s → Built t → (s.union t).1.eq (t.union s).1 = true := fun hs ht => (C10_commutative _ _ hs ht).1
  have hci : ∀ {s t : VecSet T}, Built s → Built t → (s.intersection t).1.eq (t.intersection s).1 = true :=
    fun hs ht => (C10_commutative _ _ hs ht).2.1
  obtain ⟨⟨o1, -⟩, ⟨a1, -⟩, ⟨x1, -⟩, ⟨s1, -⟩⟩ := C06_assign_ops_agree a.elements b.elements hA hB
  obtain ⟨⟨o2, -⟩, ⟨a2, -⟩, ⟨x2, -⟩, ⟨s2, -⟩⟩ := C06_assign_ops_agree b.elements a.elements hB hA
  obtain ⟨ea, na⟩ := a
  obtain ⟨eb, nb⟩ := b
  simp only at hA hB o1 a1 x1 s1 s2
  refine ⟨?_, ?_, ?_, ?_⟩
  · cases na <;> cases nb <;> simp only [TotalVecSet.bitandAssign, bitandAssign.assign, TotalVecSet.bitand, TotalVecSet.new, o1, a1, s1, s2] <;>
      refine ⟨_, rfl, ?_, fun x => ?_⟩
    all_goals first
      | (simp only [TotalVecSet.eq, beq_self_eq_true, Bool.and_true]
         first | exact refl (.intersection hA hB) | exact refl (.difference hA hB) | exact refl (.difference hB hA) | exact hcu hA hB)
      | (simp only [TotalVecSet.contains, inter_contains hA hB, diff_contains hA hB, diff_contains hB hA, union_contains hA hB]
         cases ea.contains x <;> cases eb.contains x <;> rfl)
  · cases na <;> cases nb <;> simp only [TotalVecSet.bitorAssign, bitandAssign.assign, TotalVecSet.bitor, TotalVecSet.new, o1, a1, s1, s2] <;>
      refine ⟨_, rfl, ?_, fun x => ?_⟩
    all_goals first
      | (simp only [TotalVecSet.eq, beq_self_eq_true, Bool.and_true]
         first | exact refl (.union hA hB) | exact refl (.difference hA hB) | exact refl (.difference hB hA) | exact hci hA hB)
      | (simp only [TotalVecSet.contains, inter_contains hA hB, diff_contains hA hB, diff_contains hB hA, union_contains hA hB]
         cases ea.contains x <;> cases eb.contains x <;> rfl)
  · simp only [TotalVecSet.bitxorAssign, bitandAssign.assign, TotalVecSet.bitxor, TotalVecSet.new, x1]
    refine ⟨_, rfl, ?_, fun x => ?_⟩
    · simp only [TotalVecSet.eq, beq_self_eq_true, Bool.and_true]; exact refl (.symmetricDifference hA hB)
    · simp only [TotalVecSet.contains, xor_contains hA hB]
      cases na <;> cases nb <;> cases ea.contains x <;> cases eb.contains x <;> rfl
  · cases na <;> cases nb <;> simp only [TotalVecSet.subAssign, bitandAssign.assign, TotalVecSet.sub, TotalVecSet.new, o1, a1, s1, s2] <;>
      refine ⟨_, rfl, ?_, fun x => ?_⟩
    all_goals first
      | (simp only [TotalVecSet.eq, beq_self_eq_true, Bool.and_true]
         first | exact refl (.union hA hB) | exact refl (.difference hA hB) | exact refl (.difference hB hA) | exact refl (.intersection hA hB))
      | (simp only [TotalVecSet.contains, inter_contains hA hB, diff_contains hA hB, diff_contains hB hA, union_contains hA hB]
         cases ea.contains x <;> cases eb.contains x <;> rfl)

/-! ## C32

Full claim: for every element type and all total sets `a b`,
```
(a.isSubset b = true ↔ ∀ x, a.contains x = true → b.contains x = true) ∧
(a.isSuperset b = true ↔ ∀ x, b.contains x = true → a.contains x = true) ∧
(a.isDisjoint b = true ↔ ¬ ∃ x, a.contains x = true ∧ b.contains x = true)
```
It is FALSE of the code: `is_superset` is `!is_subset`, and for finite element types the answers for co-finite sets are wrong. -/

private theorem infinite_witness (hT : InfiniteOrd T) {s t : VecSet T} (hs : Built s) (ht : Built t) :
    ∃ x, s.contains x = false ∧ t.contains x = false := by
  obtain ⟨x, hx⟩ := hT (s.asSlice ++ t.asSlice)
  refine ⟨x, contains_eq_of hs ?_, contains_eq_of ht ?_⟩ <;>
  · simp only [Bool.false_eq_true, iff_false]
    rintro ⟨y, hy, e⟩
    exact hx ⟨y, by simp [hy], e⟩

/-- **C32 (partial).** over an infinite element type `is_subset` and `is_disjoint` are exact. Missing: finite element types (see
`C32_finite_counterexample`) and `is_superset` (see `C32_superset_counterexample`). -/
theorem C32_subset_disjoint_partial (hT : InfiniteOrd T) (a b : TotalVecSet T) (ha : BuiltTotal a) (hb : BuiltTotal b) :
    (a.isSubset b = true ↔ ∀ x, a.contains x = true → b.contains x = true) ∧
    (a.isDisjoint b = true ↔ ¬ ∃ x, a.contains x = true ∧ b.contains x = true) := by
  have hA := ha.built
  have hB := hb.built
  obtain ⟨ea, na⟩ := a
  obtain ⟨eb, nb⟩ := b
  simp only at hA hB
  obtain ⟨r1, r2, r3⟩ := C07_relations ea eb hA hB
  simp only [← C04_contains ea hA, ← C04_contains eb hB] at r1 r2 r3
  obtain ⟨z, z1, z2⟩ := infinite_witness hT hA hB
  constructor
  · cases na <;> cases nb <;> simp only [TotalVecSet.isSubset, TotalVecSet.contains, Bool.false_xor, Bool.true_xor, r1, r2, r3,
      Bool.not_eq_true', not_exists, not_and, Bool.not_eq_true, Bool.false_eq_true, false_iff, Classical.not_forall]
    · exact ⟨z, by simp [z1, z2]⟩
    · constructor
      · intro h x hx; cases hc : eb.contains x
        · rfl
        · rw [h x hc] at hx; cases hx
      · intro h x hx; cases hc : ea.contains x
        · rw [h x hc] at hx; cases hx
        · rfl
  · cases na <;> cases nb <;> simp only [TotalVecSet.isDisjoint, TotalVecSet.contains, Bool.false_xor, Bool.true_xor, r1, r2, r3,
      Bool.not_eq_true', not_exists, not_and, Bool.not_eq_false, Bool.not_eq_true, Bool.false_eq_true, false_iff, Classical.not_forall]
    · constructor
      · intro h x hx; cases hc : eb.contains x
        · rfl
        · rw [h x hc] at hx; cases hx
      · intro h x hx; cases hc : ea.contains x
        · rw [h x hc] at hx; cases hx
        · rfl
    · exact ⟨z, by simp [z1, z2]⟩

/-- **C32 (partial).** over any element type a positive answer of `is_subset`/`is_disjoint` is right, and both are exact unless the
left (respectively both) operands are negated and the other one is not -/
theorem C32_sound_partial (a b : TotalVecSet T) (ha : BuiltTotal a) (hb : BuiltTotal b) :
    (a.isSubset b = true → ∀ x, a.contains x = true → b.contains x = true) ∧
    (a.isDisjoint b = true → ¬ ∃ x, a.contains x = true ∧ b.contains x = true) := by
  have hA := ha.built
  have hB := hb.built
  obtain ⟨ea, na⟩ := a
  obtain ⟨eb, nb⟩ := b
  simp only at hA hB
  obtain ⟨r1, r2, r3⟩ := C07_relations ea eb hA hB
  simp only [← C04_contains ea hA, ← C04_contains eb hB] at r1 r2 r3
  constructor
  · cases na <;> cases nb <;> simp only [TotalVecSet.isSubset, TotalVecSet.contains, Bool.false_xor, Bool.true_xor, r1, r2, r3,
      Bool.not_eq_true', not_exists, not_and, Bool.not_eq_true, Bool.false_eq_true, false_implies]
    · exact id
    · exact id
    · intro h x hx; cases hc : eb.contains x
      · rfl
      · rw [h x hc] at hx; cases hx
  · cases na <;> cases nb <;> simp only [TotalVecSet.isDisjoint, TotalVecSet.contains, Bool.false_xor, Bool.true_xor, r1, r2, r3,
      Bool.not_eq_true', not_exists, not_and, Bool.not_eq_false, Bool.not_eq_true, Bool.false_eq_true, false_implies]
    · exact id
    · exact id
    · intro h x hx; cases hc : eb.contains x
      · rfl
      · rw [h x hc] at hx; cases hx

/-- the natural numbers are infinite in this sense -/
theorem infiniteOrd_nat : InfiniteOrd Nat := by
  intro l
  refine ⟨l.foldr max 0 + 1, ?_⟩
  rintro ⟨y, hy, e⟩
  have hle : ∀ (l : List Nat) y, y ∈ l → y ≤ l.foldr max 0 := by
    intro l
    induction l with
    | nil => simp
    | cons a l ih =>
      intro y hy
      rcases List.mem_cons.1 hy with rfl | h
      · exact Nat.le_max_left _ _
      · exact Nat.le_trans (ih y h) (Nat.le_max_right _ _)
  have := hle l y hy
  have := compare_eq_iff_eq.1 e
  omega

/-- **C32.** `is_superset` is the negation of `is_subset` for all total sets, so no set with a subset relation to itself is its own
superset: the claim fails for every non-degenerate choice, e.g. whenever `a = b`. -/
theorem C32_superset_counterexample (a : TotalVecSet Nat) (ha : BuiltTotal a) :
    a.isSuperset a = false ∧ ∀ x, a.contains x = true → a.contains x = true := by
  refine ⟨?_, fun _ h => h⟩
  rw [TotalVecSet.isSuperset, (C32_subset_disjoint_partial infiniteOrd_nat a a ha ha).1.2 (fun _ h => h)]
  rfl

/-- **C32.** `is_superset` also answers `true` wrongly: {1} is not a superset of {2} -/
theorem C32_superset_false_positive : ∃ a b : TotalVecSet Nat, BuiltTotal a ∧ BuiltTotal b ∧ a.isSuperset b = true ∧
    b.contains 2 = true ∧ a.contains 2 = false := by
  refine ⟨.fromVecSet (.single 1), .fromVecSet (.single 2), .fromVecSet (.single 1), .fromVecSet (.single 2), ?_, ?_, ?_⟩
  · rw [TotalVecSet.isSuperset, Bool.not_eq_true', ← Bool.not_eq_true,
      (C32_subset_disjoint_partial infiniteOrd_nat _ _ (.fromVecSet (.single 1)) (.fromVecSet (.single 2))).1]
    intro h
    have := h 1 (((C30_basic _ (.single 1) true 1).2.1).2 (by simp [VecSet.single, VecSet.asSlice, Has]))
    rw [(C30_basic _ (.single 2) true 1).2.1] at this
    simp [VecSet.single, VecSet.asSlice, Has] at this
  · rw [(C30_basic _ (.single 2) true 2).2.1]; simp [VecSet.single, VecSet.asSlice, Has]
  · rw [← Bool.not_eq_true, (C30_basic _ (.single 1) true 2).2.1]; simp [VecSet.single, VecSet.asSlice, Has]

/-- **C32.** for a finite element type `is_subset`, `is_disjoint` and `==` are not exact: over `Bool`, `!{false}` and `{true}` contain the
same elements, but `!{false}` is not reported as a subset of `{true}`, `!{false}` and `!{true}` are not reported as disjoint, and
`!{false} != {true}` -/
theorem C32_finite_counterexample : ∃ a b c : TotalVecSet Bool, BuiltTotal a ∧ BuiltTotal b ∧ BuiltTotal c ∧
    (∀ x, a.contains x = b.contains x) ∧ (∀ x, (a.contains x && c.contains x) = false) ∧
    a.isSubset b = false ∧ a.isDisjoint c = false ∧ a.eq b = false := by
  have hs : ∀ b x : Bool, (TotalVecSet.fromVecSet (.single b)).contains x = (b == x) := by
    intro b x
    rw [Bool.eq_iff_iff, (C30_basic _ (.single b) true x).2.1]
    cases b <;> cases x <;> simp [VecSet.single, VecSet.asSlice, Has] <;> decide
  have hn : ∀ b x : Bool, (TotalVecSet.fromVecSet (.single b)).not.contains x = !(b == x) := by
    intro b x
    rw [Bool.eq_iff_iff, (C30_basic _ (.single b) true x).2.2, ← (C30_basic _ (.single b) true x).2.1, hs]
    cases b <;> cases x <;> simp
  refine ⟨(TotalVecSet.fromVecSet (.single false)).not, .fromVecSet (.single true), (TotalVecSet.fromVecSet (.single true)).not,
    .not (.fromVecSet (.single _)), .fromVecSet (.single _), .not (.fromVecSet (.single _)), ?_, ?_, rfl, rfl, ?_⟩
  · intro x; rw [hs, hn]; cases x <;> rfl
  · intro x; rw [hn, hn]; cases x <;> rfl
  · simp [TotalVecSet.eq, TotalVecSet.not, TotalVecSet.fromVecSet]

/-! ## C33 -/

/-- **C33.** over an infinite element type, `==` holds iff the same elements are contained -/
theorem C33_eq_extensional (hT : InfiniteOrd T) (a b : TotalVecSet T) (ha : BuiltTotal a) (hb : BuiltTotal b) :
    a.eq b = true ↔ ∀ x, a.contains x = b.contains x := by
  have hA := ha.built
  have hB := hb.built
  obtain ⟨ea, na⟩ := a
  obtain ⟨eb, nb⟩ := b
  simp only at hA hB
  obtain ⟨z, z1, z2⟩ := infinite_witness hT hA hB
  have he := (C09_eq_iff_same_members ea eb hA hB).1
  simp only [← C04_contains ea hA, ← C04_contains eb hB, ← Bool.eq_iff_iff] at he
  simp only [TotalVecSet.eq, Bool.and_eq_true, he, beq_iff_eq, TotalVecSet.contains]
  constructor
  · rintro ⟨h, rfl⟩ x; rw [h x]
  · intro h
    have hn : na = nb := by have := h z; rw [z1, z2] at this; simpa using this
    subst hn
    exact ⟨fun x => by simpa using h x, rfl⟩

/-- **C33.** over any element type, `==` implies the same elements, and equal sets feed the same data to a hasher -/
theorem C33_eq_sound_hash {H : Type _} (h : T → H) (hh : ∀ x y, compare x y = .eq → h x = h y) (a b : TotalVecSet T)
    (ha : BuiltTotal a) (hb : BuiltTotal b) (e : a.eq b = true) :
    (∀ x, a.contains x = b.contains x) ∧ a.hashFeed h = b.hashFeed h := by
  obtain ⟨ea, na⟩ := a
  obtain ⟨eb, nb⟩ := b
  simp only [TotalVecSet.eq, Bool.and_eq_true, beq_iff_eq] at e
  obtain ⟨e, rfl⟩ := e
  refine ⟨fun x => ?_, by simp only [TotalVecSet.hashFeed, C09_hash h hh ea eb e]⟩
  have := (C09_eq_iff_same_members ea eb ha.built hb.built).1.1 e x
  rw [← C04_contains ea ha.built, ← C04_contains eb hb.built, ← Bool.eq_iff_iff] at this
  simp only [TotalVecSet.contains, this]

/-- **C33.** `is_empty`/`is_all` are exact over infinite element types (a positive answer is right over any type) -/
theorem C33_empty_all (a : TotalVecSet T) (ha : BuiltTotal a) :
    (a.isEmpty = true → ∀ x, a.contains x = false) ∧ (a.isAll = true → ∀ x, a.contains x = true) ∧
    (InfiniteOrd T → (∀ x, a.contains x = false) → a.isEmpty = true) ∧
    (InfiniteOrd T → (∀ x, a.contains x = true) → a.isAll = true) := by
  have hA := ha.built
  obtain ⟨ea, na⟩ := a
  simp only at hA
  have hc : ∀ x, ea.isEmpty = true → ea.contains x = false := by
    intro x h
    apply contains_eq_of hA
    simp only [VecSet.isEmpty, List.isEmpty_iff] at h
    simp [VecSet.asSlice, h, Has]
  have hc' : (∀ x, ea.contains x = false) → ea.isEmpty = true := by
    intro h
    rw [VecSet.isEmpty, List.isEmpty_iff]
    cases hl : ea.elems with
    | nil => rfl
    | cons y l =>
      have := (C04_contains ea hA y).2 ⟨y, by simp [VecSet.asSlice, hl], cmp_self y⟩
      rw [h y] at this; cases this
  refine ⟨?_, ?_, ?_, ?_⟩
  · intro h x
    simp only [TotalVecSet.isEmpty, Bool.and_eq_true, Bool.not_eq_true'] at h
    simp [TotalVecSet.contains, h.1, hc x h.2]
  · intro h x
    simp only [TotalVecSet.isAll, Bool.and_eq_true] at h
    simp [TotalVecSet.contains, h.1, hc x h.2]
  · intro hT h
    obtain ⟨z, z1, -⟩ := infinite_witness hT hA hA
    have hn : na = false := by have := h z; simpa [TotalVecSet.contains, z1] using this
    subst hn
    simp only [TotalVecSet.isEmpty, Bool.not_false, Bool.true_and]
    exact hc' (fun x => by simpa [TotalVecSet.contains] using h x)
  · intro hT h
    obtain ⟨z, z1, -⟩ := infinite_witness hT hA hA
    have hn : na = true := by have := h z; simpa [TotalVecSet.contains, z1] using this
    subst hn
    simp only [TotalVecSet.isAll, Bool.true_and]
    exact hc' (fun x => by simpa [TotalVecSet.contains] using h x)

/-- **C33.** serialising a total set and reading it back gives an equal (indeed the identical) set -/
theorem C33_serde_roundtrip {E : Type _} (a : TotalVecSet T) (ha : BuiltTotal a) :
    TotalVecSet.deserialize (E := E) (a.serialize.1.map .ok) (.ok a.serialize.2) = .ok a := by
  unfold TotalVecSet.deserialize
  rw [show a.serialize.1 = a.elements.serialize from rfl, C15_roundtrip a.elements ha.built]
  rfl

/-- **C33.** reading a total set: a sequence of elements and a flag give the set of these elements, complemented if the flag says so; the first
error among the elements, or else that of the flag, is reported -/
theorem C33_deserialize {E : Type} (l : List T) (n : Bool) (e : E) :
    (∃ s, TotalVecSet.deserialize (E := E) (l.map .ok) (.ok n) = .ok s ∧ BuiltTotal s ∧ ∀ x, (s.contains x = true ↔ (Has l x ↔ n = false))) ∧
    (∀ rest flag, TotalVecSet.deserialize (l.map .ok ++ .error e :: rest) flag = .error e) ∧
    TotalVecSet.deserialize (l.map .ok) (.error e) = .error e := by
  obtain ⟨⟨s, h1, h2, h3⟩, h4⟩ := C15_any_sequence (E := E) l
  refine ⟨⟨⟨s, n⟩, ?_, ?_, ?_⟩, ?_, ?_⟩
  · simp only [TotalVecSet.deserialize, h1]
  · cases n with
    | false => exact .fromVecSet h2
    | true => exact .not (.fromVecSet h2)
  · intro x
    cases n with
    | false =>
      have := (C30_basic s h2 true x).2.1
      simp only [TotalVecSet.fromVecSet] at this
      rw [this, h3]
      simp
    | true =>
      have := (C30_basic s h2 true x).2.2
      simp only [TotalVecSet.fromVecSet, TotalVecSet.not, Bool.not_false] at this
      rw [this, h3]
      simp
  · intro rest flag
    simp only [TotalVecSet.deserialize, h4]
  · simp only [TotalVecSet.deserialize, h1]

/-! ## C34 -/

/-- **C34.** `insert` adds exactly the given element, `remove` removes exactly it, for both polarities -/
theorem C34_insert_remove (s : TotalVecSet T) (h : BuiltTotal s) (x y : T) :
    (s.insert x).contains y = (if compare x y = .eq then true else s.contains y) ∧
    (s.remove x).contains y = (if compare x y = .eq then false else s.contains y) := by
  have hs := h.built
  obtain ⟨e, n⟩ := s
  simp only at hs
  have hi : (e.insert x).1.contains y = (if compare x y = .eq then true else e.contains y) := by
    apply contains_eq_of (.insert hs x)
    simp only [Has, (C14_insert_remove e hs x _).1]
    by_cases c : compare x y = .eq
    · simp only [c, ↓reduceIte, iff_true]; exact ⟨x, .inl rfl, c⟩
    · simp only [c, ↓reduceIte, C04_contains e hs]
      constructor
      · rintro ⟨z, rfl | ⟨hz, -⟩, e1⟩
        · exact absurd e1 c
        · exact ⟨z, hz, e1⟩
      · rintro ⟨z, hz, e1⟩
        exact ⟨z, .inr ⟨hz, fun h => c (cmp_eq_trans (cmp_symm h) e1)⟩, e1⟩
  have hr : (e.remove x).1.contains y = (if compare x y = .eq then false else e.contains y) := by
    apply contains_eq_of (.remove hs x)
    simp only [Has, (C14_insert_remove e hs x _).2]
    by_cases c : compare x y = .eq
    · simp only [c, ↓reduceIte, Bool.false_eq_true, iff_false]
      rintro ⟨z, ⟨-, hz⟩, e1⟩
      exact hz (cmp_eq_trans e1 (cmp_symm c))
    · simp only [c, ↓reduceIte, C04_contains e hs]
      constructor
      · rintro ⟨z, ⟨hz, -⟩, e1⟩; exact ⟨z, hz, e1⟩
      · rintro ⟨z, hz, e1⟩
        exact ⟨z, ⟨hz, fun h => c (cmp_eq_trans (cmp_symm h) e1)⟩, e1⟩
  cases n
  · simp [TotalVecSet.insert, TotalVecSet.remove, TotalVecSet.contains, hi, hr]
  · simp only [TotalVecSet.insert, TotalVecSet.remove, TotalVecSet.contains, Bool.not_true, Bool.false_eq_true, ↓reduceIte, hi, hr]
    by_cases c : compare x y = .eq <;> simp [c]

/-- **C34.** along any history of inserts, removes, complements and in-place operators nothing panics and the contents are those of
the characteristic function that undergoes the same changes -/
theorem C34_history (s : TotalVecSet T) (hs : BuiltTotal s) (ops : List (TotalOp T)) (ok : ∀ op ∈ ops, op.Ok) :
    (execTotal s ops).2 = .cont ∧ ∀ x, (execTotal s ops).1.contains x = (ops.foldl TotalOp.next s.contains) x := by
  suffices H : ∀ (χ : T → Bool), (∀ x, s.contains x = χ x) →
      (execTotal s ops).2 = .cont ∧ ∀ x, (execTotal s ops).1.contains x = (ops.foldl TotalOp.next χ) x from H _ (fun _ => rfl)
  induction ops generalizing s with
  | nil => intro χ h; exact ⟨rfl, h⟩
  | cons op ops ih =>
    intro χ hχ
    have ok' : ∀ op ∈ ops, op.Ok := fun o ho => ok o (List.mem_cons_of_mem _ ho)
    have oko := ok op List.mem_cons_self
    have step : ∀ r, op.exec s = (r, .cont) → BuiltTotal r → (∀ x, r.contains x = op.next χ x) →
        (execTotal s (op :: ops)).2 = .cont ∧
          ∀ x, (execTotal s (op :: ops)).1.contains x = ((op :: ops).foldl TotalOp.next χ) x := by
      intro r h1 h2 h3
      simp only [execTotal, h1, List.foldl_cons]
      exact ih r h2 ok' _ h3
    cases op with
    | insert x => exact step _ rfl (.insert hs x) fun y => by rw [(C34_insert_remove s hs x y).1, hχ y]; rfl
    | remove x => exact step _ rfl (.remove hs x) fun y => by rw [(C34_insert_remove s hs x y).2, hχ y]; rfl
    | not =>
      refine step _ rfl (.not hs) fun y => ?_
      rw [(C30_pointwise s s hs hs).2.2.2.2, hχ y]; rfl
    | andAssign b =>
      obtain ⟨r, h1, -, h3⟩ := (C31_assign_ops_agree s b hs oko).1
      exact step r h1 (by have := BuiltTotal.bitandAssign hs oko; rwa [h1] at this) fun y => by rw [h3, hχ y]; rfl
    | orAssign b =>
      obtain ⟨r, h1, -, h3⟩ := (C31_assign_ops_agree s b hs oko).2.1
      exact step r h1 (by have := BuiltTotal.bitorAssign hs oko; rwa [h1] at this) fun y => by rw [h3, hχ y]; rfl
    | xorAssign b =>
      obtain ⟨r, h1, -, h3⟩ := (C31_assign_ops_agree s b hs oko).2.2.1
      exact step r h1 (by have := BuiltTotal.bitxorAssign hs oko; rwa [h1] at this) fun y => by rw [h3, hχ y]; rfl
    | subAssign b =>
      obtain ⟨r, h1, -, h3⟩ := (C31_assign_ops_agree s b hs oko).2.2.2
      exact step r h1 (by have := BuiltTotal.subAssign hs oko; rwa [h1] at this) fun y => by rw [h3, hχ y]; rfl

/-- an admissible history that changes polarity and uses a co-finite operand -/
example : ∀ op ∈ [TotalOp.insert 3, .not, .remove 5, .andAssign (TotalVecSet.fromVecSet (.single 7)).not, .orAssign (.constant false)],
    TotalOp.Ok (T := Nat) op := by
  intro op h
  simp only [List.mem_cons, List.not_mem_nil, or_false] at h
  rcases h with rfl | rfl | rfl | rfl | rfl
  all_goals first | trivial | exact BuiltTotal.not (.fromVecSet (.single _)) | exact BuiltTotal.constant _

end Verif
