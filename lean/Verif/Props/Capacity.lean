import Verif.Lemmas.CapacityInPlace
import Verif.Lemmas.CapacityCollect
import Verif.Lemmas.MapOps
import Verif.Spec.Capacity
/-!
# C92: sets and maps allocate only when the elements do not fit

`N` is the inline capacity of the type, `cap` the capacity of a vector at hand. A vector with capacity `N` has its elements inline, every other has allocated.
-/
namespace Verif
open Std

/-! ### Operations that make a new set or map -/
section byRef
variable {T : Type _} [Ord T] [TransOrd T]

theorem capMerge_algebra (N : Nat) (o : AlgebraOp) (a b r : List T) (h : SliceMS.merge a b (o.op T (SliceMS.mut cloneConverter cloneConverter)) = (r, .cont)) :
    ∃ cap, CapMS.merge N a b (o.op T (CapMS.mut cloneConverter cloneConverter)) = (r, cap, .cont) ∧ NoMoreThanNeeded N r.length cap := by
  obtain ⟨cap, h1, h2⟩ := CapMS.merge_spec (N := N) (algebra_proj o cloneConverter cloneConverter) (algebra_keeps N o cloneConverter cloneConverter) h
  exact ⟨cap, h1, h2.seen⟩

/-- **C92 (operators by reference).** `&a | &b`, `&a & &b`, `&a ^ &b` and `&a - &b` into a set with inline capacity `N` yield the set they should (C05) and do not allocate if that has
at most `N` elements; otherwise they end with a buffer less than twice as large as needed. -/
theorem C92_by_reference (N : Nat) (a b : VecSet T) (ha : Built a) (hb : Built b) :
    (∃ cap, VecSet.unionCap N a b = ((a.union b).1.asSlice, cap, .cont) ∧ NoMoreThanNeeded N (a.union b).1.len cap) ∧
    (∃ cap, VecSet.intersectionCap N a b = ((a.intersection b).1.asSlice, cap, .cont) ∧ NoMoreThanNeeded N (a.intersection b).1.len cap) ∧
    (∃ cap, VecSet.symmetricDifferenceCap N a b = ((a.symmetricDifference b).1.asSlice, cap, .cont) ∧ NoMoreThanNeeded N (a.symmetricDifference b).1.len cap) ∧
    (∃ cap, VecSet.differenceCap N a b = ((a.difference b).1.asSlice, cap, .cont) ∧ NoMoreThanNeeded N (a.difference b).1.len cap) := by
  have ha := ha.ascending
  have hb := hb.ascending
  have split : ∀ (r : List T × Flow) (l : List T), ((⟨r.1⟩ : VecSet T), r.2) = (⟨l⟩, .cont) → r = (l, .cont) := by
    rintro ⟨l', f⟩ l h
    simp only [Prod.mk.injEq, VecSet.mk.injEq] at h
    rw [h.1, h.2]
  refine ⟨?_, ?_, ?_, ?_⟩
  · rw [VecSet.union_eq ha hb]
    exact capMerge_algebra N .union _ _ _ (split _ _ (VecSet.union_eq ha hb))
  · rw [VecSet.intersection_eq ha hb]
    exact capMerge_algebra N .intersection _ _ _ (split _ _ (VecSet.intersection_eq ha hb))
  · rw [VecSet.symmetricDifference_eq ha hb]
    exact capMerge_algebra N .xor _ _ _ (split _ _ (VecSet.symmetricDifference_eq ha hb))
  · rw [VecSet.difference_eq ha hb]
    exact capMerge_algebra N .difference _ _ _ (split _ _ (VecSet.difference_eq ha hb))

end byRef

/-- the example of vec_set.rs:75-84: `(0..4)` and `(4..6)` do not allocate, their union does -/
example : Built (VecSet.fromIter [0, 1, 2, 3] : VecSet Nat) ∧ Built (VecSet.fromIter [4, 5] : VecSet Nat) := ⟨.fromIter _, .fromIter _⟩
example : VecSet.unionCap 4 (⟨[0, 1, 2, 3]⟩ : VecSet Nat) ⟨[4, 5]⟩ = ([0, 1, 2, 3, 4, 5], 8, .cont) := by decide +kernel
example : VecSet.symmetricDifferenceCap 4 (⟨[0, 1, 2, 3]⟩ : VecSet Nat) ⟨[1, 2, 5, 6]⟩ = ([0, 3, 5, 6], 4, .cont) := by decide +kernel

section joins
variable {K V W R : Type _} [Ord K]

/-- **C92 (joins by reference).** For any two maps and any closures (also ones that panic), the entries and flow are those of the join, and nothing is allocated while the result has at most `N` entries. -/
theorem C92_joins (N : Nat) (a : VecMap K V) (b : VecMap K W) :
    (∀ f : OuterJoinArg K V W → Call (Option R), ∃ cap, VecMap.outerJoinCap N a b f = ((a.outerJoin b f).1.asSlice, cap, (a.outerJoin b f).2) ∧ NoMoreThanNeeded N (a.outerJoin b f).1.len cap) ∧
    (∀ f : K → V → Option W → Call (Option R), ∃ cap, VecMap.leftJoinCap N a b f = ((a.leftJoin b f).1.asSlice, cap, (a.leftJoin b f).2) ∧ NoMoreThanNeeded N (a.leftJoin b f).1.len cap) ∧
    (∀ f : K → Option V → W → Call (Option R), ∃ cap, VecMap.rightJoinCap N a b f = ((a.rightJoin b f).1.asSlice, cap, (a.rightJoin b f).2) ∧ NoMoreThanNeeded N (a.rightJoin b f).1.len cap) ∧
    (∀ f : K → V → W → Call (Option R), ∃ cap, VecMap.innerJoinCap N a b f = ((a.innerJoin b f).1.asSlice, cap, (a.innerJoin b f).2) ∧ NoMoreThanNeeded N (a.innerJoin b f).1.len cap) := by
  have go : ∀ o : MergeOp (SliceMS (K × V) (K × W) (K × R)) (K × V) (K × W), Appends o → ∃ cap, CapMS.merge N a.entries b.entries (CapMS.tracked o) =
      ((SliceMS.merge a.entries b.entries o).1, cap, (SliceMS.merge a.entries b.entries o).2) ∧ NoMoreThanNeeded N (SliceMS.merge a.entries b.entries o).1.length cap :=
    fun o ho => by
      obtain ⟨cap, h1, h2⟩ := CapMS.tracked_spec (N := N) (a := a.entries) (b := b.entries) ho
      exact ⟨cap, h1, h2.seen⟩
  refine ⟨fun f => go (outerJoinOp f) ⟨?_, ?_, ?_⟩, fun f => go (leftJoinOp f) ⟨?_, ?_, ?_⟩, fun f => go (rightJoinOp f) ⟨?_, ?_, ?_⟩, fun f => go (innerJoinOp f) ⟨?_, ?_, ?_⟩⟩
  · exact fun s n => loopA_appends _ n s
  · exact fun s n => loopB_appends _ n s
  · exact fun s => both_appends _ s
  · exact fun s n => loopA_appends _ n s
  · exact fun s n => dropB_appends s n
  · exact fun s => both_appends _ s
  · exact fun s n => dropA_appends s n
  · exact fun s n => loopB_appends _ n s
  · exact fun s => both_appends _ s
  · exact fun s n => dropA_appends s n
  · exact fun s n => dropB_appends s n
  · exact fun s => both_appends _ s

end joins

/-- five entries are looked at, three stored: inline -/
example : VecMap.outerJoinCap 3 (⟨[(1, 10), (2, 20), (4, 40)]⟩ : VecMap Nat Nat) (⟨[(2, 7), (3, 7), (5, 7)]⟩ : VecMap Nat Nat)
    (fun | .left _ v => .ret (some v) | .right _ _ => .ret none | .both _ v w => .ret (some (v + w)))
    = ([(1, 10), (2, 27), (4, 40)], 3, .cont) := by decide +kernel
/-- ... and with room for two, the third entry moves all to the heap -/
example : VecMap.outerJoinCap 2 (⟨[(1, 10), (2, 20), (4, 40)]⟩ : VecMap Nat Nat) (⟨[(2, 7), (3, 7), (5, 7)]⟩ : VecMap Nat Nat)
    (fun | .left _ v => .ret (some v) | .right _ _ => .ret none | .both _ v w => .ret (some (v + w)))
    = ([(1, 10), (2, 27), (4, 40)], 4, .cont) := by decide +kernel

/-! ### Operations in place -/
section inPlace
variable {A B : Type _}

theorem mergedCap_of_len {cap : Nat} {o : MergeOp (SlotMS A B) A B} {a : List A} {b : List B} {P : SlotMS A B → Prop} (hp : Preserves P o) (h0 : P (SlotMS.new a b))
    (hP : ∀ s, P s → s.bld.slots.length = a.length) (h : a.length ≤ cap) : mergedCap cap o a b = cap := by
  have := hP _ (binaryMerge_pres hp (MergeState.aSlice (SlotMS.new a b) : List A).length (MergeState.bSlice (SlotMS.new a b) : List B).length _ h0)
  unfold mergedCap mergeAll
  omega

theorem new_len (a : List A) (b : List B) : (SlotMS.new a b).bld.slots.length = a.length := by simp [SlotMS.new, Builder.new]

/-- the vector has room for what is in it -/
theorem merged_len {Rel : SlotMS A B → InPlaceMS A B → Prop} {o1 : MergeOp (SlotMS A B) A B} {o2 : MergeOp (InPlaceMS A B) A B} (sim : SimOp Rel o1 o2)
    (hR : ∀ s l, Rel s l → Refines s l) {a : List A} {b : List B} (h0 : Rel (SlotMS.new a b) { tgt := [], src := a, b := b }) (cap : Nat) :
    (InPlaceMS.merge a b o2).1.length ≤ mergedCap cap o1 a b := by
  have hs : (MergeState.aSlice (SlotMS.new a b)).length = a.length := congrArg List.length (Builder.sourceSlice_rep (Builder.new_rep a))
  have h := binaryMerge_sim sim hR a.length b.length _ _ h0
  have e1 : mergeAll o1 (SlotMS.new a b) = binaryMerge o1 (SlotMS.new a b) a.length b.length := by
    unfold mergeAll; rw [hs]; rfl
  obtain ⟨g, hg⟩ := (hR _ _ h.1).rep
  have hl := Builder.len_rep hg
  unfold mergedCap
  rw [e1]
  show (binaryMerge o2 _ a.length b.length).1.tgt.length ≤ _
  omega

/-- **C92 (`&=`, `-=`, `left_join_with`, `inner_join_with`).** They never allocate, reallocate or free a buffer: for every order, every input, every conversion and every closure. -/
theorem C92_in_place_shrinking {T K V W : Type _} [Ord T] [Ord K] (cap : Nat) :
    (∀ (conv : T → Call T) (a b : VecSet T), a.len ≤ cap → VecSet.bitandAssignCap conv cap a b = cap ∧ VecSet.subAssignCap conv cap a b = cap) ∧
    (∀ (a : VecMap K V) (b : VecMap K W), a.len ≤ cap → (∀ f, VecMap.leftJoinWithCap cap a b f = cap) ∧ ∀ f, VecMap.innerJoinWithCap cap a b f = cap) := by
  refine ⟨fun conv a b h => ⟨?_, ?_⟩, fun a b h => ⟨fun f => ?_, fun f => ?_⟩⟩
  · exact mergedCap_of_len (shrinking_len _ conv a.elems.length .intersection (.inl rfl)) (new_len _ _) (fun _ h => h) h
  · exact mergedCap_of_len (shrinking_len _ conv a.elems.length .difference (.inr rfl)) (new_len _ _) (fun _ h => h) h
  · exact mergedCap_of_len ((shrinking_join_len _ a.entries.length).1 f) ⟨⟨_, new_refines _ _⟩, new_len _ _⟩ (fun _ h => h.2) h
  · exact mergedCap_of_len ((shrinking_join_len _ a.entries.length).2 f) ⟨⟨_, new_refines _ _⟩, new_len _ _⟩ (fun _ h => h.2) h

end inPlace

/-- the example of vec_set.rs:86-93: `(0..4) &= (2..6)` -/
example : VecSet.bitandAssignCap idConverter 4 (⟨[0, 1, 2, 3]⟩ : VecSet Nat) ⟨[2, 3, 4, 5]⟩ = 4 ∧
    (VecSet.bitandAssign (⟨[0, 1, 2, 3]⟩ : VecSet Nat) ⟨[2, 3, 4, 5]⟩).1.elems = [2, 3] := by decide +kernel

section growing
variable {T : Type _} [Ord T] [TransOrd T]

theorem any_contains {a : VecSet T} (ha : Ascending a.elems) (y : T) : (a.elems.any fun x => compare x y == .eq) = a.contains y := by
  rw [Bool.eq_iff_iff, VecSet.contains_iff ha, List.any_eq_true]
  simp [Has]

theorem algebra_fits (cap : Nat) {conv : T → Call T} (hconv : ∀ x, conv x = .ret x) (o : AlgebraOp) {a b : VecSet T} (ha : Built a) (hb : Built b) (hcap : a.len ≤ cap) :
    (a.len + (b.asSlice.filter fun y => !a.contains y).length ≤ cap → mergedCap cap (o.op T (SlotMS.mut (growTo cap) conv)) a.elems b.elems = cap) ∧
    mergedCap cap (o.op T (SlotMS.mut (growTo cap) conv)) a.elems b.elems ≤ max cap (4 * (a.len + (b.asSlice.filter fun y => !a.contains y).length)) := by
  have hc : ∀ x y, conv x = .ret y → y = x := by
    intro x y h
    rw [hconv] at h
    injection h with h
    exact h.symm
  have hs : SliceOk (o.op T (InPlaceMS.mut conv)) (fun _ => True) := by
    cases o
    · exact .ofImpl (setUnionOp_impl (InPlaceMS.advSpec conv))
    · exact .ofImpl (setIntersectionOp_impl (InPlaceMS.advSpec conv))
    · exact .ofImpl (setDiffOp_impl (InPlaceMS.advSpec conv))
    · exact .ofImpl (setXorOp_impl (InPlaceMS.advSpec conv))
  have hcmp : ∀ x y, (o.op T (InPlaceMS.mut conv)).cmp x y = compare x y := by intro x y; cases o <;> rfl
  have h := merged_fits (ka := fun x : T => x) (kb := fun x : T => x) (AlgebraOp.sim (growTo cap) hc o) (fun _ _ h => h.ref) hs hcmp ha.ascending hb.ascending (new_acc a.elems b.elems) hcap
    fun R => algebra_room cap R conv o
  have e : (b.elems.filter fun y => !(a.elems.any fun x => compare x y == .eq)) = b.asSlice.filter fun y => !a.contains y :=
    List.filter_congr fun y _ => by rw [any_contains ha.ascending]
  rw [e] at h
  exact h

/-- number of elements of a union -/
theorem union_len {a b : VecSet T} (ha : Built a) (hb : Built b) : (a.union b).1.len = a.len + (b.asSlice.filter fun y => !a.contains y).length := by
  have impl := setUnionOp_impl (InPlaceMS.advSpec (A := T) (B := T) cloneConverter)
  obtain ⟨evs, hl, -⟩ := mergeAll_eq_plan (ka := fun x : T => x) (kb := fun x : T => x) (.ofImpl impl) (fun _ _ => rfl)
    ({ tgt := [], src := a.elems, b := b.elems } : InPlaceMS T T) trivial ha.ascending hb.ascending
  have h1 := (union_length hl).1
  have h2 := sumB_fresh (ka := fun x : T => x) (kb := fun x : T => x) (fun _ _ => rfl) hl hb.ascending
  have h3 := InPlaceMS.merge_spec (ka := fun x : T => x) (kb := fun x : T => x) impl (fun _ => trivial) (fun _ _ => rfl) ha.ascending hb.ascending
  have h4 : a.bitorAssignRef b = ((a.union b).1, .cont) := by rw [VecSet.bitorAssignRef_eq ha.ascending hb.ascending, VecSet.union_eq ha.ascending hb.ascending]
  have h5 : (a.union b).1.elems = (InPlaceMS.merge a.elems b.elems (setUnionOp (InPlaceMS.mut cloneConverter))).1 := by
    have := congrArg (fun r => r.1.elems) h4
    exact this.symm
  show (a.union b).1.elems.length = _
  rw [h5, h3]
  have e : (b.elems.filter fun y => !(a.elems.any fun x => compare x y == .eq)) = b.asSlice.filter fun y => !a.contains y :=
    List.filter_congr fun y _ => by rw [any_contains ha.ascending]
  exact h1.trans (congrArg (a.len + ·) (h2.trans (congrArg List.length e)))

/-- **C92 (`|=`, `extend`).** On a left set of capacity `cap`, with the right side owned or borrowed: nothing is allocated exactly if the union fits. Otherwise the buffer ends at most four times as
large as the union. The same for `extend` (as to the set it extends; the items are collected first, see `C92_collect`). -/
theorem C92_in_place_union (cap : Nat) (conv : T → Call T) (hconv : conv = idConverter ∨ conv = cloneConverter) (a b : VecSet T) (ha : Built a) (hb : Built b) (hcap : a.len ≤ cap) :
    (VecSet.bitorAssignCap conv cap a b = cap ↔ (a.bitorAssign b).1.len ≤ cap) ∧ (a.bitorAssign b).1.len ≤ VecSet.bitorAssignCap conv cap a b ∧
    VecSet.bitorAssignCap conv cap a b ≤ max cap (4 * (a.bitorAssign b).1.len) := by
  have hc : ∀ x, conv x = .ret x := by rcases hconv with rfl | rfl <;> exact fun _ => rfl
  have hc' : ∀ x y, conv x = .ret y → y = x := by
    intro x y h
    rw [hc] at h
    injection h with h
    exact h.symm
  have hf := algebra_fits cap hc .union ha hb hcap
  rw [← union_len ha hb] at hf
  have hl := merged_len (AlgebraOp.sim (growTo cap) hc' .union) (fun _ _ h => h.ref) (new_acc a.elems b.elems) cap
  have e1 : a.bitorAssign b = ((a.union b).1, .cont) := by rw [VecSet.bitorAssign_eq ha.ascending hb.ascending, VecSet.union_eq ha.ascending hb.ascending]
  have e2 : (InPlaceMS.merge a.elems b.elems (AlgebraOp.union.op T (InPlaceMS.mut conv))).1 = (a.union b).1.elems := by
    rcases hconv with rfl | rfl
    · exact congrArg (fun r => r.1.elems) e1
    · have : a.bitorAssignRef b = ((a.union b).1, .cont) := by rw [VecSet.bitorAssignRef_eq ha.ascending hb.ascending, VecSet.union_eq ha.ascending hb.ascending]
      exact congrArg (fun r => r.1.elems) this
  rw [e2] at hl
  rw [e1]
  exact ⟨⟨fun h => h ▸ hl, hf.1⟩, hl, hf.2⟩

theorem C92_in_place_extend (cap : Nat) (a : VecSet T) (ha : Built a) (items : List T) (hcap : a.len ≤ cap) :
    (VecSet.extendCap cap a items = cap ↔ (a.extend items).1.len ≤ cap) ∧ (a.extend items).1.len ≤ VecSet.extendCap cap a items ∧
    VecSet.extendCap cap a items ≤ max cap (4 * (a.extend items).1.len) :=
  C92_in_place_union cap idConverter (.inl rfl) a (VecSet.fromIter items) ha (.fromIter items) hcap

/-- **C92 (`^=`).** Nothing is allocated if the *union* fits, and the buffer ends at most four times as large as that. -/
theorem C92_in_place_xor (cap : Nat) (conv : T → Call T) (hconv : conv = idConverter ∨ conv = cloneConverter) (a b : VecSet T) (ha : Built a) (hb : Built b) (hcap : a.len ≤ cap) :
    ((a.union b).1.len ≤ cap → VecSet.bitxorAssignCap conv cap a b = cap) ∧ (a.bitxorAssign b).1.len ≤ VecSet.bitxorAssignCap conv cap a b ∧
    VecSet.bitxorAssignCap conv cap a b ≤ max cap (4 * (a.union b).1.len) := by
  have hc : ∀ x, conv x = .ret x := by rcases hconv with rfl | rfl <;> exact fun _ => rfl
  have hc' : ∀ x y, conv x = .ret y → y = x := by
    intro x y h
    rw [hc] at h
    injection h with h
    exact h.symm
  have hf := algebra_fits cap hc .xor ha hb hcap
  rw [← union_len ha hb] at hf
  have hl := merged_len (AlgebraOp.sim (growTo cap) hc' .xor) (fun _ _ h => h.ref) (new_acc a.elems b.elems) cap
  have e1 : a.bitxorAssign b = ((a.symmetricDifference b).1, .cont) := by
    rw [VecSet.bitxorAssign_eq ha.ascending hb.ascending, VecSet.symmetricDifference_eq ha.ascending hb.ascending]
  have e2 : (InPlaceMS.merge a.elems b.elems (AlgebraOp.xor.op T (InPlaceMS.mut conv))).1 = (a.symmetricDifference b).1.elems := by
    rcases hconv with rfl | rfl
    · exact congrArg (fun r => r.1.elems) e1
    · have : a.bitxorAssignRef b = ((a.symmetricDifference b).1, .cont) := by
        rw [VecSet.bitxorAssignRef_eq ha.ascending hb.ascending, VecSet.symmetricDifference_eq ha.ascending hb.ascending]
      exact congrArg (fun r => r.1.elems) this
  rw [e2] at hl
  rw [e1]
  exact ⟨hf.1, hl, hf.2⟩

end growing

/-- room for all of the union, with gaps that open and close on the way: no allocation -/
example : VecSet.bitorAssignCap cloneConverter 6 (⟨[2, 4, 6]⟩ : VecSet Nat) ⟨[1, 2, 3, 5]⟩ = 6 ∧ (VecSet.bitorAssign (⟨[2, 4, 6]⟩ : VecSet Nat) ⟨[1, 2, 3, 5]⟩).1.len = 6 := by decide +kernel
/-- one element too many: the next power of two -/
example : VecSet.bitorAssignCap cloneConverter 5 (⟨[2, 4, 6]⟩ : VecSet Nat) ⟨[1, 2, 3, 5]⟩ = 8 := by decide +kernel

/-- **C92 (finding).** `^=` can allocate although the result fits, because elements of the left side that are going to disappear are still in the way: `{5, 6, 7, 8} ^= {1, 5, 6, 7, 8}` leaves the
single element 1 in a set with room for four, and has moved it to the heap. -/
theorem C92_xor_spills : ∃ (cap : Nat) (a b : VecSet Nat), Built a ∧ Built b ∧ a.len ≤ cap ∧ (a.bitxorAssign b).1.len ≤ cap ∧ cap < VecSet.bitxorAssignCap idConverter cap a b :=
  ⟨4, ⟨[5, 6, 7, 8]⟩, ⟨[1, 5, 6, 7, 8]⟩, .fromBTreeSet _ (by unfold Ascending; decide), .fromBTreeSet _ (by unfold Ascending; decide), by decide +kernel, by decide +kernel, by decide +kernel⟩

section joinsWith
variable {K V W : Type} [Ord K] [TransOrd K]

theorem any_get {a : VecMap K V} (ha : AscendingBy Prod.fst a.entries) (k : K) : (a.entries.any fun x => compare x.1 k == .eq) = (a.get k).isSome := by
  have h := VecMap.get_none_iff ha k
  cases hg : a.get k with
  | none =>
    have := h.1 hg
    rw [Option.isSome_none, List.any_eq_false]
    intro x hx e
    exact this ⟨x.2, x.1, hx, by simpa using e⟩
  | some v =>
    obtain ⟨k', hk, e⟩ := (VecMap.get_iff ha k v).1 hg
    rw [Option.isSome_some, List.any_eq_true]
    exact ⟨_, hk, by simp [e]⟩

theorem join_fits (cap : Nat) (o : JoinOp K V W) {a : VecMap K V} {b : VecMap K W} (ha : BuiltMap a) (hb : BuiltMap b) (hcap : a.len ≤ cap) :
    (a.len + (b.asSlice.filter fun e => (a.get e.1).isNone).length ≤ cap → mergedCap cap (o.slot (growTo cap)) a.entries b.entries = cap) ∧
    mergedCap cap (o.slot (growTo cap)) a.entries b.entries ≤ max cap (4 * (a.len + (b.asSlice.filter fun e => (a.get e.1).isNone).length)) ∧
    (InPlaceMS.merge a.entries b.entries o.list).1.length ≤ mergedCap cap (o.slot (growTo cap)) a.entries b.entries := by
  have hs : SliceOk o.list (fun _ => True) := by
    cases o
    · exact .ofImpl (outerJoinWithOp_impl _)
    · exact .ofImpl (leftJoinWithOp_impl _)
    · exact .ofImpl (rightJoinWithOp_impl _)
    · exact .ofImpl (innerJoinWithOp_impl _)
  have hcmp : ∀ x y, o.list.cmp x y = compare x.1 y.1 := by intro x y; cases o <;> rfl
  have h := merged_fits (ka := (Prod.fst : K × V → K)) (kb := (Prod.fst : K × W → K)) (o.sim (growTo cap)) (fun _ _ h => h) hs hcmp ha.ascending hb.ascending
    (new_refines a.entries b.entries) hcap fun R => join_room cap R o
  have e : (b.entries.filter fun y => !(a.entries.any fun x => compare x.1 y.1 == .eq)) = b.asSlice.filter fun y => (a.get y.1).isNone :=
    List.filter_congr fun y _ => by rw [any_get ha.ascending]; cases a.get y.1 <;> rfl
  rw [e] at h
  exact ⟨h.1, h.2, merged_len (o.sim (growTo cap)) (fun _ _ h => h) (new_refines a.entries b.entries) cap⟩

/-- **C92 (`outer_join_with`, `right_join_with`).** On a left map of capacity `cap` and for every closure: nothing is allocated if there is room for the left map and the keys that only the right map has,
whether or not the closure keeps them, and the buffer ends at most four times as large as that. The result always fits. -/
theorem C92_in_place_joins (cap : Nat) (a : VecMap K V) (b : VecMap K W) (ha : BuiltMap a) (hb : BuiltMap b) (hcap : a.len ≤ cap) :
    (∀ f, (a.len + (b.asSlice.filter fun e => (a.get e.1).isNone).length ≤ cap → VecMap.outerJoinWithCap cap a b f = cap) ∧
      VecMap.outerJoinWithCap cap a b f ≤ max cap (4 * (a.len + (b.asSlice.filter fun e => (a.get e.1).isNone).length)) ∧
      (a.outerJoinWith b f).1.len ≤ VecMap.outerJoinWithCap cap a b f) ∧
    (∀ f, (a.len + (b.asSlice.filter fun e => (a.get e.1).isNone).length ≤ cap → VecMap.rightJoinWithCap cap a b f = cap) ∧
      VecMap.rightJoinWithCap cap a b f ≤ max cap (4 * (a.len + (b.asSlice.filter fun e => (a.get e.1).isNone).length)) ∧
      (a.rightJoinWith b f).1.len ≤ VecMap.rightJoinWithCap cap a b f) :=
  ⟨fun f => join_fits cap (.outer f) ha hb hcap, fun f => join_fits cap (.right f) ha hb hcap⟩

/-- **C92 (`combine_with`, `merge_with`, `extend`).** Nothing is allocated if there is room for the left map and the new keys; the buffer ends at most four times as large as needed for them, and the
result fits. -/
theorem C92_in_place_combine (cap : Nat) (a b : VecMap K V) (ha : BuiltMap a) (hb : BuiltMap b) (hcap : a.len ≤ cap) :
    (∀ f, (a.len + (b.asSlice.filter fun e => (a.get e.1).isNone).length ≤ cap → VecMap.combineWithCap cap a b f = cap) ∧
      VecMap.combineWithCap cap a b f ≤ max cap (4 * (a.len + (b.asSlice.filter fun e => (a.get e.1).isNone).length)) ∧
      (a.combineWith b f).1.len ≤ VecMap.combineWithCap cap a b f) ∧
    (a.len + (b.asSlice.filter fun e => (a.get e.1).isNone).length ≤ cap → VecMap.mergeWithCap cap a b = cap) ∧
    VecMap.mergeWithCap cap a b ≤ max cap (4 * (a.len + (b.asSlice.filter fun e => (a.get e.1).isNone).length)) ∧
    (a.mergeWith b).1.len ≤ VecMap.mergeWithCap cap a b :=
  ⟨fun _ => (C92_in_place_joins cap a b ha hb hcap).1 _, (C92_in_place_joins cap a b ha hb hcap).1 _⟩

theorem C92_in_place_map_extend (cap : Nat) (a : VecMap K V) (ha : BuiltMap a) (items : List (K × V)) (hcap : a.len ≤ cap) :
    (a.len + ((VecMap.fromIter items).asSlice.filter fun e => (a.get e.1).isNone).length ≤ cap → VecMap.extendCap cap a items = cap) ∧
    VecMap.extendCap cap a items ≤ max cap (4 * (a.len + ((VecMap.fromIter items).asSlice.filter fun e => (a.get e.1).isNone).length)) ∧
    (a.extend items).1.len ≤ VecMap.extendCap cap a items :=
  (C92_in_place_combine cap a _ ha (.fromIter items) hcap).2

end joinsWith

example : VecMap.mergeWithCap 4 (⟨[(2, 20), (4, 40)]⟩ : VecMap Nat Nat) ⟨[(1, 1), (2, 2), (3, 3)]⟩ = 4 ∧
    (VecMap.mergeWith (⟨[(2, 20), (4, 40)]⟩ : VecMap Nat Nat) ⟨[(1, 1), (2, 2), (3, 3)]⟩).1.entries = [(1, 1), (2, 2), (3, 3), (4, 40)] := by decide +kernel
example : BuiltMap (⟨[(2, 20), (4, 40)]⟩ : VecMap Nat Nat) := .fromBTreeMap _ (by unfold AscendingBy; decide)
example : VecMap.mergeWithCap 3 (⟨[(2, 20), (4, 40)]⟩ : VecMap Nat Nat) ⟨[(1, 1), (2, 2), (3, 3)]⟩ = 4 := by decide +kernel
end Verif
