import Verif.Lemmas.Account
/-!
# C57: in-place merging moves every element exactly once

The merges run over a buffer whose slots own a value or not (Verif/Model/InPlaceBuilder.lean); the ghost flag `fault` is raised by
any misuse of an unsafe primitive (move/drop/read of an empty slot, overwriting an owned value, out of bounds access) and the ghost lists
`drops`, `bdrops` record the destructor calls. Nothing is assumed about the element type's `Ord` (it may be inconsistent), about
the inputs (they may be unsorted) or about the driver (`evs` is *any* sequence of callback invocations, so every interruption
point is a prefix).
-/
namespace Verif

/-- the four set operations, over any merge state -/
inductive AlgebraOp where
  | union | intersection | difference | xor
deriving DecidableEq, Repr

/-- the crate's implementation of the operation -/
def AlgebraOp.op {σ : Type _} (T : Type _) [Ord T] (m : MergeStateMut σ) : AlgebraOp → MergeOp σ T T
  | .union => setUnionOp m
  | .intersection => setIntersectionOp m
  | .difference => setDiffOp m
  | .xor => setXorOp m

theorem AlgebraOp.sim {T : Type _} [Ord T] {a0 b0 : List T} (pol : Nat → Nat) {conv : T → Call T}
    (hconv : ∀ x y, conv x = .ret y → y = x) (o : AlgebraOp) :
    SimOp (Acc a0 b0) (o.op T (SlotMS.mut pol conv)) (o.op T (InPlaceMS.mut conv)) := by
  cases o
  · exact union_sim pol hconv
  · exact intersection_sim pol hconv
  · exact diff_sim pol hconv
  · exact xor_sim pol hconv

section sets
variable {T : Type _} [Ord T]

/-- **C57 (sets, any callbacks, any interruption).** However the driver calls the callbacks and wherever it stops (or the
converter panics), dropping the merge state leaves a buffer in which every slot owns a value, no unsafe primitive was misused, and what
is in the buffer together with what was dropped is exactly the elements of the two inputs, each as often as it occurred. -/
theorem C57_set_elements (pol : Nat → Nat) (conv : T → Call T) (hconv : ∀ x y, conv x = .ret y → y = x) (o : AlgebraOp)
    (a b : List T) (evs : List Ev) :
    (runEvs (o.op T (SlotMS.mut pol conv)) (SlotMS.new a b) evs).1.finish.bld.fault = false ∧
    (∀ e ∈ (runEvs (o.op T (SlotMS.mut pol conv)) (SlotMS.new a b) evs).1.finish.bld.slots, e ≠ none) ∧
    ((runEvs (o.op T (SlotMS.mut pol conv)) (SlotMS.new a b) evs).1.finish.result ++
      ((runEvs (o.op T (SlotMS.mut pol conv)) (SlotMS.new a b) evs).1.finish.bld.drops ++
       (runEvs (o.op T (SlotMS.mut pol conv)) (SlotMS.new a b) evs).1.finish.bdrops)).Perm (a ++ b) := by
  have h := (run_sim (AlgebraOp.sim (a0 := a) (b0 := b) pol hconv o) evs _ _ (new_acc a b)).1
  have := acc_perm h
  refine ⟨this.1, ?_, ?_⟩
  · intro e he
    rw [this.2.1] at he
    obtain ⟨x, -, rfl⟩ := List.mem_map.1 he
    simp
  · have e : SlotMS.result (SlotMS.finish (runEvs (o.op T (SlotMS.mut pol conv)) (SlotMS.new a b) evs).1) =
        (runEvs (o.op T (InPlaceMS.mut conv)) { tgt := [], src := a, b := b } evs).1.tgt := by
      unfold SlotMS.result; rw [this.2.1]; simp
    rw [e]
    exact this.2.2

/-- **C57 (sets, the assign operators).** The slot-level run of the actual driver behaves like the list-level model used for all other
properties, without a fault, and accounts for every element. `idConverter`, `cloneConverter` and the panicking
`noConverter` all satisfy the hypothesis. -/
theorem C57_set_merge (pol : Nat → Nat) (conv : T → Call T) (hconv : ∀ x y, conv x = .ret y → y = x) (o : AlgebraOp) (a b : List T) :
    ((mergeAll (o.op T (SlotMS.mut pol conv)) (SlotMS.new a b)).1.finish.result,
      (mergeAll (o.op T (SlotMS.mut pol conv)) (SlotMS.new a b)).2) = InPlaceMS.merge a b (o.op T (InPlaceMS.mut conv)) ∧
    (mergeAll (o.op T (SlotMS.mut pol conv)) (SlotMS.new a b)).1.finish.bld.fault = false ∧
    ((InPlaceMS.merge a b (o.op T (InPlaceMS.mut conv))).1 ++
      ((mergeAll (o.op T (SlotMS.mut pol conv)) (SlotMS.new a b)).1.finish.bld.drops ++
       (mergeAll (o.op T (SlotMS.mut pol conv)) (SlotMS.new a b)).1.finish.bdrops)).Perm (a ++ b) := by
  have hs : (MergeState.aSlice (SlotMS.new a b)).length = a.length :=
    congrArg List.length (Builder.sourceSlice_rep (Builder.new_rep a))
  have h := binaryMerge_sim (AlgebraOp.sim (a0 := a) (b0 := b) pol hconv o) (fun _ _ h => h.ref) a.length b.length _ _ (new_acc a b)
  have e1 : mergeAll (o.op T (SlotMS.mut pol conv)) (SlotMS.new a b) =
      binaryMerge (o.op T (SlotMS.mut pol conv)) (SlotMS.new a b) a.length b.length := by
    unfold mergeAll; rw [hs]; rfl
  rw [e1]
  have := acc_perm h.1
  refine ⟨?_, this.1, this.2.2⟩
  unfold SlotMS.result InPlaceMS.merge
  rw [this.2.1, h.2]
  simp [mergeAll, MergeState.aSlice, MergeState.bSlice]

/-- the converters the crate uses -/
theorem C57_converters : (∀ x y : T, idConverter x = .ret y → y = x) ∧ (∀ x y : T, cloneConverter x = .ret y → y = x) ∧
    (∀ x y : T, noConverter x = .ret y → y = x) := by
  refine ⟨?_, ?_, ?_⟩ <;> intro x y h <;> simp [idConverter, cloneConverter, noConverter] at h
  · exact h.symm
  · exact h.symm

end sets

section maps
variable {K V W : Type _} [Ord K]

/-- the four in-place joins of `VecMap`, list level and slot level -/
inductive JoinOp (K V W : Type _) where
  | outer (f : OuterJoinArg K V W → Call (Option V))
  | left (f : K → V → Option W → Call (Option V))
  | right (f : K → Option V → W → Call (Option V))
  | inner (f : K → V → W → Call (Option V))

/-- over lists -/
def JoinOp.list : JoinOp K V W → MergeOp (InPlaceMS (K × V) (K × W)) (K × V) (K × W)
  | .outer f => outerJoinWithOp f
  | .left f => leftJoinWithOp f
  | .right f => rightJoinWithOp f
  | .inner f => innerJoinWithOp f
/-- over slots -/
def JoinOp.slot (pol : Nat → Nat) : JoinOp K V W → MergeOp (SlotMS (K × V) (K × W)) (K × V) (K × W)
  | .outer f => slotOuterJoinOp pol f
  | .left f => slotLeftJoinOp pol f
  | .right f => slotRightJoinOp pol f
  | .inner f => slotInnerJoinOp pol f

theorem JoinOp.sim (pol : Nat → Nat) (o : JoinOp K V W) : SimOp Refines (o.slot pol) o.list := by
  cases o
  · exact outer_sim pol _
  · exact left_sim pol _
  · exact right_sim pol _
  · exact inner_sim pol _

/-- **C57 (maps, any callbacks, any interruption).** In the in-place joins, whatever the closures do (also panic) and wherever the
driver stops, no unsafe primitive is misused, every slot left in the buffer owns a value, and the buffer holds what the list-level
model says. -/
theorem C57_map_slots (pol : Nat → Nat) (o : JoinOp K V W) (a : List (K × V)) (b : List (K × W)) (evs : List Ev) :
    (runEvs (o.slot pol) (SlotMS.new a b) evs).1.finish.bld.fault = false ∧
    (runEvs (o.slot pol) (SlotMS.new a b) evs).1.finish.bld.slots =
      (runEvs o.list { tgt := [], src := a, b := b } evs).1.tgt.map some ∧
    (runEvs (o.slot pol) (SlotMS.new a b) evs).2 = (runEvs o.list { tgt := [], src := a, b := b } evs).2 := by
  have h := run_sim (o.sim pol) evs _ _ (new_refines a b)
  exact ⟨h.1.finish.1, h.1.finish.2, h.2⟩

/-- **C57 (maps, the `_with` methods).** The same for the actual driver: the vector left behind is that of the list-level model. -/
theorem C57_map_merge (pol : Nat → Nat) (o : JoinOp K V W) (a : List (K × V)) (b : List (K × W)) :
    (mergeAll (o.slot pol) (SlotMS.new a b)).1.finish.bld.fault = false ∧
    ((mergeAll (o.slot pol) (SlotMS.new a b)).1.finish.result, (mergeAll (o.slot pol) (SlotMS.new a b)).2) =
      InPlaceMS.merge a b o.list := by
  have hs : (MergeState.aSlice (SlotMS.new a b)).length = a.length :=
    congrArg List.length (Builder.sourceSlice_rep (Builder.new_rep a))
  have h := binaryMerge_sim (o.sim pol) (fun _ _ h => h) a.length b.length _ _ (new_refines a b)
  have e1 : mergeAll (o.slot pol) (SlotMS.new a b) = binaryMerge (o.slot pol) (SlotMS.new a b) a.length b.length := by
    unfold mergeAll; rw [hs]; rfl
  rw [e1]
  refine ⟨h.1.finish.1, ?_⟩
  unfold SlotMS.result InPlaceMS.merge
  rw [h.1.finish.2, h.2]
  simp [mergeAll, MergeState.aSlice, MergeState.bSlice]

theorem JoinOp.keys (a : List (K × V)) (b : List (K × W)) (o : JoinOp K V W) : Preserves (KeyAcc a b) o.list := by
  cases o
  · exact outer_keys a b _
  · exact left_keys a b _
  · exact right_keys a b _
  · exact inner_keys a b _

/-- **C57 (maps, keys).** Each key of the resulting map is the key of exactly one entry of the two inputs: together with the dropped
ones, the keys are exactly those of the inputs with multiplicity. -/
theorem C57_map_keys (o : JoinOp K V W) (a : List (K × V)) (b : List (K × W)) :
    (∃ gone, ((InPlaceMS.merge a b o.list).1.map (·.1) ++ gone).Perm (a.map (·.1) ++ b.map (·.1))) ∧
    ∀ evs, ∃ gone, ((runEvs o.list { tgt := [], src := a, b := b } evs).1.tgt.map (·.1) ++ gone).Perm
      (a.map (·.1) ++ b.map (·.1)) :=
  ⟨(binaryMerge_pres (JoinOp.keys a b o) _ _ _ (new_keys a b)).perm,
   fun evs => (run_pres (JoinOp.keys a b o) evs _ (new_keys a b)).perm⟩

end maps

/-! Non-trivial instances: the inputs overlap, the buffer has to grow, and an interruption leaves a gap. -/

example : let s := (runEvs (AlgebraOp.union.op Nat (SlotMS.mut (fun _ => 1) idConverter)) (SlotMS.new [1, 3, 5] [2, 3, 4])
      [.a 1, .b 1, .c, .b 1, .a 1]).1.finish
    s.result = [1, 2, 3, 4, 5] ∧ s.bld.drops = [] ∧ s.bdrops = [3] := by decide
example : let s := (runEvs (AlgebraOp.intersection.op Nat (SlotMS.mut (fun _ => 0) idConverter)) (SlotMS.new [1, 3, 5] [2, 3, 4])
      [.a 1, .b 1, .c]).1
    s.bld.slots = [some 3, none, some 5] ∧ s.finish.bld.slots = [some 3] ∧ s.finish.bld.drops = [1, 5] ∧ s.finish.bdrops = [2, 3, 4] := by
  decide
example : let s := (runEvs ((JoinOp.outer (K := Nat) (V := Nat) (W := Nat) (fun
        | .left _ v => .ret (some v)
        | .right _ w => (if w = 0 then .panic else .ret (some w))
        | .both _ _ _ => .ret none)).slot (fun _ => 0))
      (SlotMS.new [(1, 10), (3, 30)] [(2, 20), (3, 31), (4, 0)]) [.a 1, .b 1, .c, .b 1])
    s.1.finish.result = [(1, 10), (2, 20)] ∧ s.2 = .panic ∧ s.1.finish.bld.fault = false := by decide

end Verif
