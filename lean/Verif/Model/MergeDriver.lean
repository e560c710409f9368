import Verif.Model.Std
/-!
# Model of the merge driver (`binary-merge` crate, `MergeOperation::merge`)

The crate's set/map/tree merges are all written as `MergeOperation`s: four callbacks over a merge state that exposes the
two remaining inputs as slices.  The driver below is the recursive binary-search merge of the dependency `binary-merge`;
it is external to `/repo` and part of the trusted base, but the results are also proved for *every* legal
callback schedule (`Verif/Props/Schedule.lean`).
-/
namespace Verif

/-- Rust's `x && y` for callbacks on a mutable state; the state at a panic is kept, because unwinding runs
destructors that observe it. -/
def andThen {σ : Type _} (r : σ × Flow) (k : σ → σ × Flow) : σ × Flow :=
  match r.2 with
  | .cont => k r.1
  | _ => r

/-- trait `binary_merge::MergeState` (the two remaining inputs) -/
class MergeState (σ : Type _) (A B : outParam (Type _)) where
  aSlice : σ → List A
  bSlice : σ → List B

/-- trait `MergeStateMut`, /repo/src/merge_state.rs:12-17. (A record rather than a class, because one Rust state type has
several instances that differ in the converter.) -/
structure MergeStateMut (σ : Type _) where
  advanceA : σ → Nat → Bool → σ × Flow
  advanceB : σ → Nat → Bool → σ × Flow

/-- trait `binary_merge::MergeOperation` as implemented throughout /repo/src -/
structure MergeOp (σ A B : Type _) where
  cmp : A → B → Ordering
  fromA : σ → Nat → σ × Flow
  fromB : σ → Nat → σ × Flow
  collision : σ → σ × Flow

/-- `binary_merge::MergeOperation::binary_merge(m, an, bn)` (external crate). Indexing `a_slice()[am]` or slicing
`b_slice()[..bn]` out of bounds panics. -/
def binaryMerge {σ A B : Type _} [MergeState σ A B] (op : MergeOp σ A B) (m : σ) (an bn : Nat) :
    σ × Flow :=
  if _h : an = 0 then
    if bn = 0 then (m, .cont) else op.fromB m bn
  else if bn = 0 then op.fromA m an
  else
    let am := an / 2
    match (MergeState.aSlice m)[am]? with
    | none => (m, .panic)
    | some a =>
      if (MergeState.bSlice m).length < bn then (m, .panic)
      else
        match binarySearchBy (fun b => (op.cmp a b).swap) ((MergeState.bSlice m).take bn) with
        | .found bm =>
          andThen (binaryMerge op m am bm) fun m =>
          andThen (op.collision m) fun m =>
          binaryMerge op m (an - am - 1) (bn - bm - 1)
        | .notFound bi =>
          andThen (binaryMerge op m am bi) fun m =>
          andThen (op.fromA m 1) fun m =>
          binaryMerge op m (an - am - 1) (bn - bi)
termination_by an
decreasing_by all_goals omega

/-- `MergeOperation::merge(m)`: merge all remaining elements. -/
def mergeAll {σ A B : Type _} [MergeState σ A B] (op : MergeOp σ A B) (m : σ) : σ × Flow :=
  binaryMerge op m (MergeState.aSlice m).length (MergeState.bSlice m).length

end Verif
