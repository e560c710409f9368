import Verif.Model.MergeDriver
/-!
# The merge driver on a stack of bounded size

`binary_merge` calls itself for the two parts around the pivot. Here it may be nested at most `depth` times; `none` stands for a stack overflow.
-/
namespace Verif

/-- `binary_merge` (external crate; as `binaryMerge` in `Model/MergeDriver.lean`, called in `merge`, src/merge_state.rs), nested at most `depth` times. Simplification: a call takes one unit of the
stack whatever its arguments are. -/
def binaryMergeTo {σ A B : Type _} [MergeState σ A B] (op : MergeOp σ A B) : Nat → σ → Nat → Nat → Option (σ × Flow)
  | 0, _, _, _ => none
  | depth + 1, m, an, bn =>
    if an = 0 then
      if bn = 0 then some (m, .cont) else some (op.fromB m bn)
    else if bn = 0 then some (op.fromA m an)
    else
      match (MergeState.aSlice m)[an / 2]? with
      | none => some (m, .panic)
      | some a =>
        if (MergeState.bSlice m).length < bn then some (m, .panic)
        else
          match binarySearchBy (fun b => (op.cmp a b).swap) ((MergeState.bSlice m).take bn) with
          | .found bm =>
            match binaryMergeTo op depth m (an / 2) bm with
            | none => none
            | some (m, .cont) =>
              match op.collision m with
              | (m, .cont) => binaryMergeTo op depth m (an - an / 2 - 1) (bn - bm - 1)
              | r => some r
            | some r => some r
          | .notFound bi =>
            match binaryMergeTo op depth m (an / 2) bi with
            | none => none
            | some (m, .cont) =>
              match op.fromA m 1 with
              | (m, .cont) => binaryMergeTo op depth m (an - an / 2 - 1) (bn - bi)
              | r => some r
            | some r => some r

/-- `MergeOperation::merge` (as `mergeAll`) -/
def mergeAllTo {σ A B : Type _} [MergeState σ A B] (op : MergeOp σ A B) (depth : Nat) (m : σ) : Option (σ × Flow) :=
  binaryMergeTo op depth m (MergeState.aSlice m).length (MergeState.bSlice m).length

end Verif
