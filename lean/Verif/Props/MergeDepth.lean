import Verif.Model.MergeDepth
import Verif.Model.VecSet
import Verif.Lemmas.CostMerge
/-!
# Merging large collections does not need a deep stack: C98

`binaryMergeTo` / `mergeAllTo` (`Model/MergeDepth.lean`) is the merge driver with a limit for the nesting of its calls; `none` means that the limit was exceeded.
-/
namespace Verif

theorem binaryMergeTo_enough {σ A B : Type} [MergeState σ A B] (op : MergeOp σ A B) : ∀ (depth : Nat) (s : σ) (an bn : Nat), pivots an + 1 ≤ depth →
    binaryMergeTo op depth s an bn = some (binaryMerge op s an bn) := by
  intro depth
  induction depth with
  | zero => intro s an bn h; omega
  | succ depth ih =>
    intro s an bn h
    rw [binaryMergeTo, binaryMerge]
    by_cases h0 : an = 0
    · simp only [h0, ↓reduceIte, ↓reduceDIte]
      split <;> rfl
    · simp only [h0, ↓reduceIte, ↓reduceDIte]
      by_cases hb0 : bn = 0
      · simp only [hb0, ↓reduceIte]
      · simp only [if_neg hb0]
        have p1 := pivots_half h0 (Nat.le_refl (an / 2))
        have p2 := pivots_half (m := an - an / 2 - 1) h0 (by omega)
        cases (MergeState.aSlice s)[an / 2]? with
        | none => rfl
        | some a =>
          simp only
          split
          · rfl
          · cases binarySearchBy (fun b => (op.cmp a b).swap) ((MergeState.bSlice s).take bn) with
            | found bm =>
              simp only
              rw [ih s (an / 2) bm (by omega)]
              obtain ⟨m, f⟩ := binaryMerge op s (an / 2) bm
              cases f with
              | cont =>
                simp only [andThen]
                obtain ⟨m', f'⟩ := op.collision m
                cases f' with
                | cont => exact ih _ _ _ (by omega)
                | _ => rfl
              | _ => rfl
            | notFound bi =>
              simp only
              rw [ih s (an / 2) bi (by omega)]
              obtain ⟨m, f⟩ := binaryMerge op s (an / 2) bi
              cases f with
              | cont =>
                simp only [andThen]
                obtain ⟨m', f'⟩ := op.fromA m 1
                cases f' with
                | cont => exact ih _ _ _ (by omega)
                | _ => rfl
              | _ => rfl

/-- **C98.** Every merge of the crate, whatever the operation, the state it works on and the comparison (which need not obey any law) do: calls of `binary_merge` are nested at most `log2 n + 2` deep,
where `n` is the length of the first input; with that limit, or a larger one, the merge does exactly what it does without. -/
theorem C98_merge_depth {σ A B : Type} [MergeState σ A B] (op : MergeOp σ A B) (s : σ) (n depth : Nat) (hn : (MergeState.aSlice s : List A).length = n) (hd : Nat.log2 n + 2 ≤ depth) :
    mergeAllTo op depth s = some (mergeAll op s) := by
  refine binaryMergeTo_enough op depth s _ _ ?_
  rw [hn]
  unfold pivots
  split <;> omega

/-- If the second input is empty (or the first), one call is enough. -/
theorem C98_merge_empty {σ A B : Type} [MergeState σ A B] (op : MergeOp σ A B) (s : σ) (h : (MergeState.aSlice s : List A) = [] ∨ (MergeState.bSlice s : List B) = []) :
    mergeAllTo op 1 s = some (mergeAll op s) := by
  unfold mergeAllTo mergeAll
  rw [binaryMergeTo, binaryMerge]
  rcases h with h | h <;> rw [h] <;> simp only [List.length_nil, ↓reduceIte, ↓reduceDIte]
  · split <;> rfl
  · split <;> rfl

/-- four elements may need four nested calls, five hundred and eleven need at most ten -/
example : (mergeAllTo (setUnionOp (SliceMS.mut cloneConverter cloneConverter : MergeStateMut (SliceMS Nat Nat Nat))) 3 { a := [1, 2, 3, 4], b := [0], r := [] }).isNone = true ∧
    (mergeAllTo (setUnionOp (SliceMS.mut cloneConverter cloneConverter : MergeStateMut (SliceMS Nat Nat Nat))) 4 { a := [1, 2, 3, 4], b := [0], r := [] }).map (·.1.r) = some [0, 1, 2, 3, 4] := by
  decide +kernel
example (a b : List Nat) (h : a.length = 511) :
    mergeAllTo (setUnionOp (SliceMS.mut cloneConverter cloneConverter : MergeStateMut (SliceMS Nat Nat Nat))) 10 { a := a, b := b, r := [] } =
      some (mergeAll (setUnionOp (SliceMS.mut cloneConverter cloneConverter)) { a := a, b := b, r := [] }) :=
  C98_merge_depth _ _ 511 10 h (by decide)

end Verif
