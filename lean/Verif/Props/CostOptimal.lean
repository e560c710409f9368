import Verif.Lemmas.CostOptimal
import Verif.Lemmas.CostLower
import Verif.Props.Cost
/-!
# C62: the comparison bound that is symmetric in the two inputs

`C62_merge_comparisons` grows with the first input even when the second has one element only. In fact the number of comparisons depends on the smaller input, and on how much
larger the other one is. No program that merges by comparing elements
(`Spec/Merging.lean`) can do with less than a constant fraction of that.
-/
namespace Verif
open Std

/-- **C62.** Every merge of the crate, whichever of the two inputs is the smaller one: with `lo` the length of the shorter and `hi` the length of the longer input, at most
`lo · (2 (log2 hi - log2 lo) + 10)` comparisons. -/
theorem C62_optimal {σ A B : Type} [MergeState σ A B] (op : MergeOp σ A B) (s : σ) (n m : Nat) (hn : (MergeState.aSlice s : List A).length = n)
    (hm : (MergeState.bSlice s : List B).length = m) :
    (mergeAllM (tick2 op.cmp) op s).result = mergeAll op s ∧
    (mergeAllM (tick2 op.cmp) op s).work.cmps ≤ min n m * (2 * (Nat.log2 (max n m) - Nat.log2 (min n m)) + 10) := by
  subst hn hm
  obtain ⟨k', r', h1, h2⟩ := binaryMerge_runs op (MergeState.aSlice s : List A).length (MergeState.bSlice s : List B).length s
  obtain ⟨k, r, c⟩ := binaryMerge_cheap op (MergeState.aSlice s : List A).length (MergeState.bSlice s : List B).length s
  have r' : Runs (mergeAllM (tick2 op.cmp) op s) (mergeAll op s) k' [] := r'
  have r : Runs (mergeAllM (tick2 op.cmp) op s) (mergeAll op s) k [] := r
  have e : k = k' := by
    have e1 := r.work
    have e2 := r'.work
    rw [e1] at e2
    exact congrArg Work.cmps e2
  refine ⟨r.result, ?_⟩
  rw [r.work]
  show k ≤ _
  by_cases h0 : (MergeState.aSlice s : List A).length = 0
  · rw [c.none h0]; exact Nat.zero_le _
  by_cases hb0 : (MergeState.bSlice s : List B).length = 0
  · rw [e, h2 hb0]; exact Nat.zero_le _
  by_cases hle : (MergeState.aSlice s : List A).length ≤ (MergeState.bSlice s : List B).length
  · rw [Nat.min_eq_left hle, Nat.max_eq_right hle]
    exact c.many h0 hle
  · have hle := Nat.le_of_lt (Nat.lt_of_not_le hle)
    rw [Nat.min_eq_right hle, Nat.max_eq_left hle]
    exact Nat.le_trans (c.few h0 hb0 hle) (Nat.mul_le_mul_left _ (by omega))

/-- Three elements and a thousand: at most 78 comparisons, on whichever side the three are. -/
example (big : List Nat) (h : big.length = 1000) :
    (mergeAllM (tick2 (compare : Nat → Nat → Ordering)) (setUnionOp (SliceMS.mut cloneConverter cloneConverter)) { a := big, b := [5, 50, 500], r := [] }).work.cmps ≤ 78 ∧
    (mergeAllM (tick2 (compare : Nat → Nat → Ordering)) (setUnionOp (SliceMS.mut cloneConverter cloneConverter)) { a := [5, 50, 500], b := big, r := [] }).work.cmps ≤ 78 := by
  have e : 3 * (2 * (Nat.log2 1000 - Nat.log2 3) + 10) = 78 := by decide
  have h1 := (C62_optimal (setUnionOp (SliceMS.mut cloneConverter cloneConverter : MergeStateMut (SliceMS Nat Nat Nat))) { a := big, b := [5, 50, 500], r := [] } 1000 3 h rfl).2
  have h2 := (C62_optimal (setUnionOp (SliceMS.mut cloneConverter cloneConverter : MergeStateMut (SliceMS Nat Nat Nat))) { a := [5, 50, 500], b := big, r := [] } 3 1000 rfl h).2
  exact ⟨Nat.le_trans h1 (Nat.le_of_eq e), Nat.le_trans h2 (Nat.le_of_eq e)⟩

theorem factor {lo hi k : Nat} (h0 : lo ≠ 0) (hle : lo ≤ hi) (h : (hi / lo + 1) ^ lo ≤ 2 ^ k) : lo * (2 * (Nat.log2 hi - Nat.log2 lo) + 10) ≤ 14 * k := by
  have hq : 1 ≤ hi / lo := (Nat.le_div_iff_mul_le (Nat.pos_of_ne_zero h0)).2 (by omega)
  have hL : 1 ≤ Nat.log2 (hi / lo + 1) := (Nat.le_log2 (by omega)).2 (by omega)
  have hk : Nat.log2 (hi / lo + 1) * lo ≤ k := by
    have h1 := Nat.pow_le_pow_left (Nat.log2_self_le (show hi / lo + 1 ≠ 0 by omega)) lo
    rw [← Nat.pow_mul] at h1
    exact (Nat.pow_le_pow_iff_right (by decide)).1 (Nat.le_trans h1 h)
  have hd : Nat.log2 hi < Nat.log2 (hi / lo + 1) + 1 + (Nat.log2 lo + 1) := by
    refine (Nat.pow_lt_pow_iff_right (a := 2) (by decide)).1 (Nat.lt_of_le_of_lt (Nat.log2_self_le (by omega)) ?_)
    rw [Nat.pow_add]
    have h1 : hi / lo + 1 < 2 ^ (Nat.log2 (hi / lo + 1) + 1) := Nat.lt_log2_self
    have h2 : lo < 2 ^ (Nat.log2 lo + 1) := Nat.lt_log2_self
    have h3 : hi < (hi / lo + 1) * lo := by
      have := Nat.mod_lt hi (Nat.pos_of_ne_zero h0)
      have e := Nat.div_add_mod hi lo
      have : (hi / lo + 1) * lo = lo * (hi / lo) + lo := by rw [Nat.succ_mul, Nat.mul_comm]
      omega
    exact Nat.lt_trans h3 (Nat.mul_lt_mul'' h1 h2)
  have h1 : 2 * (Nat.log2 hi - Nat.log2 lo) + 10 ≤ 14 * Nat.log2 (hi / lo + 1) := by omega
  have h2 := Nat.mul_le_mul_left lo h1
  have e : lo * (14 * Nat.log2 (hi / lo + 1)) = 14 * (Nat.log2 (hi / lo + 1) * lo) := by rw [Nat.mul_left_comm, Nat.mul_comm lo]
  omega

/-- **C62.** If any program merges `n` with `m` elements by at most `k` comparisons, whatever the elements are, no merge of the crate makes more than `14 k` comparisons on `n` and `m` elements. -/
theorem C62_within_constant (n m k : Nat) (p : Merging.Program (List (Nat ⊕ Nat))) (hp : Merging.Merges n m p) (hk : ∀ a b, Merging.Inputs n m a b → p.comparisons a b ≤ k)
    {σ A B : Type} [MergeState σ A B] (op : MergeOp σ A B) (s : σ) (hn : (MergeState.aSlice s : List A).length = n) (hm : (MergeState.bSlice s : List B).length = m) :
    (mergeAllM (tick2 op.cmp) op s).work.cmps ≤ 14 * k := by
  have h := (C62_optimal op s n m hn hm).2
  by_cases hle : n ≤ m
  · rw [Nat.min_eq_left hle, Nat.max_eq_right hle] at h
    by_cases h0 : n = 0
    · rw [h0, Nat.zero_mul] at h; omega
    · exact Nat.le_trans h (factor h0 hle (Merging.lower (by rw [Nat.mul_comm]; exact Nat.div_mul_le_self m n) p hp k hk))
  · have hle := Nat.le_of_lt (Nat.lt_of_not_le hle)
    rw [Nat.min_eq_right hle, Nat.max_eq_left hle] at h
    by_cases h0 : m = 0
    · rw [h0, Nat.zero_mul] at h; omega
    · refine Nat.le_trans h (factor h0 hle (Merging.lower (by rw [Nat.mul_comm]; exact Nat.div_mul_le_self n m) p.flip hp.flip k fun b a hi => ?_))
      rw [(Merging.flip_says a b p).2]
      exact hk a b hi.flip

/-- a program that merges one element with one element -/
example : Merging.Merges 1 1 (.ask 0 0 fun | .lt => .done [.inl 0, .inr 0] | _ => .done [.inr 0, .inl 0]) := by
  intro a b h
  match a, b, h.left, h.right with
  | [x], [y], _, _ =>
    have hne : x ≠ y := fun e => h.apart x (by simp) (by simp [e])
    have e : Merging.outcome [x] [y] 0 0 = compare x y := rfl
    unfold Merging.Program.says
    rw [e]
    by_cases hlt : x < y
    · rw [Nat.compare_eq_lt.2 hlt]
      exact ⟨[x, y], rfl, by simp [hlt], by simp⟩
    · have hgt : y < x := by omega
      rw [Nat.compare_eq_gt.2 hgt]
      exact ⟨[y, x], rfl, by simp [hgt], fun z => by simp [or_comm]⟩

end Verif
