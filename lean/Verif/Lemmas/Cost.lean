import Verif.Model.Cost
import Verif.Lemmas.BinarySearch
import Verif.Lemmas.Dedup
/-! Counting comparisons: the counted functions return what the plain ones return, and how much work they do. -/
namespace Verif
open Std
variable {α β γ : Type}

/-- `c` returns `r`, makes `k` comparisons and sorts slices of the lengths `ss`. -/
def Runs (c : Counted β) (r : β) (k : Nat) (ss : List Nat) : Prop :=
  ∀ w : Work, c w = (r, ⟨w.cmps + k, w.sorts ++ ss⟩)

theorem Runs.pure (r : β) : Runs (pure r : Counted β) r 0 [] := by
  intro w
  show (r, w) = _
  simp

theorem Runs.bind {c : Counted β} {f : β → Counted γ} {r : β} {k : Nat} {ss : List Nat} {r' : γ} {k' : Nat} {ss' : List Nat}
    (h : Runs c r k ss) (h' : Runs (f r) r' k' ss') : Runs (c >>= f) r' (k + k') (ss ++ ss') := by
  intro w
  show f (c w).1 (c w).2 = _
  rw [h w]
  simp only
  rw [h' _]
  simp only [List.append_assoc, Nat.add_assoc]

theorem Runs.tick (cmp : β → γ → Ordering) (a : β) (b : γ) : Runs (tick2 cmp a b) (cmp a b) 1 [] := by
  intro w
  simp [tick2]

theorem Runs.sort (cmp : α → α → Ordering) (l : List α) : Runs (tickSort cmp l) (stableSortBy cmp l) 0 [l.length] := by
  intro w
  simp [tickSort]

theorem Runs.result {c : Counted β} {r : β} {k : Nat} {ss : List Nat} (h : Runs c r k ss) : c.result = r := by
  simp [Counted.result, h _]

theorem Runs.work {c : Counted β} {r : β} {k : Nat} {ss : List Nat} (h : Runs c r k ss) : c.work = ⟨k, ss⟩ := by
  simp [Counted.work, h _]

/-! ### Binary search -/

theorem bsLoop_runs (f : α → Ordering) (fm : α → Counted Ordering) (l : List α) (hf : ∀ x ∈ l, Runs (fm x) (f x) 1 []) :
    ∀ (size base : Nat), 1 ≤ size → base + size ≤ l.length →
      ∃ k, Runs (bsLoopM fm l base size) (bsLoop f l base size) k [] ∧ (size = 1 → k = 0) ∧ (2 ≤ size → 2 ^ k ≤ 2 * (size - 1)) ∧
        bsLoop f l base size < l.length := by
  intro size
  induction size using Nat.strongRecOn with
  | _ size ih =>
    intro base h1 h2
    rw [bsLoopM, bsLoop]
    by_cases hs : size > 1
    · simp only [hs, ↓reduceDIte]
      have hm : base + size / 2 < l.length := by omega
      rw [List.getElem?_eq_getElem hm]
      simp only
      have key : ∃ k, Runs (bsLoopM fm l (if f l[base + size / 2] = .gt then base else base + size / 2) (size - size / 2))
          (bsLoop f l (if f l[base + size / 2] = .gt then base else base + size / 2) (size - size / 2)) k [] ∧
          (size - size / 2 = 1 → k = 0) ∧ (2 ≤ size - size / 2 → 2 ^ k ≤ 2 * (size - size / 2 - 1)) ∧
          bsLoop f l (if f l[base + size / 2] = .gt then base else base + size / 2) (size - size / 2) < l.length := by
        split
        · exact ih _ (by omega) _ (by omega) (by omega)
        · exact ih _ (by omega) _ (by omega) (by omega)
      obtain ⟨k, hk, hk1, hk2, hlt⟩ := key
      refine ⟨1 + k, Runs.bind (hf _ (List.getElem_mem _)) hk, by omega, fun _ => ?_, hlt⟩
      by_cases h3 : size - size / 2 = 1
      · rw [hk1 h3]; omega
      · have := hk2 (by omega)
        rw [Nat.pow_add]
        omega
    · simp only [hs, ↓reduceDIte]
      exact ⟨0, Runs.pure _, fun _ => rfl, fun h => absurd h (by omega), by omega⟩

/-- **Binary search.** On `n ≥ 2` elements the number `k` of comparisons satisfies `2 ^ k ≤ 4 (n - 1)`. -/
theorem binarySearchBy_runs (f : α → Ordering) (fm : α → Counted Ordering) (l : List α) (hf : ∀ x ∈ l, Runs (fm x) (f x) 1 []) :
    ∃ k, Runs (binarySearchByM fm l) (binarySearchBy f l) k [] ∧ (l.length = 0 → k = 0) ∧
      (l.length = 1 → k = 1) ∧ (2 ≤ l.length → 2 ^ k ≤ 4 * (l.length - 1)) := by
  unfold binarySearchByM binarySearchBy
  by_cases h0 : l.length = 0
  · simp only [h0, ↓reduceIte]
    exact ⟨0, Runs.pure _, by simp⟩
  · simp only [if_neg h0]
    obtain ⟨k, hk, hk1, hk2, hlt⟩ := bsLoop_runs f fm l hf l.length 0 (by omega) (by omega)
    refine ⟨k + 1, ?_, fun h => absurd h h0, fun h => by rw [hk1 h], fun h => ?_⟩
    · refine Runs.bind (ss := []) (ss' := []) hk ?_
      rw [List.getElem?_eq_getElem hlt]
      refine Runs.bind (k := 1) (k' := 0) (ss := []) (ss' := []) (hf _ (List.getElem_mem _)) ?_
      cases hc : f l[bsLoop f l 0 l.length] <;> (simp only [hc]; exact Runs.pure _)
    · have := hk2 h
      rw [Nat.pow_succ]; omega

/-- the bound as a logarithm -/
theorem searchCost_log {n k : Nat} (h0 : n = 0 → k = 0) (h1 : n = 1 → k = 1) (h2 : 2 ≤ n → 2 ^ k ≤ 4 * (n - 1)) :
    k ≤ Nat.log2 n + 2 ∧ (n = 0 → k = 0) := by
  refine ⟨?_, h0⟩
  by_cases hn : n = 0
  · rw [h0 hn]; omega
  · by_cases hn1 : n = 1
    · rw [h1 hn1]; omega
    · have h3 := h2 (by omega)
      have h4 : n < 2 ^ (Nat.log2 n + 1) := Nat.lt_log2_self
      have h5 : 2 ^ k < 2 ^ (Nat.log2 n + 3) := by
        rw [Nat.pow_add] at h4 ⊢
        omega
      have := (Nat.pow_lt_pow_iff_right (by omega : 1 < 2)).1 h5
      omega
end Verif
