import Verif.Model.Std
import Verif.Lemmas.Order
/-! Correctness of the modelled binary search. -/
namespace Verif
open Std

/-- The comparison function crosses the target once along `l`. -/
def Mono {α : Type _} (f : α → Ordering) (l : List α) : Prop :=
  l.Pairwise (fun x y => f x ≠ .lt → f y = .gt)

theorem mono_get {α : Type _} {f : α → Ordering} {l : List α} (h : Mono f l) {i j : Nat}
    (hj : j < l.length) (hij : i < j) (hf : f (l[i]'(by omega)) ≠ .lt) : f l[j] = .gt :=
  (List.pairwise_iff_getElem.1 h) i j (by omega) hj hij hf

theorem bsLoop_spec {α : Type _} {f : α → Ordering} {l : List α} (h : Mono f l) :
    ∀ (size base : Nat), 1 ≤ size → base + size ≤ l.length →
      (∀ hb : base < l.length, f l[base] = .gt → base = 0) →
      (∀ j (hj : j < l.length), base + size ≤ j → f l[j] = .gt) →
      ∃ r, bsLoop f l base size = r ∧ ∃ hb : r < l.length,
        (f l[r] = .gt → r = 0) ∧
        (∀ j (hj : j < l.length), r + 1 ≤ j → f l[j] = .gt) := by
  intro size
  induction size using Nat.strongRecOn with
  | _ size ih =>
    intro base h1 h2 h3 h4
    rw [bsLoop]
    by_cases hs : size > 1
    · simp only [hs, ↓reduceDIte]
      have hm : base + size / 2 < l.length := by omega
      rw [List.getElem?_eq_getElem hm]
      simp only
      by_cases hg : f l[base + size / 2] = .gt
      · simp only [hg, ↓reduceIte]
        apply ih (size - size / 2) (by omega) base (by omega) (by omega) h3
        intro j hj hle
        by_cases e : j = base + size / 2
        · subst e; exact hg
        · exact mono_get h hj (i := base + size / 2) (by omega) (by simp [hg])
      · simp only [hg, ↓reduceIte]
        apply ih (size - size / 2) (by omega) _ (by omega) (by omega)
        · intro _ hg'; exact absurd hg' hg
        · intro j hj hle; exact h4 j hj (by omega)
    · simp only [hs, ↓reduceDIte]
      have : size = 1 := by omega
      subst this
      exact ⟨_, rfl, by omega, h3 (by omega), h4⟩

/-- What a search result means. -/
def SearchSpec {α : Type _} (f : α → Ordering) (l : List α) : SearchResult → Prop
  | .found i => ∃ lo x hi, l = lo ++ x :: hi ∧ lo.length = i ∧ f x = .eq ∧
      (∀ y ∈ lo, f y = .lt) ∧ (∀ y ∈ hi, f y = .gt)
  | .notFound i => ∃ lo hi, l = lo ++ hi ∧ lo.length = i ∧
      (∀ y ∈ lo, f y = .lt) ∧ (∀ y ∈ hi, f y = .gt)

theorem binarySearchBy_spec {α : Type _} {f : α → Ordering} {l : List α} (h : Mono f l) :
    SearchSpec f l (binarySearchBy f l) := by
  unfold binarySearchBy
  by_cases h0 : l.length = 0
  · have : l = [] := List.length_eq_zero_iff.1 h0
    subst this
    exact ⟨[], [], rfl, rfl, by simp, by simp⟩
  · simp only [h0, ↓reduceIte]
    obtain ⟨base, hbase, hb, hg, hgt⟩ := bsLoop_spec h l.length 0 (by omega) (by omega) (fun _ _ => rfl)
      (by intro j hj hle; omega)
    rw [hbase, List.getElem?_eq_getElem hb]
    simp only
    have lo_lt : f l[base] ≠ .gt → ∀ y ∈ l.take base, f y = .lt := by
      intro hne y hy
      obtain ⟨i, hi, rfl⟩ := List.mem_iff_getElem.1 hy
      have hi' : i < base := by simp at hi; omega
      rw [List.getElem_take]
      apply Classical.byContradiction
      intro hc
      exact hne (mono_get h hb hi' hc)
    have hi_gt : ∀ y ∈ l.drop (base + 1), f y = .gt := by
      intro y hy
      obtain ⟨i, hi, rfl⟩ := List.mem_iff_getElem.1 hy
      rw [List.getElem_drop]
      exact hgt _ _ (by omega)
    have split : l = l.take base ++ l[base] :: l.drop (base + 1) := by
      rw [← List.drop_eq_getElem_cons hb, List.take_append_drop]
    have len : (l.take base).length = base := by simp; omega
    cases hc : f l[base] with
    | eq =>
      exact ⟨_, _, _, split, len, hc, lo_lt (by simp [hc]), hi_gt⟩
    | lt =>
      refine ⟨l.take base ++ [l[base]], l.drop (base + 1), by simpa using split, by rw [List.length_append, len]; rfl, ?_, hi_gt⟩
      intro y hy
      rcases List.mem_append.1 hy with hy | hy
      · exact lo_lt (by simp [hc]) y hy
      · simp at hy; subst hy; exact hc
    | gt =>
      have : base = 0 := hg hc
      subst this
      refine ⟨[], l, rfl, rfl, by simp, ?_⟩
      intro y hy
      rw [split] at hy
      simp at hy
      rcases hy with rfl | hy
      · simpa using hc
      · exact hi_gt y (by simpa using hy)

theorem mono_of_ascendingBy {α κ : Type _} [Ord κ] [TransOrd κ] {key : α → κ} {l : List α}
    (h : AscendingBy key l) (k : κ) : Mono (fun x => compare (key x) k) l := by
  refine List.Pairwise.imp ?_ h
  intro x y hxy hx
  cases hc : compare (key x) k with
  | lt => exact absurd hc hx
  | eq => show compare (key y) k = .gt; rw [← cmp_congr_right hc]; exact cmp_gt_iff.2 hxy
  | gt => exact cmp_gt_trans (cmp_gt_iff.2 hxy) hc

end Verif
