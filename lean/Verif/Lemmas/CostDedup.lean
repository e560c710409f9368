import Verif.Lemmas.Cost
/-! Counting the work of collecting. -/
namespace Verif
open Std
variable {α : Type} (cmp : α → α → Ordering)

theorem dedupLoop_runs (keep : Keep) : ∀ (fuel : Nat) (d : List α) (i j : Nat),
    ∃ k, Runs (dedupLoopM (fun a b => do let o ← tick2 cmp a b; pure (o == .eq)) keep fuel d i j)
      (dedupLoop (fun a b => cmp a b == .eq) keep fuel d i j) k [] ∧ k ≤ fuel := by
  intro fuel
  induction fuel with
  | zero => intro d i j; exact ⟨0, Runs.pure _, by omega⟩
  | succ fuel ih =>
    intro d i j
    unfold dedupLoopM dedupLoop
    cases hx : d[i]? with
    | none => exact ⟨0, Runs.pure _, by omega⟩
    | some x =>
      cases hy : d[j]? with
      | none => exact ⟨0, Runs.pure _, by omega⟩
      | some y =>
        simp only
        have r0 : Runs (do let o ← tick2 cmp x y; pure (o == .eq)) (cmp x y == .eq) 1 [] :=
          Runs.bind (k := 1) (k' := 0) (ss := []) (ss' := []) (Runs.tick cmp x y) (Runs.pure _)
        cases hc : (cmp x y == .eq) with
        | false =>
          rw [hc] at r0
          obtain ⟨k, r, b⟩ := ih (if i ≠ j + 1 then swapAt d i (j + 1) else d) (i + 1) (j + 1)
          exact ⟨1 + k, Runs.bind r0 r, by omega⟩
        | true =>
          rw [hc] at r0
          simp only [Bool.not_true, Bool.false_eq_true, ↓reduceIte]
          by_cases hk : keep = .last
          · obtain ⟨k, r, b⟩ := ih (swapAt d i j) (i + 1) j
            simp only [hk, ↓reduceIte] at r ⊢
            exact ⟨1 + k, Runs.bind r0 r, by omega⟩
          · obtain ⟨k, r, b⟩ := ih d (i + 1) j
            simp only [hk, ↓reduceIte]
            exact ⟨1 + k, Runs.bind r0 r, by omega⟩

theorem dedupBy_runs (keep : Keep) (d : List α) :
    ∃ k, Runs (dedupByM (fun a b => do let o ← tick2 cmp a b; pure (o == .eq)) keep d)
      (dedupBy (fun a b => cmp a b == .eq) keep d) k [] ∧ k ≤ d.length := by
  unfold dedupByM dedupBy
  split
  · exact ⟨0, Runs.pure _, by omega⟩
  · obtain ⟨k, r, b⟩ := dedupLoop_runs cmp keep (d.length - 1) d 1 0
    exact ⟨k + 0, Runs.bind (ss := []) (ss' := []) r (Runs.pure _), by omega⟩

namespace SortAndDedup

theorem sortAndDedup_runs (keep : Keep) (s : SortAndDedup α) :
    ∃ k, Runs (s.sortAndDedupM (tick2 cmp) (tickSort cmp) keep) (s.sortAndDedup cmp keep) k
      (if s.sorted < s.data.length then [s.data.length] else []) ∧ k ≤ (if s.sorted < s.data.length then s.data.length else 0) := by
  unfold sortAndDedupM sortAndDedup
  split
  · obtain ⟨k, r, b⟩ := dedupBy_runs cmp keep (stableSortBy cmp s.data)
    refine ⟨0 + (k + 0), Runs.bind (ss := [s.data.length]) (ss' := []) (Runs.sort cmp s.data)
      (Runs.bind (ss := []) (ss' := []) r (Runs.pure _)), ?_⟩
    rw [(stableSort_perm cmp s.data).length_eq] at b
    omega
  · exact ⟨0, Runs.pure _, by omega⟩

theorem pushElem_runs (keep : Keep) (s : SortAndDedup α) (x : α) :
    ∃ k, Runs (s.pushElemM (tick2 cmp) keep x) (s.pushElem cmp keep x) k [] ∧ k ≤ 1 ∧ (s.data = [] → k = 0) ∧
      (s.sorted = s.data.length → s.data ≠ [] → k = 1) := by
  unfold pushElemM pushElem
  by_cases hs : s.sorted = s.data.length
  · simp only [hs, ↓reduceIte]
    cases hl : s.data.getLast? with
    | none => exact ⟨0, Runs.pure _, by omega, fun _ => rfl, fun _ h => absurd (by simpa using hl) h⟩
    | some last =>
      simp only
      refine ⟨1 + 0, Runs.bind (ss := []) (ss' := []) (Runs.tick cmp last x) ?_, by omega, fun h => ?_, fun _ _ => rfl⟩
      · cases cmp last x with
        | lt => exact Runs.pure _
        | gt => exact Runs.pure _
        | eq =>
          simp only
          split <;> exact Runs.pure _
      · rw [h] at hl; simp at hl
  · simp only [hs, ↓reduceIte]
    exact ⟨0, Runs.pure _, by omega, fun _ => rfl, fun h => h.elim⟩

theorem pushElem_size (keep : Keep) (s : SortAndDedup α) (x : α) (h : s.sorted ≤ s.data.length) :
    (s.pushElem cmp keep x).sorted ≤ (s.pushElem cmp keep x).data.length ∧
    (s.pushElem cmp keep x).data.length ≤ s.data.length + 1 ∧
    (s.pushElem cmp keep x).data.length - (s.pushElem cmp keep x).sorted ≤ s.data.length - s.sorted + 1 := by
  unfold pushElem
  by_cases hs : s.sorted = s.data.length
  · simp only [hs, ↓reduceIte]
    cases hl : s.data.getLast? with
    | none => simp
    | some last =>
      simp only
      cases cmp last x with
      | lt => simp
      | gt => simp
      | eq =>
        have : s.data ≠ [] := by intro e; rw [e] at hl; cases hl
        have := List.length_pos_iff.2 this
        simp only
        split
        · simp only [List.length_append, List.length_dropLast, List.length_singleton]; omega
        · omega
  · simp only [hs, ↓reduceIte, List.length_append, List.length_singleton]; omega

theorem dedupBy_le (keep : Keep) (d : List α) (same : α → α → Bool) :
    ((dedupBy same keep d).1.take (dedupBy same keep d).2).length ≤ d.length := by
  have loop : ∀ (fuel : Nat) (d : List α) (i j : Nat), (dedupLoop same keep fuel d i j).1.length = d.length := by
    intro fuel
    induction fuel with
    | zero => intros; rfl
    | succ fuel ih =>
      intro d i j
      unfold dedupLoop
      split
      · simp only
        split
        · rw [ih]; split <;> simp [swapAt_length]
        · split
          · rw [ih, swapAt_length]
          · rw [ih]
      · rfl
  unfold dedupBy
  split
  · simp
  · simp only [List.length_take, loop]; omega

theorem sortAndDedup_size (keep : Keep) (s : SortAndDedup α) (h : s.sorted ≤ s.data.length) :
    (s.sortAndDedup cmp keep).sorted = (s.sortAndDedup cmp keep).data.length ∧
    (s.sortAndDedup cmp keep).data.length ≤ s.data.length := by
  unfold sortAndDedup
  split
  · refine ⟨rfl, ?_⟩
    have := dedupBy_le keep (stableSortBy cmp s.data) (fun a b => cmp a b == .eq)
    rw [(stableSort_perm cmp s.data).length_eq] at this
    exact this
  · exact ⟨by omega, Nat.le_refl _⟩

/-- One push: `k` comparisons, sorted slices `ss`. `2 u` is the credit of the `u` unsorted elements. -/
theorem push_runs (keep : Keep) (s : SortAndDedup α) (x : α) (h : s.sorted ≤ s.data.length) :
    ∃ k ss, Runs (s.pushM (tick2 cmp) (tickSort cmp) keep x) (s.push cmp keep x) k ss ∧
      (s.push cmp keep x).sorted ≤ (s.push cmp keep x).data.length ∧
      (s.push cmp keep x).data.length ≤ s.data.length + 1 ∧
      ss.sum + 2 * ((s.push cmp keep x).data.length - (s.push cmp keep x).sorted) ≤ 2 * (s.data.length - s.sorted) + 2 ∧
      k ≤ 1 + ss.sum ∧ (∀ n ∈ ss, n ≤ s.data.length + 1) := by
  unfold pushM push
  obtain ⟨k1, r1, b1, _⟩ := pushElem_runs cmp keep s x
  obtain ⟨z1, z2, z3⟩ := pushElem_size cmp keep s x h
  simp only
  generalize s.pushElem cmp keep x = s1 at r1 z1 z2 z3 ⊢
  have nop : ∃ k ss, Runs (s.pushElemM (tick2 cmp) keep x >>= fun _ => (pure s1 : Counted _)) s1 k ss ∧ s1.sorted ≤ s1.data.length ∧
      s1.data.length ≤ s.data.length + 1 ∧ ss.sum + 2 * (s1.data.length - s1.sorted) ≤ 2 * (s.data.length - s.sorted) + 2 ∧
      k ≤ 1 + ss.sum ∧ (∀ n ∈ ss, n ≤ s.data.length + 1) :=
    ⟨k1 + 0, [], Runs.bind (ss := []) (ss' := []) r1 (Runs.pure _), z1, z2, by simp; omega, by simp; omega, by simp⟩
  by_cases h16 : s1.data.length ≥ 16
  · simp only [h16, ↓reduceIte]
    by_cases hu : s1.data.length - s1.sorted > s1.sorted
    · simp only [hu, ↓reduceIte]
      obtain ⟨k2, r2, b2⟩ := sortAndDedup_runs cmp keep s1
      obtain ⟨y1, y2⟩ := sortAndDedup_size cmp keep s1 z1
      have hlt : s1.sorted < s1.data.length := by omega
      simp only [hlt, ↓reduceIte] at r2 b2
      refine ⟨k1 + k2, [s1.data.length], ?_, by omega, by omega, ?_, ?_, ?_⟩
      · refine Runs.bind (ss := []) (ss' := [s1.data.length]) r1 ?_
        simp only [h16, hu, ↓reduceIte]
        exact r2
      · simp only [List.sum_cons, List.sum_nil]; omega
      · simp only [List.sum_cons, List.sum_nil]; omega
      · simpa using z2
    · simp only [hu, ↓reduceIte]
      refine ⟨k1 + 0, [], Runs.bind (ss := []) (ss' := []) r1 ?_, z1, z2, by simp; omega, by simp; omega, by simp⟩
      simp only [h16, hu, ↓reduceIte]
      exact Runs.pure _
  · simp only [h16, ↓reduceIte]
    refine ⟨k1 + 0, [], Runs.bind (ss := []) (ss' := []) r1 ?_, z1, z2, by simp; omega, by simp; omega, by simp⟩
    simp only [h16, ↓reduceIte]
    exact Runs.pure _

theorem pushAll_runs (keep : Keep) : ∀ (l : List α) (s : SortAndDedup α), s.sorted ≤ s.data.length →
    ∃ k ss, Runs (pushAllM (tick2 cmp) (tickSort cmp) keep l s) (l.foldl (push cmp keep) s) k ss ∧
      (l.foldl (push cmp keep) s).sorted ≤ (l.foldl (push cmp keep) s).data.length ∧
      (l.foldl (push cmp keep) s).data.length ≤ s.data.length + l.length ∧
      ss.sum + 2 * ((l.foldl (push cmp keep) s).data.length - (l.foldl (push cmp keep) s).sorted)
        ≤ 2 * (s.data.length - s.sorted) + 2 * l.length ∧
      k ≤ l.length + ss.sum ∧ (∀ n ∈ ss, n ≤ s.data.length + l.length) := by
  intro l
  induction l with
  | nil => intro s h; exact ⟨0, [], Runs.pure _, h, by simp, by simp, by simp, by simp⟩
  | cons x l ih =>
    intro s h
    obtain ⟨k1, ss1, r1, a1, c1, d1, e1, f1⟩ := push_runs cmp keep s x h
    obtain ⟨k2, ss2, r2, a2, c2, d2, e2, f2⟩ := ih (s.push cmp keep x) a1
    refine ⟨k1 + k2, ss1 ++ ss2, Runs.bind r1 r2, a2, ?_, ?_, ?_, ?_⟩
    · simp only [List.foldl_cons, List.length_cons]; omega
    · simp only [List.foldl_cons, List.length_cons, List.sum_append]; omega
    · simp only [List.length_cons, List.sum_append]; omega
    · intro n hn
      simp only [List.length_cons]
      rcases List.mem_append.1 hn with hn | hn
      · have := f1 n hn; omega
      · have := f2 n hn; omega

end SortAndDedup

/-- **Collecting** `N` items: the slices that are sorted have a total length of at most `3 N`, and outside of sorting there are at most
`4 N` comparisons. -/
theorem sortDedupBy_runs (keep : Keep) (l : List α) :
    ∃ k ss, Runs (sortDedupByM (tick2 cmp) (tickSort cmp) keep l) (sortDedupBy cmp keep l) k ss ∧
      k ≤ 4 * l.length ∧ ss.sum ≤ 3 * l.length ∧ (∀ n ∈ ss, n ≤ l.length) := by
  unfold sortDedupByM sortDedupBy SortAndDedup.intoInner
  obtain ⟨k1, ss1, r1, a1, c1, d1, e1, f1⟩ := SortAndDedup.pushAll_runs cmp keep l { data := [], sorted := 0 } (by simp)
  obtain ⟨k2, r2, b2⟩ := SortAndDedup.sortAndDedup_runs cmp keep (l.foldl (SortAndDedup.push cmp keep) { data := [], sorted := 0 })
  generalize l.foldl (SortAndDedup.push cmp keep) { data := [], sorted := 0 } = s at *
  simp only [List.length_nil, Nat.zero_add, Nat.sub_zero, Nat.mul_zero] at c1 d1 f1
  refine ⟨k1 + (k2 + 0), ss1 ++ _, Runs.bind r1 (Runs.bind (ss' := []) r2 (Runs.pure _)), ?_, ?_, ?_⟩
  · split at b2 <;> omega
  · split <;> (simp only [List.sum_append, List.sum_cons, List.sum_nil]; omega)
  · intro n hn
    rw [List.append_nil] at hn
    rcases List.mem_append.1 hn with hn | hn
    · exact f1 n hn
    · split at hn
      · simp only [List.mem_singleton] at hn; omega
      · cases hn

/-- pushing items that are already in order -/
theorem pushAll_sorted (keep : Keep) : ∀ (l : List α) (s : SortAndDedup α), s.sorted = s.data.length → s.data ≠ [] →
    (∀ y, s.data.getLast? = some y → (y :: l).Pairwise (fun a b => cmp a b ≠ .gt)) →
    ∃ s', Runs (SortAndDedup.pushAllM (tick2 cmp) (tickSort cmp) keep l s) s' l.length [] ∧ s'.sorted = s'.data.length := by
  intro l
  induction l with
  | nil => intro s h _ _; exact ⟨s, Runs.pure _, h⟩
  | cons x l ih =>
    intro s h hne hp
    obtain ⟨y, hy⟩ : ∃ y, s.data.getLast? = some y := by
      cases e : s.data.getLast? with
      | none => exact absurd (by simpa using e) hne
      | some y => exact ⟨y, rfl⟩
    have hp' := hp y hy
    rw [List.pairwise_cons, List.pairwise_cons] at hp'
    obtain ⟨hyx, hxl, hl⟩ := hp'
    have hcmp : cmp y x ≠ .gt := hyx x (by simp)
    have hx' : (x :: l).Pairwise (fun a b => cmp a b ≠ .gt) := List.pairwise_cons.2 ⟨hxl, hl⟩
    have hy' : (y :: l).Pairwise (fun a b => cmp a b ≠ .gt) := List.pairwise_cons.2 ⟨fun z hz => hyx z (by simp [hz]), hl⟩
    obtain ⟨k, r, _, _, hk⟩ := SortAndDedup.pushElem_runs cmp keep s x
    have hk1 := hk h hne
    subst hk1
    have hs1 : (s.pushElem cmp keep x).sorted = (s.pushElem cmp keep x).data.length ∧ (s.pushElem cmp keep x).data ≠ [] ∧
        ∀ z, (s.pushElem cmp keep x).data.getLast? = some z → (z :: l).Pairwise (fun a b => cmp a b ≠ .gt) := by
      unfold SortAndDedup.pushElem
      simp only [h, ↓reduceIte, hy]
      have hpos := List.length_pos_iff.2 hne
      cases hc : cmp y x with
      | lt =>
        refine ⟨by simp, by simp, fun z hz => ?_⟩
        simp only [List.getLast?_append, List.getLast?_singleton, Option.some_or, Option.some.injEq] at hz
        subst hz; exact hx'
      | gt => exact absurd hc hcmp
      | eq =>
        simp only
        split
        · refine ⟨by simp only [List.length_append, List.length_dropLast, List.length_singleton]; omega, by simp, fun z hz => ?_⟩
          simp only [List.getLast?_append, List.getLast?_singleton, Option.some_or, Option.some.injEq] at hz
          subst hz; exact hx'
        · refine ⟨h, hne, fun z hz => ?_⟩
          rw [hy] at hz; cases hz; exact hy'
    obtain ⟨g1, g2, g3⟩ := hs1
    have rp : Runs (s.pushM (tick2 cmp) (tickSort cmp) keep x) (s.pushElem cmp keep x) 1 [] := by
      unfold SortAndDedup.pushM
      refine Runs.bind (k := 1) (k' := 0) (ss := []) (ss' := []) r ?_
      have : ¬ ((s.pushElem cmp keep x).data.length - (s.pushElem cmp keep x).sorted > (s.pushElem cmp keep x).sorted) := by omega
      simp only [this, ↓reduceIte]
      split <;> exact Runs.pure _
    obtain ⟨s', r', hs'⟩ := ih (s.pushElem cmp keep x) g1 g2 g3
    refine ⟨s', ?_, hs'⟩
    have e := Runs.bind rp r'
    rw [Nat.add_comm] at e
    exact e

/-- **Collecting items that are already in order** (duplicates allowed): one comparison per item after the first, and nothing is sorted. -/
theorem sortDedupBy_sorted (keep : Keep) (l : List α) (h : l.Pairwise (fun a b => cmp a b ≠ .gt)) :
    (sortDedupByM (tick2 cmp) (tickSort cmp) keep l).work = ⟨l.length - 1, []⟩ := by
  cases l with
  | nil => rfl
  | cons x l =>
    have r0 : Runs (SortAndDedup.pushM (tick2 cmp) (tickSort cmp) keep { data := [], sorted := 0 } x) { data := [x], sorted := 1 } 0 [] := by
      intro w; simp [SortAndDedup.pushM, SortAndDedup.pushElemM]; rfl
    obtain ⟨s', r', hs'⟩ := pushAll_sorted cmp keep l { data := [x], sorted := 1 } rfl (by simp) (by simpa using h)
    have r2 : Runs (s'.sortAndDedupM (tick2 cmp) (tickSort cmp) keep) s' 0 [] := by
      unfold SortAndDedup.sortAndDedupM
      simp only [hs', Nat.lt_irrefl, ↓reduceIte]
      exact Runs.pure _
    have e1 : Runs (SortAndDedup.pushAllM (tick2 cmp) (tickSort cmp) keep (x :: l) { data := [], sorted := 0 }) s' (0 + l.length) [] :=
      Runs.bind r0 r'
    have e2 : Runs (sortDedupByM (tick2 cmp) (tickSort cmp) keep (x :: l)) s'.data (0 + l.length + (0 + 0)) [] :=
      Runs.bind (ss := []) (ss' := []) e1 (Runs.bind (ss := []) (ss' := []) r2 (Runs.pure _))
    rw [e2.work]
    simp

end Verif
