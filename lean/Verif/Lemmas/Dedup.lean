import Verif.Model.Dedup
import Verif.Lemmas.Order
/-! Correctness of the sort-and-dedup aggregator. -/
namespace Verif
open Std

variable {α κ : Type _} [Ord κ] [TransOrd κ] {key : α → κ}

/-- the representative of key `k` in the item sequence `l`: the first or the last item equal to `k` -/
def pick (key : α → κ) (keep : Keep) (l : List α) (k : κ) : Option α :=
  match keep with
  | .first => findBy key l k
  | .last => findBy key l.reverse k

omit [TransOrd κ] in
@[simp] theorem pick_nil (keep : Keep) (k : κ) : pick key keep [] k = none := by
  cases keep <;> rfl

omit [TransOrd κ] in
theorem pick_concat (keep : Keep) (l : List α) (x : α) (k : κ) :
    pick key keep (l ++ [x]) k =
      match keep with
      | .first => (pick key .first l k).or (if compare (key x) k = .eq then some x else none)
      | .last => if compare (key x) k = .eq then some x else pick key .last l k := by
  cases keep
  · simp [pick, findBy_append, findBy_cons]
  · simp [pick, findBy_cons]

omit [TransOrd κ] in
theorem pick_concat_congr {keep : Keep} {l l' : List α} {k : κ}
    (h : pick key keep l k = pick key keep l' k) (x : α) :
    pick key keep (l ++ [x]) k = pick key keep (l' ++ [x]) k := by
  rw [pick_concat, pick_concat]
  cases keep <;> simp [h]

omit [TransOrd κ] in
theorem pick_none {keep : Keep} {l : List α} {k : κ} :
    pick key keep l k = none ↔ ∀ x ∈ l, compare (key x) k ≠ .eq := by
  cases keep <;> simp [pick, findBy_none]

theorem pick_of_ascending {keep : Keep} {l : List α} (h : AscendingBy key l) (k : κ) :
    pick key keep l k = findBy key l k := by
  cases keep with
  | first => rfl
  | last =>
    show findBy key l.reverse k = findBy key l k
    cases hf : findBy key l k with
    | none => rw [findBy_none] at hf ⊢; simpa using hf
    | some x =>
      have ⟨hx, e⟩ := findBy_some_mem hf
      cases hr : findBy key l.reverse k with
      | none => rw [findBy_none] at hr; exact absurd e (hr x (by simpa using hx))
      | some y =>
        have ⟨hy, e'⟩ := findBy_some_mem hr
        rw [h.eq_of_mem (by simpa using hy) hx (cmp_eq_trans e' (cmp_symm e))]

/-! ### One element appended to a deduplicated ascending list -/

/-- append `x` to the ascending list `K` whose last key is at most `x` -/
def stepKeep (key : α → κ) (keep : Keep) (K : List α) (x : α) : List α :=
  match K.getLast? with
  | none => K ++ [x]
  | some y =>
    if compare (key x) (key y) = .eq then
      (if keep = .last then K.dropLast ++ [x] else K)
    else K ++ [x]

theorem stepKeep_inv (keep : Keep) {K xs : List α} {x : α} (hK : AscendingBy key K)
    (hp : ∀ k, pick key keep K k = pick key keep xs k)
    (hle : ∀ y, K.getLast? = some y → compare (key y) (key x) ≠ .gt) :
    AscendingBy key (stepKeep key keep K x) ∧
      ∀ k, pick key keep (stepKeep key keep K x) k = pick key keep (xs ++ [x]) k := by
  unfold stepKeep
  cases hl : K.getLast? with
  | none =>
    have : K = [] := by simpa using hl
    subst this
    refine ⟨by simp [AscendingBy], fun k => ?_⟩
    exact pick_concat_congr (hp k) x
  | some y =>
    obtain ⟨I, rfl⟩ : ∃ I, K = I ++ [y] := by
      rw [List.getLast?_eq_some_iff] at hl; exact hl
    have hle := hle y hl
    have hK' := hK
    rw [ascendingBy_append] at hK'
    by_cases he : compare (key x) (key y) = .eq
    · simp only [he, ↓reduceIte]
      cases keep with
      | first =>
        simp only [reduceCtorEq, ↓reduceIte]
        refine ⟨hK, fun k => ?_⟩
        rw [pick_concat (l := xs), ← hp k]
        simp only
        by_cases hxk : compare (key x) k = .eq
        · have : pick key .first (I ++ [y]) k ≠ none := by
            rw [Ne, pick_none]
            intro h
            exact h y (by simp) (cmp_eq_trans (cmp_symm he) hxk)
          cases hq : pick key .first (I ++ [y]) k with
          | none => exact absurd hq this
          | some z => simp
        · simp [hxk]
      | last =>
        simp only [↓reduceIte, List.dropLast_concat]
        refine ⟨?_, fun k => ?_⟩
        · rw [ascendingBy_append]
          refine ⟨hK'.1, by simp [AscendingBy], ?_⟩
          intro z hz w hw
          simp at hw; subst hw
          exact cmp_lt_of_lt_of_eq (hK'.2.2 z hz y (by simp)) (cmp_symm he)
        · rw [pick_concat, pick_concat, ← hp k, pick_concat]
          simp only
          by_cases hxk : compare (key x) k = .eq
          · simp [hxk]
          · have : compare (key y) k ≠ .eq := fun h => hxk (cmp_eq_trans he h)
            simp [hxk, this]
    · simp only [he, ↓reduceIte]
      have hlt : compare (key y) (key x) = .lt := by
        cases hc : compare (key y) (key x) with
        | lt => rfl
        | eq => exact absurd (cmp_symm hc) he
        | gt => exact absurd hc hle
      refine ⟨?_, fun k => pick_concat_congr (hp k) x⟩
      rw [ascendingBy_append]
      refine ⟨hK, by simp [AscendingBy], ?_⟩
      intro z hz w hw
      simp at hw; subst hw
      rcases List.mem_append.1 hz with hz | hz
      · exact cmp_lt_trans (hK'.2.2 z hz y (by simp)) hlt
      · simp at hz; subst hz; exact hlt

omit [TransOrd κ] in
theorem stepKeep_last (keep : Keep) (K : List α) (x : α) :
    ∃ y, (stepKeep key keep K x).getLast? = some y ∧
      (y = x ∨ (K.getLast? = some y ∧ compare (key x) (key y) = .eq)) := by
  unfold stepKeep
  cases hl : K.getLast? with
  | none => exact ⟨x, by simp, .inl rfl⟩
  | some y =>
    simp only
    by_cases he : compare (key x) (key y) = .eq
    · cases keep with
      | first => simp [he, hl]
      | last => exact ⟨x, by simp [he], .inl rfl⟩
    · exact ⟨x, by simp [he], .inl rfl⟩

/-- non-strictly ascending -/
def SortedBy (key : α → κ) (l : List α) : Prop :=
  l.Pairwise (fun x y => compare (key x) (key y) ≠ .gt)

theorem cmp_ne_gt_trans {x y z : κ} (h : compare x y ≠ .gt) (h' : compare y z ≠ .gt) :
    compare x z ≠ .gt := by
  cases h1 : compare x y with
  | gt => exact absurd h1 h
  | eq => rw [cmp_congr_left h1]; exact h'
  | lt =>
    cases h2 : compare y z with
    | gt => exact absurd h2 h'
    | eq => rw [← cmp_congr_right h2, h1]; simp
    | lt => rw [cmp_lt_trans h1 h2]; simp

/-- folding `stepKeep` over a sorted list -/
theorem foldl_stepKeep_inv (keep : Keep) (l : List α) : ∀ (K xs : List α), AscendingBy key K →
    (∀ k, pick key keep K k = pick key keep xs k) → SortedBy key l →
    (∀ y, K.getLast? = some y → ∀ x ∈ l, compare (key y) (key x) ≠ .gt) →
    AscendingBy key (l.foldl (stepKeep key keep) K) ∧
      ∀ k, pick key keep (l.foldl (stepKeep key keep) K) k = pick key keep (xs ++ l) k := by
  induction l with
  | nil => intro K xs hK hp _ _; simpa using ⟨hK, hp⟩
  | cons x l ih =>
    intro K xs hK hp hs hle
    have hs' := List.pairwise_cons.1 hs
    have ⟨h1, h2⟩ := stepKeep_inv keep hK hp (x := x) (fun y hy => hle y hy x (by simp))
    have := ih (stepKeep key keep K x) (xs ++ [x]) h1 h2 hs'.2 (by
      intro y hy z hz
      obtain ⟨w, hw, hw'⟩ := stepKeep_last (key := key) keep K x
      rw [hy] at hw
      cases hw
      rcases hw' with rfl | ⟨h, _⟩
      · exact hs'.1 z hz
      · exact hle y h z (by simp [hz]))
    simpa using this

/-! ### `dedup_by` -/

theorem swapAt_eq {d : List α} {i j : Nat} (hi : i < d.length) (hj : j < d.length) :
    swapAt d i j = (d.set i d[j]).set j d[i] := by
  simp [swapAt, List.getElem?_eq_getElem hi, List.getElem?_eq_getElem hj]

theorem swapAt_take {d : List α} {i j : Nat} (hi : i < d.length) (hji : j < i) :
    (swapAt d i j).take (j + 1) = d.take j ++ [d[i]] := by
  rw [swapAt_eq hi (by omega), List.take_add_one]
  simp [List.take_set_of_le (show j ≤ j from Nat.le_refl _),
    List.take_set_of_le (show j ≤ i by omega), show j < d.length by omega]

theorem swapAt_drop {d : List α} {i j : Nat} (hi : i < d.length) (hji : j < i) :
    (swapAt d i j).drop (i + 1) = d.drop (i + 1) := by
  rw [swapAt_eq hi (by omega)]
  simp [List.drop_set, show j < i + 1 by omega]

theorem swapAt_length (d : List α) (i j : Nat) : (swapAt d i j).length = d.length := by
  unfold swapAt; split <;> simp

theorem dedupLoop_spec (keep : Keep) : ∀ (fuel : Nat) (d : List α) (i j : Nat),
    fuel = d.length - i → j < i → i ≤ d.length →
    (dedupLoop (fun a b => compare (key a) (key b) == .eq) keep fuel d i j).1.length = d.length ∧
    (dedupLoop (fun a b => compare (key a) (key b) == .eq) keep fuel d i j).2 < d.length ∧
    (dedupLoop (fun a b => compare (key a) (key b) == .eq) keep fuel d i j).1.take
        ((dedupLoop (fun a b => compare (key a) (key b) == .eq) keep fuel d i j).2 + 1)
      = (d.drop i).foldl (stepKeep key keep) (d.take (j + 1)) := by
  intro fuel
  induction fuel with
  | zero =>
    intro d i j hf hji hi
    have : i = d.length := by omega
    subst this
    simp [dedupLoop]; omega
  | succ fuel ih =>
    intro d i j hf hji hi
    have hi' : i < d.length := by omega
    have hj' : j < d.length := by omega
    have hdrop : d.drop i = d[i] :: d.drop (i + 1) := List.drop_eq_getElem_cons hi'
    have hlast : (d.take (j + 1)).getLast? = some d[j] := by
      rw [List.take_add_one, List.getElem?_eq_getElem hj', Option.toList, List.getLast?_concat]
    have htake : d.take (j + 1) = d.take j ++ [d[j]] := by
      rw [List.take_add_one, List.getElem?_eq_getElem hj']; rfl
    rw [dedupLoop, List.getElem?_eq_getElem hi', List.getElem?_eq_getElem hj', hdrop]
    simp only [List.foldl_cons]
    have hstep : stepKeep key keep (d.take (j + 1)) d[i] =
        if compare (key d[i]) (key d[j]) = .eq then
          (if keep = .last then d.take j ++ [d[i]] else d.take (j + 1))
        else d.take (j + 1) ++ [d[i]] := by
      unfold stepKeep
      rw [hlast]
      simp only [htake, List.dropLast_concat]
    rw [hstep]
    by_cases he : compare (key d[i]) (key d[j]) = .eq
    · simp only [he, BEq.rfl, Bool.not_true, Bool.false_eq_true, ↓reduceIte]
      cases keep with
      | first =>
        simp only [reduceCtorEq, ↓reduceIte]
        exact ih d (i + 1) j (by omega) (by omega) (by omega)
      | last =>
        simp only [↓reduceIte]
        have := ih (swapAt d i j) (i + 1) j (by rw [swapAt_length]; omega) (by omega)
          (by rw [swapAt_length]; omega)
        rw [swapAt_drop hi' hji, swapAt_take hi' hji, swapAt_length] at this
        exact this
    · have hb : (compare (key d[i]) (key d[j]) == .eq) = false := by
        simpa using he
      simp only [he, hb, Bool.not_false, ↓reduceIte]
      by_cases hij : i = j + 1
      · subst hij
        simp only [ne_eq, not_true_eq_false, ↓reduceIte]
        have := ih d (j + 1 + 1) (j + 1) (by omega) (by omega) (by omega)
        rw [List.take_add_one (i := j + 1), List.getElem?_eq_getElem hi'] at this
        exact this
      · simp only [ne_eq, hij, not_false_eq_true, ↓reduceIte]
        have hlt : j + 1 < i := by omega
        have := ih (swapAt d i (j + 1)) (i + 1) (j + 1) (by rw [swapAt_length]; omega) (by omega)
          (by rw [swapAt_length]; omega)
        rw [swapAt_drop hi' hlt, swapAt_take hi' hlt, swapAt_length] at this
        exact this

theorem dedupBy_spec (keep : Keep) {d : List α} (hs : SortedBy key d) :
    AscendingBy key ((dedupBy (fun a b => compare (key a) (key b) == .eq) keep d).1.take
        (dedupBy (fun a b => compare (key a) (key b) == .eq) keep d).2) ∧
    ∀ k, pick key keep ((dedupBy (fun a b => compare (key a) (key b) == .eq) keep d).1.take
        (dedupBy (fun a b => compare (key a) (key b) == .eq) keep d).2) k = pick key keep d k := by
  cases d with
  | nil => simp [dedupBy]
  | cons x l =>
    have ⟨_, _, h⟩ := dedupLoop_spec (key := key) keep ((x :: l).length - 1) (x :: l) 1 0 rfl
      (by omega) (by simp)
    simp only [dedupBy, List.isEmpty_cons, Bool.false_eq_true, ↓reduceIte]
    rw [h]
    have hs' := List.pairwise_cons.1 hs
    have := foldl_stepKeep_inv (key := key) keep l [x] [x] (by simp [AscendingBy]) (fun _ => rfl)
      hs'.2 (by intro y hy z hz; simp at hy; subst hy; exact hs'.1 z hz)
    simpa using this

/-! ### Stable sorting -/

theorem stableSort_sorted (l : List α) :
    SortedBy key (stableSortBy (fun a b => compare (key a) (key b)) l) := by
  have := List.pairwise_mergeSort (le := fun a b => compare (key a) (key b) != .gt)
    (by intro a b c; simpa using cmp_ne_gt_trans)
    (by
      intro a b
      have := OrientedCmp.gt_iff_lt (cmp := compare) (a := key a) (b := key b)
      cases h : compare (key a) (key b) <;> simp_all) l
  simpa [SortedBy, stableSortBy] using this

theorem stableSort_perm (cmp : α → α → Ordering) (l : List α) : (stableSortBy cmp l).Perm l :=
  List.mergeSort_perm _ _

theorem stableSort_filter (l : List α) (k : κ) :
    (stableSortBy (fun a b => compare (key a) (key b)) l).filter (fun x => compare (key x) k == .eq)
      = l.filter (fun x => compare (key x) k == .eq) := by
  have hsub : (l.filter (fun x => compare (key x) k == .eq)).Sublist
      (stableSortBy (fun a b => compare (key a) (key b)) l) := by
    apply List.sublist_mergeSort (le := fun a b => compare (key a) (key b) != .gt)
    · intro a b c; simpa using cmp_ne_gt_trans
    · intro a b
      have := OrientedCmp.gt_iff_lt (cmp := compare) (a := key a) (b := key b)
      cases h : compare (key a) (key b) <;> simp_all
    · rw [List.pairwise_filter]
      refine List.pairwise_iff_forall_sublist.2 fun {a b} _ ha hb => ?_
      have ha' : compare (key a) k = .eq := by simpa using ha
      have hb' : compare (key b) k = .eq := by simpa using hb
      simp [cmp_eq_trans ha' (cmp_symm hb')]
    · exact List.filter_sublist
  have hsub2 : (l.filter (fun x => compare (key x) k == .eq)).Sublist
      ((stableSortBy (fun a b => compare (key a) (key b)) l).filter
        (fun x => compare (key x) k == .eq)) := by
    have := hsub.filter (fun x => compare (key x) k == .eq)
    simpa using this
  refine (hsub2.eq_of_length ?_).symm
  exact (((stableSort_perm _ l).filter _).length_eq).symm

omit [TransOrd κ] in
theorem findBy_eq_head (l : List α) (k : κ) :
    findBy key l k = (l.filter (fun x => compare (key x) k == .eq)).head? := by
  simp [findBy]

theorem pick_stableSort (keep : Keep) (l : List α) (k : κ) :
    pick key keep (stableSortBy (fun a b => compare (key a) (key b)) l) k = pick key keep l k := by
  cases keep <;> simp only [pick, findBy_eq_head, List.filter_reverse, stableSort_filter]

/-! ### The aggregator -/

/-- invariant of the aggregator after the items `xs` -/
structure AggInv (key : α → κ) (keep : Keep) (s : SortAndDedup α) (xs : List α) : Prop where
  le : s.sorted ≤ s.data.length
  asc : AscendingBy key (s.data.take s.sorted)
  pick : ∀ k, pick key keep s.data k = pick key keep xs k

theorem sortAndDedup_inv {keep : Keep} {s : SortAndDedup α} {xs : List α}
    (h : AggInv key keep s xs) :
    AggInv key keep (s.sortAndDedup (fun a b => compare (key a) (key b)) keep) xs ∧
      (s.sortAndDedup (fun a b => compare (key a) (key b)) keep).sorted
        = (s.sortAndDedup (fun a b => compare (key a) (key b)) keep).data.length := by
  unfold SortAndDedup.sortAndDedup
  by_cases hlt : s.sorted < s.data.length
  · simp only [hlt, ↓reduceIte]
    have ⟨h1, h2⟩ := dedupBy_spec (key := key) keep (stableSort_sorted (key := key) s.data)
    refine ⟨⟨Nat.le_refl _, ?_, fun k => ?_⟩, trivial⟩
    · simp only [List.take_length]; exact h1
    · simp only; rw [h2, pick_stableSort, h.pick]
  · simp only [hlt, ↓reduceIte]
    exact ⟨h, by have := h.le; omega⟩

theorem pushElem_inv {keep : Keep} {s : SortAndDedup α} {xs : List α}
    (h : AggInv key keep s xs) (x : α) :
    AggInv key keep (s.pushElem (fun a b => compare (key a) (key b)) keep x) (xs ++ [x]) := by
  unfold SortAndDedup.pushElem
  have hle := h.le
  have happ : AggInv key keep { s with data := s.data ++ [x] } (xs ++ [x]) := by
    refine ⟨by simp; omega, ?_, fun k => pick_concat_congr (h.pick k) x⟩
    simp only [List.take_append_of_le_length h.le]
    exact h.asc
  by_cases hs : s.sorted = s.data.length
  · simp only [hs, ↓reduceIte]
    have hasc := h.asc
    rw [hs, List.take_length] at hasc
    cases hl : s.data.getLast? with
    | none =>
      have hd : s.data = [] := by simpa using hl
      simp only [hd]
      refine ⟨by simp, by simp [AscendingBy], fun k => ?_⟩
      have := pick_concat_congr (h.pick k) x
      rw [hd] at this
      exact this
    | some y =>
      simp only
      have step := stepKeep_inv (x := x) keep hasc h.pick
      unfold stepKeep at step
      rw [hl] at step
      simp only at step
      cases hc : compare (key y) (key x) with
      | lt =>
        have hne : compare (key x) (key y) ≠ .eq := by
          intro e; rw [cmp_symm e] at hc; cases hc
        simp only [hne, ↓reduceIte] at step
        have ⟨h1, h2⟩ := step (by intro z hz; cases hz; simp [hc])
        refine ⟨by simp, ?_, h2⟩
        rw [List.take_of_length_le (by simp)]
        exact h1
      | eq =>
        have he : compare (key x) (key y) = .eq := cmp_symm hc
        simp only [he, ↓reduceIte] at step
        have ⟨h1, h2⟩ := step (by intro z hz; cases hz; simp [hc])
        cases keep with
        | first =>
          simp only [reduceCtorEq, ↓reduceIte] at h1 h2 ⊢
          exact ⟨h.le, h.asc, h2⟩
        | last =>
          simp only [↓reduceIte] at h1 h2 ⊢
          refine ⟨?_, ?_, h2⟩
          · simp only [List.length_append, List.length_dropLast, List.length_singleton]; omega
          · rw [List.take_of_length_le]
            · exact h1
            · simp only [List.length_append, List.length_dropLast, List.length_singleton]
              have : s.data ≠ [] := by intro e; rw [e] at hl; cases hl
              have := List.length_pos_iff.2 this
              omega
      | gt => simpa [hs] using happ
  · simp only [hs, ↓reduceIte]
    exact happ

theorem push_inv {keep : Keep} {s : SortAndDedup α} {xs : List α}
    (h : AggInv key keep s xs) (x : α) :
    AggInv key keep (s.push (fun a b => compare (key a) (key b)) keep x) (xs ++ [x]) := by
  unfold SortAndDedup.push
  have h1 := pushElem_inv h x
  simp only
  split
  · split
    · exact (sortAndDedup_inv h1).1
    · exact h1
  · exact h1

theorem foldl_push_inv (keep : Keep) (l : List α) : ∀ (s : SortAndDedup α) (xs : List α),
    AggInv key keep s xs →
    AggInv key keep (l.foldl (SortAndDedup.push (fun a b => compare (key a) (key b)) keep) s)
      (xs ++ l) := by
  induction l with
  | nil => intro s xs h; simpa using h
  | cons x l ih =>
    intro s xs h
    have := ih _ _ (push_inv h x)
    simpa using this

theorem aggInv_init (keep : Keep) : AggInv key keep { data := [], sorted := 0 } [] :=
  ⟨by simp, by simp, fun _ => rfl⟩

/-- **sort_dedup_by_key**: strictly ascending, and the representative of each key is the first/last item with that key. -/
theorem sortDedupByKey_spec (keep : Keep) (l : List α) :
    AscendingBy key (sortDedupByKey keep key l) ∧
      ∀ k, findBy key (sortDedupByKey keep key l) k = pick key keep l k := by
  unfold sortDedupByKey sortDedupBy SortAndDedup.intoInner
  have h := foldl_push_inv (key := key) keep l _ _ (aggInv_init keep)
  rw [List.nil_append] at h
  obtain ⟨h1, h2⟩ := sortAndDedup_inv h
  have hasc := h1.asc
  rw [h2, List.take_length] at hasc
  refine ⟨hasc, fun k => ?_⟩
  rw [← pick_of_ascending (keep := keep) hasc k]
  exact h1.pick k

theorem sortDedup_spec (keep : Keep) (l : List κ) :
    Ascending (sortDedup keep l) ∧
      ∀ k, findBy (fun x => x) (sortDedup keep l) k = pick (fun x => x) keep l k :=
  sortDedupByKey_spec (key := fun x : κ => x) keep l

/-! ### std sort + dedup -/

theorem dedupGo_eq_foldl (last : α) (l : List α) (K : List α) :
    (K ++ [last]) ++ dedupGo (fun a b => compare (key a) (key b) == .eq) last l
      = l.foldl (stepKeep key .first) (K ++ [last]) := by
  induction l generalizing last K with
  | nil => simp [dedupGo]
  | cons x l ih =>
    simp only [dedupGo, List.foldl_cons]
    by_cases he : compare (key x) (key last) = .eq
    · simp only [he, BEq.rfl, ↓reduceIte]
      rw [ih last K]
      congr 1
      simp [stepKeep, he]
    · have hb : (compare (key x) (key last) == .eq) = false := by simpa using he
      simp only [hb, Bool.false_eq_true, ↓reduceIte]
      have : stepKeep key .first (K ++ [last]) x = (K ++ [last]) ++ [x] := by
        simp [stepKeep, he]
      rw [this, ← ih x (K ++ [last])]
      simp

theorem stdSortDedup_spec (l : List α) :
    AscendingBy key (stdDedupBy (fun a b => compare (key a) (key b) == .eq)
      (stableSortBy (fun a b => compare (key a) (key b)) l)) ∧
    ∀ k, findBy key (stdDedupBy (fun a b => compare (key a) (key b) == .eq)
      (stableSortBy (fun a b => compare (key a) (key b)) l)) k = findBy key l k := by
  have hs := stableSort_sorted (key := key) l
  have hp := pick_stableSort (key := key) .first l
  generalize stableSortBy (fun a b => compare (key a) (key b)) l = d at hs hp
  cases d with
  | nil => simpa [stdDedupBy, pick] using hp
  | cons x d =>
    have hs' := List.pairwise_cons.1 hs
    have := foldl_stepKeep_inv (key := key) .first d [x] [x] (by simp [AscendingBy])
      (fun _ => rfl) hs'.2 (by intro y hy z hz; simp at hy; subst hy; exact hs'.1 z hz)
    have e := dedupGo_eq_foldl (key := key) x d []
    rw [List.nil_append] at e
    rw [← e] at this
    refine ⟨this.1, fun k => ?_⟩
    have h2 := this.2 k
    simp only [pick] at h2 hp
    rw [List.singleton_append, List.singleton_append] at h2
    exact h2.trans (hp k)

/-! ### Sizes -/

/-- An ascending list whose keys all occur in another ascending list is not longer. -/
theorem AscendingBy.length_le {β : Type _} {kb : β → κ} {l : List α} {m : List β}
    (hl : AscendingBy key l) (hm : AscendingBy kb m)
    (h : ∀ x ∈ l, ∃ y ∈ m, compare (key x) (kb y) = .eq) : l.length ≤ m.length := by
  induction m generalizing l with
  | nil =>
    cases l with
    | nil => simp
    | cons x l => obtain ⟨y, hy, _⟩ := h x (by simp); cases hy
  | cons y m ih =>
    cases l with
    | nil => simp
    | cons x l =>
      have hm' := ascendingBy_cons.1 hm
      have hl' := ascendingBy_cons.1 hl
      have key' : ∀ z, compare (kb y) (key z) = .lt → (∃ w ∈ y :: m, compare (key z) (kb w) = .eq) →
          ∃ w ∈ m, compare (key z) (kb w) = .eq := by
        rintro z hz ⟨w, hw, e⟩
        rcases List.mem_cons.1 hw with rfl | hw
        · rw [cmp_symm e] at hz; cases hz
        · exact ⟨w, hw, e⟩
      by_cases hxy : compare (key x) (kb y) = .eq
      · have := ih hl'.2 hm'.2 (fun z hz => key' z
          (cmp_lt_of_eq_of_lt (cmp_symm hxy) (hl'.1 z hz)) (h z (by simp [hz])))
        simp; omega
      · obtain ⟨w, hw, e⟩ := h x (by simp)
        have hw : w ∈ m := by
          rcases List.mem_cons.1 hw with rfl | hw
          · exact absurd e hxy
          · exact hw
        have hyx : compare (kb y) (key x) = .lt := cmp_lt_of_lt_of_eq (hm'.1 w hw) (cmp_symm e)
        have := ih hl hm'.2 (fun z hz => key' z (by
          rcases List.mem_cons.1 hz with rfl | hz
          · exact hyx
          · exact cmp_lt_trans hyx (hl'.1 z hz)) (h z hz))
        simp at this ⊢; omega

end Verif
