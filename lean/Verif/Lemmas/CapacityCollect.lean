import Verif.Lemmas.Capacity
import Verif.Lemmas.SetOps
/-! Lemmas for C92: the buffer of `collect`. -/
namespace Verif
open Std

section collect
variable {α : Type _} {cmp : α → α → Ordering} {keep : Keep}

/-- the capacity started at `c0` and the buffer never held more than `B` elements -/
structure BufCap (c0 B : Nat) (st : SortAndDedup α × Nat) : Prop where
  fits : st.1.data.length ≤ st.2
  le : c0 ≤ st.2
  origin : st.2 = c0 ∨ ∃ m, c0 < m ∧ m ≤ B ∧ st.2 = nextPow2 m

theorem pushElem_ge (s : SortAndDedup α) (x : α) : s.data.length ≤ (s.pushElem cmp keep x).data.length := by
  unfold SortAndDedup.pushElem
  split
  · split
    · rename_i h
      split
      · simp
      · split
        · have : s.data ≠ [] := by intro e; rw [e] at h; cases h
          have := List.length_pos_iff.2 this
          simp; omega
        · omega
      · simp
    · simp
  · simp

theorem pushElem_succ (s : SortAndDedup α) (x : α) : (s.pushElem cmp keep x).data.length ≤ s.data.length + 1 := by
  unfold SortAndDedup.pushElem
  split
  · split
    · split
      · simp
      · split
        · simp
        · omega
      · simp
    · simp
  · simp

theorem push_half_sorted (s : SortAndDedup α) (x : α) :
    (s.push cmp keep x).data.length < 16 ∨ (s.push cmp keep x).data.length ≤ 2 * (s.push cmp keep x).sorted := by
  unfold SortAndDedup.push
  simp only
  generalize SortAndDedup.pushElem cmp keep s x = t
  split
  · split
    · unfold SortAndDedup.sortAndDedup
      split
      · right; simp; omega
      · omega
    · omega
  · omega

theorem dedupBy_le (same : α → α → Bool) (d : List α) : (dedupBy same keep d).1.length = d.length := by
  have h : ∀ (fuel : Nat) (d : List α) (i j : Nat), (dedupLoop same keep fuel d i j).1.length = d.length := by
    intro fuel
    induction fuel with
    | zero => intros; rfl
    | succ n ih =>
      intro d i j
      rw [dedupLoop]
      split
      · split
        · simp only
          rw [ih]
          split <;> simp [swapAt_length]
        · split
          · rw [ih, swapAt_length]
          · rw [ih]
      · rfl
  unfold dedupBy
  split
  · rfl
  · exact h _ _ _ _

theorem sortAndDedup_le (s : SortAndDedup α) : (s.sortAndDedup cmp keep).data.length ≤ s.data.length := by
  unfold SortAndDedup.sortAndDedup
  split
  · simp only [List.length_take]
    have := dedupBy_le (keep := keep) (fun a b => cmp a b == .eq) (stableSortBy cmp s.data)
    have := (stableSort_perm cmp s.data).length_eq
    omega
  · exact Nat.le_refl _

theorem push_le_pushElem (s : SortAndDedup α) (x : α) : (s.push cmp keep x).data.length ≤ (s.pushElem cmp keep x).data.length := by
  unfold SortAndDedup.push
  simp only
  split
  · split
    · exact sortAndDedup_le _
    · exact Nat.le_refl _
  · exact Nat.le_refl _

theorem dedupPush_bufCap {c0 B : Nat} {st : SortAndDedup α × Nat} (h : BufCap c0 B st) (x : α) (hB : (st.1.pushElem cmp keep x).data.length ≤ B) :
    BufCap c0 B (dedupPushCap cmp keep st x) := by
  obtain ⟨s, cap⟩ := st
  obtain ⟨h1, h2, h3⟩ := h
  simp only at h1 h2 h3 hB
  have hp : (s.pushElem cmp keep x).data.length ≤ s.data.length + 1 := pushElem_succ s x
  have hg := pushElem_ge (cmp := cmp) (keep := keep) s x
  have hl := push_le_pushElem (cmp := cmp) (keep := keep) s x
  unfold dedupPushCap
  simp only
  rcases Nat.lt_or_ge s.data.length (s.pushElem cmp keep x).data.length with hlt | hge
  · have e : (s.pushElem cmp keep x).data.length - s.data.length = 0 + 1 := by omega
    rw [e, pushesCap, pushesCap, reserveCap]
    split
    · exact ⟨by simp only; omega, h2, h3⟩
    · have := le_nextPow2 (s.data.length + 1)
      exact ⟨by simp only; omega, by simp only; omega, .inr ⟨s.data.length + 1, by omega, by omega, rfl⟩⟩
  · have e : (s.pushElem cmp keep x).data.length - s.data.length = 0 := by omega
    rw [e, pushesCap]
    exact ⟨by simp only; omega, h2, h3⟩

theorem foldl_fst (l : List α) : ∀ st : SortAndDedup α × Nat, (l.foldl (dedupPushCap cmp keep) st).1 = l.foldl (SortAndDedup.push cmp keep) st.1 := by
  induction l with
  | nil => intro st; rfl
  | cons x l ih => intro st; rw [List.foldl_cons, List.foldl_cons, ih]; rfl

/-- capacity of the buffer of `collect`, from a bound on what it holds -/
theorem sortDedupCap_spec (N hint B : Nat) (l : List α)
    (hB : ∀ before x after, l = before ++ x :: after → ((before.foldl (SortAndDedup.push cmp keep) { data := [], sorted := 0 }).pushElem cmp keep x).data.length ≤ B) :
    BufCap (withCap N (min hint 16)) B (l.foldl (dedupPushCap cmp keep) ({ data := [], sorted := 0 }, withCap N (min hint 16))) := by
  have h : ∀ (rest before : List α), l = before ++ rest →
      BufCap (withCap N (min hint 16)) B (before.foldl (dedupPushCap cmp keep) ({ data := [], sorted := 0 }, withCap N (min hint 16))) →
      BufCap (withCap N (min hint 16)) B (l.foldl (dedupPushCap cmp keep) ({ data := [], sorted := 0 }, withCap N (min hint 16))) := by
    intro rest
    induction rest with
    | nil => intro before e h; rw [e, List.append_nil]; exact h
    | cons x rest ih =>
      intro before e h
      refine ih (before ++ [x]) (by simp [e]) ?_
      rw [List.foldl_append, List.foldl_cons, List.foldl_nil]
      exact dedupPush_bufCap h x (by rw [foldl_fst]; exact hB before x rest e)
  exact h l [] rfl ⟨Nat.zero_le _, Nat.le_refl _, .inl rfl⟩

theorem fold_len_le (before : List α) : (before.foldl (SortAndDedup.push cmp keep) { data := [], sorted := 0 }).data.length ≤ before.length := by
  have : ∀ (l : List α) (s : SortAndDedup α), (l.foldl (SortAndDedup.push cmp keep) s).data.length ≤ s.data.length + l.length := by
    intro l
    induction l with
    | nil => intro s; simp
    | cons x l ih =>
      intro s
      rw [List.foldl_cons]
      have h1 := ih (s.push cmp keep x)
      have h2 := push_le_pushElem (cmp := cmp) (keep := keep) s x
      have h3 : (s.pushElem cmp keep x).data.length ≤ s.data.length + 1 := pushElem_succ s x
      simp only [List.length_cons]
      omega
  simpa using this before { data := [], sorted := 0 }

end collect

section key
variable {α κ : Type _} [Ord κ] [TransOrd κ] {key : α → κ} {keep : Keep}

theorem fold_sorted_le (l m : List α) :
    (l.foldl (SortAndDedup.push (fun a b => compare (key a) (key b)) keep) { data := [], sorted := 0 }).sorted ≤ (sortDedupByKey keep key (l ++ m)).length := by
  have h := foldl_push_inv (key := key) keep l _ _ (aggInv_init keep)
  rw [List.nil_append] at h
  generalize l.foldl (SortAndDedup.push (fun a b => compare (key a) (key b)) keep) { data := [], sorted := 0 } = s at h ⊢
  have h1 : (s.data.take s.sorted).length = s.sorted := by have := h.le; simp; omega
  rw [← h1]
  have hs := sortDedupByKey_spec (key := key) keep (l ++ m)
  refine AscendingBy.length_le (key := key) (kb := key) h.asc hs.1 ?_
  intro x hx
  have hx' : x ∈ s.data := List.mem_of_mem_take hx
  have n1 : pick key keep s.data (key x) ≠ none := by
    rw [Ne, pick_none]
    intro hn
    exact hn x hx' ReflCmp.compare_self
  have n2 : pick key keep (l ++ m) (key x) ≠ none := by
    rw [h.pick, Ne, pick_none] at n1
    rw [Ne, pick_none]
    intro hn
    exact n1 fun y hy => hn y (by simp [hy])
  rw [← hs.2] at n2
  obtain ⟨y, hy⟩ := Option.ne_none_iff_exists'.1 n2
  have := List.mem_of_find?_eq_some hy
  have e := List.find?_some hy
  refine ⟨y, this, ?_⟩
  have : compare (key y) (key x) = .eq := by simpa using e
  exact cmp_symm this

theorem fold_half (l : List α) :
    (l.foldl (SortAndDedup.push (fun a b => compare (key a) (key b)) keep) { data := [], sorted := 0 }).data.length < 16 ∨
    (l.foldl (SortAndDedup.push (fun a b => compare (key a) (key b)) keep) { data := [], sorted := 0 }).data.length
      ≤ 2 * (l.foldl (SortAndDedup.push (fun a b => compare (key a) (key b)) keep) { data := [], sorted := 0 }).sorted := by
  rcases List.eq_nil_or_concat l with rfl | ⟨l, x, rfl⟩
  · simp
  · simp only [List.concat_eq_append, List.foldl_append, List.foldl_cons, List.foldl_nil]
    exact push_half_sorted _ _

/-- at most `max 16 (2 n + 1)` elements, where `n` is the length of the result -/
theorem buffer_bound (before after : List α) (x : α) :
    ((before.foldl (SortAndDedup.push (fun a b => compare (key a) (key b)) keep) { data := [], sorted := 0 }).pushElem (fun a b => compare (key a) (key b)) keep x).data.length
      ≤ max 16 (2 * (sortDedupByKey keep key (before ++ x :: after)).length + 1) := by
  have h1 := fold_half (key := key) (keep := keep) before
  have h2 := fold_sorted_le (key := key) (keep := keep) before (x :: after)
  have h5 := pushElem_succ (cmp := fun a b => compare (key a) (key b)) (keep := keep)
    (before.foldl (SortAndDedup.push (fun a b => compare (key a) (key b)) keep) { data := [], sorted := 0 }) x
  omega

/-- a non-descending input is never buffered unsorted -/
theorem fold_sorted (before : List α) : ∀ rest, (before ++ rest).Pairwise (fun x y => compare (key x) (key y) ≠ .gt) →
    (before.foldl (SortAndDedup.push (fun a b => compare (key a) (key b)) keep) { data := [], sorted := 0 }).sorted =
      (before.foldl (SortAndDedup.push (fun a b => compare (key a) (key b)) keep) { data := [], sorted := 0 }).data.length ∧
    ∀ e ∈ (before.foldl (SortAndDedup.push (fun a b => compare (key a) (key b)) keep) { data := [], sorted := 0 }).data, e ∈ before := by
  rcases List.eq_nil_or_concat before with rfl | ⟨l, x, rfl⟩
  · intro rest _; simp
  · intro rest h
    simp only [List.concat_eq_append, List.append_assoc, List.singleton_append] at h
    have ih := fold_sorted l (x :: rest) h
    simp only [List.concat_eq_append, List.foldl_append, List.foldl_cons, List.foldl_nil]
    generalize l.foldl (SortAndDedup.push (fun a b => compare (key a) (key b)) keep) { data := [], sorted := 0 } = s at ih ⊢
    obtain ⟨h1, h2⟩ := ih
    have hx : ∀ y ∈ l, compare (key y) (key x) ≠ .gt := fun y hy => (List.pairwise_append.1 h).2.2 y hy x (by simp)
    have hp : (s.pushElem (fun a b => compare (key a) (key b)) keep x).sorted = (s.pushElem (fun a b => compare (key a) (key b)) keep x).data.length ∧
        ∀ e ∈ (s.pushElem (fun a b => compare (key a) (key b)) keep x).data, e ∈ l ++ [x] := by
      unfold SortAndDedup.pushElem
      rw [if_pos h1]
      cases hl : s.data.getLast? with
      | none =>
        refine ⟨by simp [h1], fun e he => ?_⟩
        simp only [List.mem_append, List.mem_singleton] at he ⊢
        exact he.imp (h2 e) id
      | some last =>
        simp only
        have hm : last ∈ s.data := List.mem_of_getLast? hl
        have hne := hx last (h2 last hm)
        cases hc : compare (key last) (key x) with
        | lt =>
          refine ⟨by simp [h1], fun e he => ?_⟩
          simp only [List.mem_append, List.mem_singleton] at he ⊢
          exact he.imp (h2 e) id
        | eq =>
          simp only
          split
          · have : s.data ≠ [] := by intro e; rw [e] at hm; cases hm
            have := List.length_pos_iff.2 this
            refine ⟨by simp [h1]; omega, fun e he => ?_⟩
            simp only [List.mem_append, List.mem_singleton] at he ⊢
            exact he.imp (fun he => h2 e (List.dropLast_subset _ he)) id
          · exact ⟨h1, fun e he => by simp [h2 e he]⟩
        | gt => exact absurd hc hne
    unfold SortAndDedup.push
    simp only
    have e : ¬ ((s.pushElem (fun a b => compare (key a) (key b)) keep x).data.length - (s.pushElem (fun a b => compare (key a) (key b)) keep x).sorted >
        (s.pushElem (fun a b => compare (key a) (key b)) keep x).sorted) := by rw [hp.1]; omega
    rw [if_neg e]
    simp only [ite_self]
    exact hp
termination_by before.length

theorem sorted_buffer_bound (before after : List α) (x : α) (h : (before ++ x :: after).Pairwise (fun x y => compare (key x) (key y) ≠ .gt)) :
    ((before.foldl (SortAndDedup.push (fun a b => compare (key a) (key b)) keep) { data := [], sorted := 0 }).pushElem (fun a b => compare (key a) (key b)) keep x).data.length
      ≤ (sortDedupByKey keep key (before ++ x :: after)).length := by
  have h1 := fold_sorted (key := key) (keep := keep) before (x :: after) h
  have h2 := fold_sorted (key := key) (keep := keep) (before ++ [x]) after (by simpa using h)
  have h3 := fold_sorted_le (key := key) (keep := keep) (before ++ [x]) after
  simp only [List.foldl_append, List.foldl_cons, List.foldl_nil, List.append_assoc, List.singleton_append] at h2 h3
  refine Nat.le_trans ?_ h3
  rw [h2.1]
  have hx : ∀ y ∈ before, compare (key y) (key x) ≠ .gt := fun y hy => (List.pairwise_append.1 h).2.2 y hy x (by simp)
  generalize before.foldl (SortAndDedup.push (fun a b => compare (key a) (key b)) keep) { data := [], sorted := 0 } = s at h1 ⊢
  have hp : (s.pushElem (fun a b => compare (key a) (key b)) keep x).sorted = (s.pushElem (fun a b => compare (key a) (key b)) keep x).data.length := by
    unfold SortAndDedup.pushElem
    rw [if_pos h1.1]
    cases hl : s.data.getLast? with
    | none => simp [h1.1]
    | some last =>
      simp only
      have hm : last ∈ s.data := List.mem_of_getLast? hl
      have hne := hx last (h1.2 last hm)
      cases hc : compare (key last) (key x) with
      | lt => simp [h1.1]
      | eq =>
        simp only
        split
        · have : s.data ≠ [] := by intro e; rw [e] at hm; cases hm
          have := List.length_pos_iff.2 this
          simp [h1.1]; omega
        · exact h1.1
      | gt => exact absurd hc hne
  unfold SortAndDedup.push
  simp only
  have e : ¬ ((s.pushElem (fun a b => compare (key a) (key b)) keep x).data.length - (s.pushElem (fun a b => compare (key a) (key b)) keep x).sorted >
      (s.pushElem (fun a b => compare (key a) (key b)) keep x).sorted) := by rw [hp]; omega
  rw [if_neg e]
  simp only [ite_self]
  exact Nat.le_refl _

end key
end Verif
