import Verif.Lemmas.Cost
import Verif.Lemmas.Merge
/-! Counting the comparisons of a merge. -/
namespace Verif
open Std

theorem bsLoop_lt {α : Type _} (f : α → Ordering) (l : List α) :
    ∀ (size base : Nat), 1 ≤ size → base + size ≤ l.length → bsLoop f l base size < l.length := by
  intro size
  induction size using Nat.strongRecOn with
  | _ size ih =>
    intro base h1 h2
    rw [bsLoop]
    by_cases hs : size > 1
    · simp only [hs, ↓reduceDIte]
      have hm : base + size / 2 < l.length := by omega
      rw [List.getElem?_eq_getElem hm]
      simp only
      split
      · exact ih _ (by omega) _ (by omega) (by omega)
      · exact ih _ (by omega) _ (by omega) (by omega)
    · simp only [hs, ↓reduceDIte]
      omega

/-- positions found are in range, whatever the comparison says -/
theorem binarySearchBy_range {α : Type _} (f : α → Ordering) (l : List α) :
    match binarySearchBy f l with
    | .found i => i < l.length
    | .notFound i => i ≤ l.length := by
  unfold binarySearchBy
  by_cases h0 : l.length = 0
  · simp [h0]
  · simp only [if_neg h0]
    have hlt := bsLoop_lt f l l.length 0 (by omega) (by omega)
    rw [List.getElem?_eq_getElem hlt]
    simp only
    cases f l[bsLoop f l 0 l.length] <;> simp only <;> omega

theorem log2_mono {a b : Nat} (h : a ≤ b) : Nat.log2 a ≤ Nat.log2 b := by
  by_cases ha : a = 0
  · subst ha; simp
  · exact (Nat.le_log2 (by omega)).2 (Nat.le_trans (Nat.log2_self_le ha) h)

variable {σ A B : Type} [MergeState σ A B]

/-- the search of the merge driver, counted -/
theorem search_runs (cmp : A → B → Ordering) (a : A) (bs : List B) :
    ∃ k, Runs (binarySearchByM (fun b => do let o ← tick2 cmp a b; pure o.swap) bs)
      (binarySearchBy (fun b => (cmp a b).swap) bs) k [] ∧ k ≤ Nat.log2 bs.length + 2 ∧ (bs.length = 0 → k = 0) := by
  obtain ⟨k, h1, h2, h3, h4⟩ := binarySearchBy_runs (fun b => (cmp a b).swap)
    (fun b => do let o ← tick2 cmp a b; pure o.swap)
    bs (fun b _ => Runs.bind (k := 1) (k' := 0) (ss := []) (ss' := []) (Runs.tick cmp a b) (Runs.pure _))
  exact ⟨k, h1, searchCost_log h2 h3 h4⟩

/-- **Merging** `an` elements with `bn`: at most `an (log2 bn + 2)` comparisons, and none if one side is empty. -/
theorem binaryMerge_runs (op : MergeOp σ A B) : ∀ (an bn : Nat) (s : σ),
    ∃ k, Runs (binaryMergeM (tick2 op.cmp) op s an bn) (binaryMerge op s an bn) k [] ∧
      k ≤ an * (Nat.log2 bn + 2) ∧ (bn = 0 → k = 0) := by
  intro an
  induction an using Nat.strongRecOn with
  | _ an ih =>
  intro bn s
  rw [binaryMergeM, binaryMerge]
  by_cases h0 : an = 0
  · simp only [h0, ↓reduceDIte]
    split
    · exact ⟨0, Runs.pure _, by omega, fun _ => rfl⟩
    · exact ⟨0, Runs.pure _, by omega, fun _ => rfl⟩
  · simp only [h0, ↓reduceDIte]
    by_cases hb0 : bn = 0
    · simp only [hb0, ↓reduceIte]
      exact ⟨0, Runs.pure _, by omega, fun _ => rfl⟩
    · simp only [if_neg hb0]
      cases (MergeState.aSlice s)[an / 2]? with
      | none => exact ⟨0, Runs.pure _, by omega, fun _ => rfl⟩
      | some a =>
        simp only
        split
        · exact ⟨0, Runs.pure _, by omega, fun _ => rfl⟩
        · rename_i hlen
          have hl : ((MergeState.bSlice s).take bn).length = bn := by simp; omega
          obtain ⟨k1, r1, b1, _⟩ := search_runs op.cmp a ((MergeState.bSlice s).take bn)
          rw [hl] at b1
          have rng := binarySearchBy_range (fun b => (op.cmp a b).swap) ((MergeState.bSlice s).take bn)
          rw [hl] at rng
          generalize binarySearchBy (fun b => (op.cmp a b).swap) ((MergeState.bSlice s).take bn) = res at r1 rng ⊢
          have arith : ∀ {x y k2 k3 : Nat}, x ≤ bn → y ≤ bn → k2 ≤ (an / 2) * (Nat.log2 x + 2) →
              k3 ≤ (an - an / 2 - 1) * (Nat.log2 y + 2) → k1 + (k2 + k3) ≤ an * (Nat.log2 bn + 2) := by
            intro x y k2 k3 hx hy h2 h3
            have e2 := Nat.mul_le_mul_left (an / 2) (Nat.add_le_add_right (log2_mono hx) 2)
            have e3 := Nat.mul_le_mul_left (an - an / 2 - 1) (Nat.add_le_add_right (log2_mono hy) 2)
            have e4 : an * (Nat.log2 bn + 2)
                = (1 + an / 2 + (an - an / 2 - 1)) * (Nat.log2 bn + 2) := by congr 1; omega
            rw [e4, Nat.add_mul, Nat.add_mul]
            omega
          cases res with
          | found bm =>
            simp only at rng
            obtain ⟨k2, r2, b2, _⟩ := ih (an / 2) (by omega) bm s
            suffices h : ∃ k3, Runs (match (binaryMerge op s (an / 2) bm).2 with
                | .cont => match (op.collision (binaryMerge op s (an / 2) bm).1).2 with
                  | .cont => binaryMergeM (tick2 op.cmp) op (op.collision (binaryMerge op s (an / 2) bm).1).1 (an - an / 2 - 1) (bn - bm - 1)
                  | _ => pure (op.collision (binaryMerge op s (an / 2) bm).1)
                | _ => pure (binaryMerge op s (an / 2) bm))
                (andThen (binaryMerge op s (an / 2) bm) fun m => andThen (op.collision m) fun m =>
                  binaryMerge op m (an - an / 2 - 1) (bn - bm - 1)) k3 [] ∧ k3 ≤ (an - an / 2 - 1) * (Nat.log2 (bn - bm - 1) + 2) by
              obtain ⟨k3, r3, b3⟩ := h
              exact ⟨k1 + (k2 + k3), Runs.bind r1 (Runs.bind r2 r3), arith (by omega) (by omega) b2 b3, fun h => absurd h (by omega)⟩
            unfold andThen
            cases hf : (binaryMerge op s (an / 2) bm).2 with
            | cont =>
              simp only
              cases hf2 : (op.collision (binaryMerge op s (an / 2) bm).1).2 with
              | cont =>
                simp only
                obtain ⟨k3, r3, b3, _⟩ := ih (an - an / 2 - 1) (by omega) (bn - bm - 1) (op.collision (binaryMerge op s (an / 2) bm).1).1
                exact ⟨k3, r3, b3⟩
              | stop => exact ⟨0, Runs.pure _, by omega⟩
              | panic => exact ⟨0, Runs.pure _, by omega⟩
            | stop => exact ⟨0, Runs.pure _, by omega⟩
            | panic => exact ⟨0, Runs.pure _, by omega⟩
          | notFound bi =>
            simp only at rng
            obtain ⟨k2, r2, b2, _⟩ := ih (an / 2) (by omega) bi s
            suffices h : ∃ k3, Runs (match (binaryMerge op s (an / 2) bi).2 with
                | .cont => match (op.fromA (binaryMerge op s (an / 2) bi).1 1).2 with
                  | .cont => binaryMergeM (tick2 op.cmp) op (op.fromA (binaryMerge op s (an / 2) bi).1 1).1 (an - an / 2 - 1) (bn - bi)
                  | _ => pure (op.fromA (binaryMerge op s (an / 2) bi).1 1)
                | _ => pure (binaryMerge op s (an / 2) bi))
                (andThen (binaryMerge op s (an / 2) bi) fun m => andThen (op.fromA m 1) fun m =>
                  binaryMerge op m (an - an / 2 - 1) (bn - bi)) k3 [] ∧ k3 ≤ (an - an / 2 - 1) * (Nat.log2 (bn - bi) + 2) by
              obtain ⟨k3, r3, b3⟩ := h
              exact ⟨k1 + (k2 + k3), Runs.bind r1 (Runs.bind r2 r3), arith (by omega) (by omega) b2 b3, fun h => absurd h (by omega)⟩
            unfold andThen
            cases hf : (binaryMerge op s (an / 2) bi).2 with
            | cont =>
              simp only
              cases hf2 : (op.fromA (binaryMerge op s (an / 2) bi).1 1).2 with
              | cont =>
                simp only
                obtain ⟨k3, r3, b3, _⟩ := ih (an - an / 2 - 1) (by omega) (bn - bi) (op.fromA (binaryMerge op s (an / 2) bi).1 1).1
                exact ⟨k3, r3, b3⟩
              | stop => exact ⟨0, Runs.pure _, by omega⟩
              | panic => exact ⟨0, Runs.pure _, by omega⟩
            | stop => exact ⟨0, Runs.pure _, by omega⟩
            | panic => exact ⟨0, Runs.pure _, by omega⟩


/-- number of pivots looked up when the two inputs do not overlap -/
def pivots (n : Nat) : Nat := if n = 0 then 0 else Nat.log2 n + 1

theorem pivots_half {n m : Nat} (hn : n ≠ 0) (hm : m ≤ n / 2) : pivots m + 1 ≤ pivots n := by
  unfold pivots
  simp only [if_neg hn]
  by_cases h0 : m = 0
  · simp [h0]
  · simp only [if_neg h0]
    have h1 := log2_mono hm
    have h2 : Nat.log2 (n / 2) + 1 = Nat.log2 n := by
      have e := Nat.log2_def n
      rw [if_pos (by omega : 2 ≤ n)] at e
      exact e.symm
    omega

variable {R κ : Type _} [Ord κ] [TransOrd κ] {ka : A → κ} {kb : B → κ} {op : MergeOp σ A B} {out : σ → List R}
  {inv : σ → Prop} {fa : A → Emit R} {fb : B → Emit R} {fc : A → B → Emit R}

/-- a search below everything / above everything -/
theorem search_outside {f : B → Ordering} {bs : List B} {o : Ordering} (ho : o ≠ .eq) (h : ∀ y ∈ bs, f y = o) (hm : Mono f bs) :
    binarySearchBy f bs = .notFound (if o = .gt then 0 else bs.length) := by
  have spec := binarySearchBy_spec hm
  cases hr : binarySearchBy f bs with
  | found i =>
    rw [hr] at spec
    obtain ⟨lo, x, hi, hbs, _, hx, _⟩ := spec
    exact absurd ((h x (by rw [hbs]; simp)).symm.trans hx) ho
  | notFound i =>
    rw [hr] at spec
    obtain ⟨lo, hi, hbs, hlo, hlt, hgt⟩ := spec
    cases o with
    | eq => exact absurd rfl ho
    | lt =>
      have : hi = [] := by
        cases hi with
        | nil => rfl
        | cons y hi => exact absurd ((h y (by rw [hbs]; simp)).symm.trans (hgt y (by simp))) (by simp)
      subst this
      simp [← hlo, hbs]
    | gt =>
      have : lo = [] := by
        cases lo with
        | nil => rfl
        | cons y lo => exact absurd ((h y (by rw [hbs]; simp)).symm.trans (hlt y (by simp))) (by simp)
      subst this
      simp [← hlo]

/-- **Merging two inputs that do not overlap** (all of `as` below, or all of `as` above `bs`) needs a number of comparisons that is only
logarithmic in both lengths. -/
theorem binaryMerge_separated (impl : Implements op out inv fa fb fc) (hcmp : ∀ a b, op.cmp a b = compare (ka a) (kb b))
    (o : Ordering) (ho : o ≠ .eq) :
    ∀ (as : List A) (bs : List B) (as2 : List A) (bs2 : List B) (s : σ), inv s → AscendingBy ka as → AscendingBy kb bs →
      (∀ x ∈ as, ∀ y ∈ bs, op.cmp x y = o) →
      MergeState.aSlice s = as ++ as2 → MergeState.bSlice s = bs ++ bs2 →
      ∃ k, Runs (binaryMergeM (tick2 op.cmp) op s as.length bs.length) (binaryMerge op s as.length bs.length) k [] ∧
        k ≤ pivots as.length * (Nat.log2 bs.length + 2) := by
  intro as
  induction hl : as.length using Nat.strongRecOn generalizing as with
  | _ len ih =>
  intro bs as2 bs2 s hi0 ha hb hsep hsa hsb
  subst hl
  by_cases h0 : as.length = 0
  · obtain ⟨k, r, b, _⟩ := binaryMerge_runs op as.length bs.length s
    exact ⟨k, r, by rw [h0] at b; omega⟩
  by_cases hb0 : bs.length = 0
  · obtain ⟨k, r, _, b⟩ := binaryMerge_runs op as.length bs.length s
    exact ⟨k, r, by rw [b hb0]; omega⟩
  have hm : as.length / 2 < as.length := by omega
  have hbl : ¬ (MergeState.bSlice s : List B).length < bs.length := by rw [hsb]; simp
  have hget : (MergeState.aSlice s : List A)[as.length / 2]? = some as[as.length / 2] := by
    rw [hsa, List.getElem?_append_left hm, List.getElem?_eq_getElem hm]
  have htake : (MergeState.bSlice s : List B).take bs.length = bs := by rw [hsb]; simp
  have split : as = as.take (as.length / 2) ++ as[as.length / 2] :: as.drop (as.length / 2 + 1) := by
    rw [← List.drop_eq_getElem_cons hm, List.take_append_drop]
  have hxmem : as[as.length / 2] ∈ as := List.getElem_mem hm
  rw [binaryMergeM, binaryMerge]
  simp only [h0, hb0, ↓reduceDIte, ↓reduceIte, hget, hbl, htake]
  generalize as[as.length / 2] = x at split hxmem ⊢
  have hpiv : ∀ m, m ≤ as.length / 2 → pivots m + 1 ≤ pivots as.length := fun m h => pivots_half h0 h
  have hrl : as.length - as.length / 2 - 1 ≤ as.length / 2 := by omega
  generalize hmid : as.length / 2 = am at hm split hpiv hrl ⊢
  have hres := search_outside (f := fun b => (op.cmp x b).swap) (bs := bs) (o := o.swap)
    (by cases o <;> simp at ho ⊢) (fun y hy => by rw [hsep x hxmem y hy]) (by simpa [hcmp] using mono_swap hb (ka x))
  obtain ⟨k1, r1, b1, _⟩ := search_runs op.cmp x bs
  have ha' := ha
  rw [split, ascendingBy_append, ascendingBy_cons] at ha'
  obtain ⟨ha1, ⟨_, ha2⟩, _⟩ := ha'
  have hl1 : (as.take am).length = am := by simp; omega
  have hl2 : (as.drop (am + 1)).length = as.length - am - 1 := by simp; omega
  have hsa1 : (MergeState.aSlice s : List A) = as.take am ++ (x :: (as.drop (am + 1) ++ as2)) := by
    rw [hsa]; conv => lhs; rw [split]
    simp
  have step : ∀ {p q : Nat}, q ≤ pivots p * (Nat.log2 bs.length + 2) → p ≤ am →
      k1 + q ≤ pivots as.length * (Nat.log2 bs.length + 2) := by
    intro p q hq hp
    have e := Nat.mul_le_mul_right (Nat.log2 bs.length + 2) (hpiv p hp)
    rw [Nat.add_mul] at e
    omega
  rw [hres] at r1 ⊢
  simp only
  cases o with
  | eq => exact absurd rfl ho
  | lt =>
    simp only [Ordering.swap_lt, ↓reduceIte] at r1 ⊢
    obtain ⟨k2, r2, _, b2⟩ := binaryMerge_runs op am 0 s
    have bm0 := binaryMerge_eq_run impl hcmp (as.take am) [] _ (bs ++ bs2) s hi0 ha1 (by simp [AscendingBy]) hsa1 (by simpa using hsb)
    rw [hl1] at bm0
    simp only [List.length_nil] at bm0
    have st := run_legal impl (planBin_legal hcmp (as.take am) [] ha1 (by simp [AscendingBy])) s _ (bs ++ bs2) hi0 hsa1 (by simpa using hsb)
    rw [← bm0] at st
    suffices h : ∃ k3, Runs (match (binaryMerge op s am 0).2 with
        | .cont => match (op.fromA (binaryMerge op s am 0).1 1).2 with
          | .cont => binaryMergeM (tick2 op.cmp) op (op.fromA (binaryMerge op s am 0).1 1).1 (as.length - am - 1) (bs.length - 0)
          | _ => pure (op.fromA (binaryMerge op s am 0).1 1)
        | _ => pure (binaryMerge op s am 0))
        (andThen (binaryMerge op s am 0) fun m => andThen (op.fromA m 1) fun m =>
          binaryMerge op m (as.length - am - 1) (bs.length - 0)) k3 [] ∧
        k3 ≤ pivots (as.length - am - 1) * (Nat.log2 bs.length + 2) by
      obtain ⟨k3, r3, b3⟩ := h
      refine ⟨k1 + (k2 + k3), Runs.bind r1 (Runs.bind r2 r3), ?_⟩
      rw [b2 rfl, Nat.zero_add]
      exact step b3 (by omega)
    unfold andThen
    cases hf : (binaryMerge op s am 0).2 with
    | cont =>
      simp only
      have st2 := impl.fromA (binaryMerge op s am 0).1 1 (st.inv hf) (by omega) (by rw [st.a hf]; simp)
      cases hf2 : (op.fromA (binaryMerge op s am 0).1 1).2 with
      | cont =>
        simp only
        have := ih (as.length - am - 1) (by omega) (as.drop (am + 1)) hl2 bs as2 bs2 _ (st2.inv hf2) ha2 hb
          (fun z hz y hy => hsep z (List.mem_of_mem_drop hz) y hy)
          (by rw [st2.a hf2, st.a hf]; simp) (by rw [st2.b hf2, st.b hf])
        exact this
      | stop => exact ⟨0, Runs.pure _, by omega⟩
      | panic => exact ⟨0, Runs.pure _, by omega⟩
    | stop => exact ⟨0, Runs.pure _, by omega⟩
    | panic => exact ⟨0, Runs.pure _, by omega⟩
  | gt =>
    simp only [Ordering.swap_gt, reduceCtorEq, ↓reduceIte] at r1 ⊢
    obtain ⟨k2, r2, b2⟩ := ih am hm (as.take am) hl1 bs _ bs2 s hi0 ha1 hb
      (fun z hz y hy => hsep z (List.mem_of_mem_take hz) y hy) hsa1 hsb
    suffices h : ∃ k3, Runs (match (binaryMerge op s am bs.length).2 with
        | .cont => match (op.fromA (binaryMerge op s am bs.length).1 1).2 with
          | .cont => binaryMergeM (tick2 op.cmp) op (op.fromA (binaryMerge op s am bs.length).1 1).1 (as.length - am - 1) (bs.length - bs.length)
          | _ => pure (op.fromA (binaryMerge op s am bs.length).1 1)
        | _ => pure (binaryMerge op s am bs.length))
        (andThen (binaryMerge op s am bs.length) fun m => andThen (op.fromA m 1) fun m =>
          binaryMerge op m (as.length - am - 1) (bs.length - bs.length)) k3 [] ∧ k3 = 0 by
      obtain ⟨k3, r3, b3⟩ := h
      refine ⟨k1 + (k2 + k3), Runs.bind r1 (Runs.bind r2 r3), ?_⟩
      rw [b3, Nat.add_zero]
      exact step b2 (Nat.le_refl _)
    unfold andThen
    cases hf : (binaryMerge op s am bs.length).2 with
    | cont =>
      simp only
      cases hf2 : (op.fromA (binaryMerge op s am bs.length).1 1).2 with
      | cont =>
        simp only [Nat.sub_self]
        obtain ⟨k3, r3, _, b3⟩ := binaryMerge_runs op (as.length - am - 1) 0 (op.fromA (binaryMerge op s am bs.length).1 1).1
        exact ⟨k3, r3, b3 rfl⟩
      | stop => exact ⟨0, Runs.pure _, rfl⟩
      | panic => exact ⟨0, Runs.pure _, rfl⟩
    | stop => exact ⟨0, Runs.pure _, rfl⟩
    | panic => exact ⟨0, Runs.pure _, rfl⟩

end Verif
