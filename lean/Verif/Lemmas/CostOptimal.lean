import Verif.Lemmas.CostMerge
/-!
# Merging needs as few comparisons as are needed at all, up to a constant factor

To tell in which of the `(n + m)! / (n! m!)` possible ways `n` and `m` elements interleave takes about `m log (n / m)` comparisons if `m ≤ n`. The bound is proved by estimating
the logarithm in the cost of a search by its tangents: `log2 m ≤ t + m / 2 ^ t` for all `t`, one `t` for each level of the recursion. That is linear in `m`, so that it does not
matter how the searches split the second input.
-/
namespace Verif
open Std

variable {σ A B : Type} [MergeState σ A B]

/-- The work of a merge satisfies whatever is true of no work, and of a search and two smaller merges. -/
theorem binaryMerge_bound (op : MergeOp σ A B) (P : Nat → Nat → Nat → Prop) (h0 : ∀ an bn, P an bn 0)
    (hs : ∀ an bn k1 k2 k3 x y, an ≠ 0 → bn ≠ 0 → k1 ≤ Nat.log2 bn + 2 → x + y ≤ bn → P (an / 2) x k2 → P (an - an / 2 - 1) y k3 → P an bn (k1 + (k2 + k3))) :
    ∀ (an bn : Nat) (s : σ), ∃ k, Runs (binaryMergeM (tick2 op.cmp) op s an bn) (binaryMerge op s an bn) k [] ∧ P an bn k := by
  intro an
  induction an using Nat.strongRecOn with
  | _ an ih =>
  intro bn s
  rw [binaryMergeM, binaryMerge]
  by_cases h0' : an = 0
  · simp only [h0', ↓reduceDIte]
    split
    · exact ⟨0, Runs.pure _, h0 _ _⟩
    · exact ⟨0, Runs.pure _, h0 _ _⟩
  · simp only [h0', ↓reduceDIte]
    by_cases hb0 : bn = 0
    · simp only [hb0, ↓reduceIte]
      exact ⟨0, Runs.pure _, h0 _ _⟩
    · simp only [if_neg hb0]
      cases (MergeState.aSlice s)[an / 2]? with
      | none => exact ⟨0, Runs.pure _, h0 _ _⟩
      | some a =>
        simp only
        split
        · exact ⟨0, Runs.pure _, h0 _ _⟩
        · rename_i hlen
          have hl : ((MergeState.bSlice s).take bn).length = bn := by simp; omega
          obtain ⟨k1, r1, b1, _⟩ := search_runs op.cmp a ((MergeState.bSlice s).take bn)
          rw [hl] at b1
          have rng := binarySearchBy_range (fun b => (op.cmp a b).swap) ((MergeState.bSlice s).take bn)
          rw [hl] at rng
          generalize binarySearchBy (fun b => (op.cmp a b).swap) ((MergeState.bSlice s).take bn) = res at r1 rng ⊢
          cases res with
          | found bm =>
            simp only at rng
            obtain ⟨k2, r2, b2⟩ := ih (an / 2) (by omega) bm s
            suffices h : ∃ k3, Runs (match (binaryMerge op s (an / 2) bm).2 with
                | .cont => match (op.collision (binaryMerge op s (an / 2) bm).1).2 with
                  | .cont => binaryMergeM (tick2 op.cmp) op (op.collision (binaryMerge op s (an / 2) bm).1).1 (an - an / 2 - 1) (bn - bm - 1)
                  | _ => pure (op.collision (binaryMerge op s (an / 2) bm).1)
                | _ => pure (binaryMerge op s (an / 2) bm))
                (andThen (binaryMerge op s (an / 2) bm) fun m => andThen (op.collision m) fun m =>
                  binaryMerge op m (an - an / 2 - 1) (bn - bm - 1)) k3 [] ∧ P (an - an / 2 - 1) (bn - bm - 1) k3 by
              obtain ⟨k3, r3, b3⟩ := h
              exact ⟨k1 + (k2 + k3), Runs.bind r1 (Runs.bind r2 r3), hs an bn k1 k2 k3 _ _ h0' hb0 b1 (by omega) b2 b3⟩
            unfold andThen
            cases hf : (binaryMerge op s (an / 2) bm).2 with
            | cont =>
              simp only
              cases hf2 : (op.collision (binaryMerge op s (an / 2) bm).1).2 with
              | cont =>
                simp only
                obtain ⟨k3, r3, b3⟩ := ih (an - an / 2 - 1) (by omega) (bn - bm - 1) (op.collision (binaryMerge op s (an / 2) bm).1).1
                exact ⟨k3, r3, b3⟩
              | stop => exact ⟨0, Runs.pure _, h0 _ _⟩
              | panic => exact ⟨0, Runs.pure _, h0 _ _⟩
            | stop => exact ⟨0, Runs.pure _, h0 _ _⟩
            | panic => exact ⟨0, Runs.pure _, h0 _ _⟩
          | notFound bi =>
            simp only at rng
            obtain ⟨k2, r2, b2⟩ := ih (an / 2) (by omega) bi s
            suffices h : ∃ k3, Runs (match (binaryMerge op s (an / 2) bi).2 with
                | .cont => match (op.fromA (binaryMerge op s (an / 2) bi).1 1).2 with
                  | .cont => binaryMergeM (tick2 op.cmp) op (op.fromA (binaryMerge op s (an / 2) bi).1 1).1 (an - an / 2 - 1) (bn - bi)
                  | _ => pure (op.fromA (binaryMerge op s (an / 2) bi).1 1)
                | _ => pure (binaryMerge op s (an / 2) bi))
                (andThen (binaryMerge op s (an / 2) bi) fun m => andThen (op.fromA m 1) fun m =>
                  binaryMerge op m (an - an / 2 - 1) (bn - bi)) k3 [] ∧ P (an - an / 2 - 1) (bn - bi) k3 by
              obtain ⟨k3, r3, b3⟩ := h
              exact ⟨k1 + (k2 + k3), Runs.bind r1 (Runs.bind r2 r3), hs an bn k1 k2 k3 _ _ h0' hb0 b1 (by omega) b2 b3⟩
            unfold andThen
            cases hf : (binaryMerge op s (an / 2) bi).2 with
            | cont =>
              simp only
              cases hf2 : (op.fromA (binaryMerge op s (an / 2) bi).1 1).2 with
              | cont =>
                simp only
                obtain ⟨k3, r3, b3⟩ := ih (an - an / 2 - 1) (by omega) (bn - bi) (op.fromA (binaryMerge op s (an / 2) bi).1 1).1
                exact ⟨k3, r3, b3⟩
              | stop => exact ⟨0, Runs.pure _, h0 _ _⟩
              | panic => exact ⟨0, Runs.pure _, h0 _ _⟩
            | stop => exact ⟨0, Runs.pure _, h0 _ _⟩
            | panic => exact ⟨0, Runs.pure _, h0 _ _⟩



/-! ### Arithmetic -/

/-- a tangent of the logarithm -/
theorem tangent (m t : Nat) (hm : m ≠ 0) : 2 ^ t * Nat.log2 m ≤ 2 ^ t * t + m := by
  by_cases h : Nat.log2 m ≤ t
  · exact Nat.le_trans (Nat.mul_le_mul_left _ h) (Nat.le_add_right _ _)
  · obtain ⟨d, hd⟩ := Nat.exists_eq_add_of_le (Nat.le_of_lt (Nat.lt_of_not_le h))
    have h1 := Nat.log2_self_le hm
    rw [hd, Nat.pow_add] at h1
    rw [hd, Nat.mul_add]
    have h2 : d ≤ 2 ^ d := Nat.le_of_lt Nat.lt_two_pow_self
    have h3 := Nat.mul_le_mul_left (2 ^ t) h2
    omega

theorem log2_double (m : Nat) (hm : m ≠ 0) : Nat.log2 m + 2 ≤ 2 * m := by
  have h1 := Nat.log2_self_le hm
  have h2 : Nat.log2 m + 1 ≤ 2 ^ Nat.log2 m := Nat.lt_two_pow_self
  omega

theorem pow_ge (t : Nat) : t + 4 ≤ 4 * 2 ^ t := by
  have : t + 1 ≤ 2 ^ t := Nat.lt_two_pow_self
  omega

/-- What is proved by induction about merging `an` with `bn` elements in `k` comparisons: `Wide t r` if `an < 2 ^ (t + r)`, where the logarithm is estimated on the first `t` levels; `Deep l r` if
`an < 2 ^ l`. -/
structure Cheap (an bn k : Nat) : Prop where
  none : an = 0 → k = 0
  wide : ∀ t r, pivots an ≤ t + r → 2 ^ t * (k + t + 4) + bn ≤ 4 * (2 ^ t * 2 ^ t) + 2 ^ t * ((2 * r + 1) * bn)
  deep : ∀ l r, pivots an ≤ l → 2 ^ (l + r) * (k + l + r + 4) + bn ≤ 2 ^ (l + r) * (2 ^ l * (r + 4)) + 2 ^ l * bn

theorem Cheap.zero (an bn : Nat) : Cheap an bn 0 := by
  refine ⟨fun _ => rfl, fun t r _ => ?_, fun l r _ => ?_⟩
  · have h1 := Nat.mul_le_mul_left (2 ^ t) (pow_ge t)
    have h2 : 1 ≤ 2 ^ t := Nat.one_le_two_pow
    have h3 : bn ≤ (2 * r + 1) * bn := Nat.le_mul_of_pos_left _ (by omega)
    have h4 : (2 * r + 1) * bn ≤ 2 ^ t * ((2 * r + 1) * bn) := Nat.le_mul_of_pos_left _ h2
    have e : 2 ^ t * (4 * 2 ^ t) = 4 * (2 ^ t * 2 ^ t) := Nat.mul_left_comm ..
    rw [Nat.zero_add]
    omega
  · have h2 : 1 ≤ 2 ^ l := Nat.one_le_two_pow
    have h1 : l + r + 4 ≤ 2 ^ l * (r + 4) := by
      have : l + 1 ≤ 2 ^ l := Nat.lt_two_pow_self
      have h := Nat.mul_le_mul_right (r + 4) this
      have : (l + 1) * (r + 4) = l * r + l * 4 + r + 4 := by rw [Nat.add_mul, Nat.mul_add]; omega
      omega
    have h3 : bn ≤ 2 ^ l * bn := Nat.le_mul_of_pos_left _ h2
    have h4 := Nat.mul_le_mul_left (2 ^ (l + r)) h1
    rw [Nat.zero_add]
    omega

theorem Cheap.step (an bn k1 k2 k3 x y : Nat) (ha : an ≠ 0) (hb : bn ≠ 0) (h1 : k1 ≤ Nat.log2 bn + 2) (hxy : x + y ≤ bn) (h2 : Cheap (an / 2) x k2) (h3 : Cheap (an - an / 2 - 1) y k3) :
    Cheap an bn (k1 + (k2 + k3)) := by
  have p1 := pivots_half ha (Nat.le_refl (an / 2))
  have p2 := pivots_half (m := an - an / 2 - 1) ha (by omega)
  refine ⟨fun h => absurd h ha, fun t r hp => ?_, fun l r hp => ?_⟩
  · cases t with
    | zero =>
      cases r with
      | zero => omega
      | succ r =>
        have a2 := h2.wide 0 r (by omega)
        have a3 := h3.wide 0 r (by omega)
        have hl := log2_double bn hb
        simp only [Nat.pow_zero, Nat.one_mul, Nat.mul_one] at a2 a3 ⊢
        have hm := Nat.mul_le_mul_left (2 * r) hxy
        have e1 : (2 * (r + 1) + 1) * bn = 2 * r * bn + 3 * bn := by rw [← Nat.add_mul]; congr 1
        have e2 : (2 * r + 1) * x = 2 * r * x + x := Nat.succ_mul ..
        have e3 : (2 * r + 1) * y = 2 * r * y + y := Nat.succ_mul ..
        rw [Nat.mul_add] at hm
        omega
    | succ t =>
      have a2 := h2.wide t r (by omega)
      have a3 := h3.wide t r (by omega)
      have tg := tangent bn (t + 1) hb
      have hk := Nat.mul_le_mul_left (2 ^ (t + 1)) h1
      rw [Nat.pow_succ] at tg hk ⊢
      have hq : 1 ≤ 2 ^ t := Nat.one_le_two_pow
      revert a2 a3 tg hk hq
      generalize 2 ^ t = q
      intro a2 a3 tg hk hq
      obtain ⟨z, hz⟩ := Nat.exists_eq_add_of_le hxy
      have hzq : z ≤ q * ((2 * r + 1) * z) := Nat.le_trans (Nat.le_mul_of_pos_left _ (by omega : 0 < 2 * r + 1)) (Nat.le_mul_of_pos_left _ hq)
      have e : q * ((2 * r + 1) * bn) = q * ((2 * r + 1) * x) + q * ((2 * r + 1) * y) + q * ((2 * r + 1) * z) := by
        rw [hz, Nat.mul_add, Nat.mul_add, Nat.mul_add, Nat.mul_add]
      have f1 : q * 2 * ((2 * r + 1) * bn) = 2 * (q * ((2 * r + 1) * bn)) := by rw [Nat.mul_comm q 2, Nat.mul_assoc]
      have f2 : q * 2 * (q * 2) = 4 * (q * q) := by rw [Nat.mul_mul_mul_comm, Nat.mul_comm]
      have f3 : q * 2 * (k1 + (k2 + k3) + (t + 1) + 4) = 2 * (q * k1) + 2 * (q * k2) + 2 * (q * k3) + 2 * (q * t) + 10 * q := by
        rw [Nat.mul_comm q 2, Nat.mul_assoc]
        simp only [Nat.mul_add]
        omega
      have f4 : q * 2 * (Nat.log2 bn + 2) = q * 2 * Nat.log2 bn + 4 * q := by rw [Nat.mul_add]; omega
      have f5 : q * 2 * (t + 1) = 2 * (q * t) + 2 * q := by
        rw [Nat.mul_comm q 2, Nat.mul_assoc]
        simp only [Nat.mul_add]
        omega
      have f6 : q * 2 * k1 = 2 * (q * k1) := by rw [Nat.mul_comm q 2, Nat.mul_assoc]
      have g1 : ∀ k, q * (k + t + 4) = q * k + q * t + 4 * q := by intro k; simp only [Nat.mul_add]; omega
      rw [g1] at a2 a3
      rw [f1, f2, f3, e]
      rw [f4, f6] at hk
      rw [f5] at tg
      omega
  · cases l with
    | zero => omega
    | succ l =>
      have a2 := h2.deep l r (by omega)
      have a3 := h3.deep l r (by omega)
      have tg := tangent bn (l + 1 + r) hb
      have hk := Nat.mul_le_mul_left (2 ^ (l + 1 + r)) h1
      have ew : 2 ^ (l + 1 + r) = 2 ^ (l + r) * 2 := by rw [← Nat.pow_succ]; congr 1; omega
      rw [ew] at tg hk ⊢
      have el : 2 ^ (l + 1) = 2 ^ l * 2 := Nat.pow_succ ..
      rw [el]
      have hq : 1 ≤ 2 ^ l := Nat.one_le_two_pow
      revert a2 a3 tg hk hq
      generalize 2 ^ (l + r) = w
      generalize 2 ^ l = q
      intro a2 a3 tg hk hq
      obtain ⟨z, hz⟩ := Nat.exists_eq_add_of_le hxy
      have hzq : z ≤ q * z := Nat.le_mul_of_pos_left _ hq
      have e : q * bn = q * x + q * y + q * z := by rw [hz, Nat.mul_add, Nat.mul_add]
      have f1 : q * 2 * bn = 2 * (q * bn) := by rw [Nat.mul_comm q 2, Nat.mul_assoc]
      have f2 : w * 2 * (q * 2 * (r + 4)) = 4 * (w * (q * (r + 4))) := by
        rw [Nat.mul_comm w 2, Nat.mul_comm q 2, Nat.mul_assoc, Nat.mul_assoc, Nat.mul_left_comm w 2]
        omega
      have f3 : w * 2 * (k1 + (k2 + k3) + (l + 1) + r + 4) = 2 * (w * k1) + 2 * (w * k2) + 2 * (w * k3) + 2 * (w * l) + 2 * (w * r) + 10 * w := by
        rw [Nat.mul_comm w 2, Nat.mul_assoc]
        simp only [Nat.mul_add]
        omega
      have f4 : w * 2 * (Nat.log2 bn + 2) = w * 2 * Nat.log2 bn + 4 * w := by rw [Nat.mul_add]; omega
      have f5 : w * 2 * (l + 1 + r) = 2 * (w * l) + 2 * (w * r) + 2 * w := by
        rw [Nat.mul_comm w 2, Nat.mul_assoc]
        simp only [Nat.mul_add]
        omega
      have f6 : w * 2 * k1 = 2 * (w * k1) := by rw [Nat.mul_comm w 2, Nat.mul_assoc]
      have g1 : ∀ k, w * (k + l + r + 4) = w * k + w * l + w * r + 4 * w := by intro k; simp only [Nat.mul_add]; omega
      rw [g1] at a2 a3
      rw [f1, f2, f3, e]
      rw [f4, f6] at hk
      rw [f5] at tg
      omega

/-- the bound for every merge -/
theorem binaryMerge_cheap (op : MergeOp σ A B) (an bn : Nat) (s : σ) : ∃ k, Runs (binaryMergeM (tick2 op.cmp) op s an bn) (binaryMerge op s an bn) k [] ∧ Cheap an bn k :=
  binaryMerge_bound op Cheap Cheap.zero Cheap.step an bn s

theorem Cheap.few {n m k : Nat} (h : Cheap n m k) (hn : n ≠ 0) (hm : m ≠ 0) (hle : m ≤ n) : k ≤ m * (2 * (Nat.log2 n - Nat.log2 m) + 7) := by
  have hlog := log2_mono hle
  obtain ⟨d, hd⟩ := Nat.exists_eq_add_of_le hlog
  have hp : pivots n = Nat.log2 m + (d + 1) := by unfold pivots; rw [if_neg hn]; omega
  have w := h.wide (Nat.log2 m) (d + 1) (Nat.le_of_eq hp)
  have h1 := Nat.log2_self_le hm
  have hq : 1 ≤ 2 ^ Nat.log2 m := Nat.one_le_two_pow
  have e : Nat.log2 n - Nat.log2 m = d := by omega
  rw [e]
  revert w h1 hq
  generalize 2 ^ Nat.log2 m = q
  intro w h1 hq
  have h2 : q * k ≤ q * (4 * q + (2 * (d + 1) + 1) * m) := by
    have f1 : q * (k + Nat.log2 m + 4) = q * k + q * Nat.log2 m + q * 4 := by rw [Nat.mul_add, Nat.mul_add]
    have f2 : q * (4 * q + (2 * (d + 1) + 1) * m) = 4 * (q * q) + q * ((2 * (d + 1) + 1) * m) := by rw [Nat.mul_add, Nat.mul_left_comm]
    omega
  have h3 := Nat.le_of_mul_le_mul_left h2 hq
  have f3 : m * (2 * d + 7) = (2 * (d + 1) + 1) * m + 4 * m := by
    rw [Nat.mul_comm, ← Nat.add_mul]
    congr 1
  omega

theorem Cheap.many {n m k : Nat} (h : Cheap n m k) (hn : n ≠ 0) (hle : n ≤ m) : k ≤ n * (2 * (Nat.log2 m - Nat.log2 n) + 10) := by
  have hlog := log2_mono hle
  have hm : m ≠ 0 := by omega
  have hp : pivots n = Nat.log2 n + 1 := by unfold pivots; rw [if_neg hn]
  have h1 := Nat.log2_self_le hn
  have hlt : m < 2 ^ (Nat.log2 m + 1) := Nat.lt_log2_self
  by_cases hc : Nat.log2 m = Nat.log2 n
  · have w := h.deep (Nat.log2 n + 1) 0 (Nat.le_of_eq hp)
    rw [hc, Nat.sub_self, Nat.mul_zero, Nat.zero_add]
    rw [hc] at hlt
    rw [Nat.pow_succ] at w hlt
    revert w h1 hlt
    have hq : 1 ≤ 2 ^ Nat.log2 n := Nat.one_le_two_pow
    revert hq
    generalize 2 ^ Nat.log2 n = q
    intro hq h1 hlt w
    have h2 : q * 2 * k ≤ q * 2 * (q * 2 * 4 + m) := by
      rw [Nat.mul_add] 
      have g1 : q * 2 * (k + (Nat.log2 n + 1) + 0 + 4) = q * 2 * k + q * 2 * (Nat.log2 n + 1) + 4 * (q * 2) := by
        simp only [Nat.mul_add]
        omega
      rw [Nat.add_zero] at w g1
      rw [g1] at w
      have g2 : q * 2 * (q * 2 * 4) = q * 2 * (q * 2 * (0 + 4)) := rfl
      omega
    have h3 := Nat.le_of_mul_le_mul_left h2 (by omega)
    omega
  · obtain ⟨d, hd⟩ := Nat.exists_eq_add_of_le (show Nat.log2 n + 1 ≤ Nat.log2 m by omega)
    have w := h.deep (Nat.log2 n + 1) d (Nat.le_of_eq hp)
    have e : Nat.log2 m - Nat.log2 n = d + 1 := by omega
    rw [e]
    rw [Nat.pow_succ, hd] at hlt
    rw [Nat.pow_succ] at w
    revert w h1 hlt
    have hw : 1 ≤ 2 ^ (Nat.log2 n + 1 + d) := Nat.one_le_two_pow
    revert hw
    generalize 2 ^ (Nat.log2 n + 1 + d) = w
    generalize 2 ^ Nat.log2 n = q
    intro hw h1 hlt hh
    have h2 : w * k ≤ w * (q * 2 * (d + 4) + q * 2 * 2) := by
      have g : w * (k + (Nat.log2 n + 1) + d + 4) = w * k + w * (Nat.log2 n + 1) + w * d + w * 4 := by simp only [Nat.mul_add]
      have g2 : q * 2 * m ≤ q * 2 * (w * 2) := Nat.mul_le_mul_left _ (Nat.le_of_lt hlt)
      have g3 : q * 2 * (w * 2) = w * (q * 2 * 2) := by rw [Nat.mul_left_comm, Nat.mul_assoc]
      rw [Nat.mul_add]
      omega
    have h3 := Nat.le_of_mul_le_mul_left h2 hw
    have h4 : q * 2 * (d + 4) + q * 2 * 2 = q * (2 * d + 12) := by
      rw [← Nat.mul_add, Nat.mul_assoc]
      congr 1
    have h5 : 2 * (d + 1) + 10 = 2 * d + 12 := by omega
    rw [h5]
    rw [h4] at h3
    exact Nat.le_trans h3 (Nat.mul_le_mul_right _ h1)

end Verif
