import Verif.Model.RadixWork
import Verif.Lemmas.CostMerge
/-! Counting in the recursive merges: what the driver spends. -/
namespace Verif
namespace Tree
open Std

namespace Use
instance : Add Use := ⟨fun x y => ⟨x.eqs + y.eqs, x.cmps + y.cmps, x.sorted + y.sorted⟩⟩
instance : Zero Use := ⟨⟨0, 0, 0⟩⟩
instance : LE Use := ⟨fun x y => x.eqs ≤ y.eqs ∧ x.cmps ≤ y.cmps ∧ x.sorted ≤ y.sorted⟩

theorem le_def {x y : Use} : x ≤ y ↔ x.eqs ≤ y.eqs ∧ x.cmps ≤ y.cmps ∧ x.sorted ≤ y.sorted := Iff.rfl
@[simp] theorem add_eqs (x y : Use) : (x + y).eqs = x.eqs + y.eqs := rfl
@[simp] theorem add_cmps (x y : Use) : (x + y).cmps = x.cmps + y.cmps := rfl
@[simp] theorem add_sorted (x y : Use) : (x + y).sorted = x.sorted + y.sorted := rfl
@[simp] theorem zero_eqs : (0 : Use).eqs = 0 := rfl
@[simp] theorem zero_cmps : (0 : Use).cmps = 0 := rfl
@[simp] theorem zero_sorted : (0 : Use).sorted = 0 := rfl
theorem ext' {x y : Use} (h1 : x.eqs = y.eqs) (h2 : x.cmps = y.cmps) (h3 : x.sorted = y.sorted) : x = y := by
  cases x; cases y; simp_all
theorem add_assoc (x y z : Use) : x + y + z = x + (y + z) := ext' (Nat.add_assoc ..) (Nat.add_assoc ..) (Nat.add_assoc ..)
theorem add_zero (x : Use) : x + 0 = x := ext' rfl rfl rfl
theorem zero_add (x : Use) : 0 + x = x := ext' (Nat.zero_add _) (Nat.zero_add _) (Nat.zero_add _)
end Use

/-- `c` returns `r` and spends `u` -/
def Spent {β : Type} (c : Counts β) (r : β) (u : Use) : Prop := ∀ w, c w = (r, w + u)

section
variable {β γ : Type}

theorem Spent.pure (r : β) : Spent (pure r : Counts β) r 0 := fun w => by
  show (r, w) = _
  rw [Use.add_zero]

theorem Spent.bind {c : Counts β} {f : β → Counts γ} {r : β} {u : Use} {r' : γ} {u' : Use} (h : Spent c r u) (h' : Spent (f r) r' u') :
    Spent (c >>= f) r' (u + u') := fun w => by
  show f (c w).1 (c w).2 = _
  rw [h w]
  simp only
  rw [h' _, Use.add_assoc]

theorem Spent.map {c : Counts β} {r : β} {u : Use} (h : Spent c r u) (g : β → γ) : Spent (c >>= fun x => Pure.pure (g x)) (g r) u := by
  have := Spent.bind h (f := fun x => Pure.pure (g x)) (Spent.pure (g r))
  rwa [Use.add_zero] at this

theorem Spent.andThen {σ : Type} {r : σ × Flow} {kM : σ → Counts (σ × Flow)} {k : σ → σ × Flow} {P : Use → Prop} (h0 : P 0)
    (h : r.2 = .cont → ∃ u, Spent (kM r.1) (k r.1) u ∧ P u) : ∃ u, Spent (andThenM r kM) (andThen r k) u ∧ P u := by
  obtain ⟨s, fl⟩ := r
  cases fl with
  | cont => exact h rfl
  | stop => exact ⟨0, Spent.pure _, h0⟩
  | panic => exact ⟨0, Spent.pure _, h0⟩

/-- `n` comparisons -/
def cmpsOnly (n : Nat) : Use := ⟨0, n, 0⟩
@[simp] theorem cmpsOnly_eqs (n : Nat) : (cmpsOnly n).eqs = 0 := rfl
@[simp] theorem cmpsOnly_cmps (n : Nat) : (cmpsOnly n).cmps = n := rfl
@[simp] theorem cmpsOnly_sorted (n : Nat) : (cmpsOnly n).sorted = 0 := rfl

end

/-! ### Binary search -/

section
variable {α : Type}

theorem bsLoop_spent (f : α → Ordering) (fm : α → Counts Ordering) (l : List α) (hf : ∀ x ∈ l, Spent (fm x) (f x) (cmpsOnly 1)) :
    ∀ (size base : Nat), 1 ≤ size → base + size ≤ l.length →
      ∃ k, Spent (bsLoopM fm l base size) (bsLoop f l base size) (cmpsOnly k) ∧ (size = 1 → k = 0) ∧ (2 ≤ size → 2 ^ k ≤ 2 * (size - 1)) ∧
        bsLoop f l base size < l.length := by
  intro size
  induction size using Nat.strongRecOn with
  | _ size ih =>
    intro base h1 h2
    rw [bsLoopM, bsLoop]
    by_cases hs : size > 1
    · simp only [hs, ↓reduceDIte]
      have hm : base + size / 2 < l.length := by omega
      rw [List.getElem?_eq_getElem hm]
      simp only
      have key : ∃ k, Spent (bsLoopM fm l (if f l[base + size / 2] = .gt then base else base + size / 2) (size - size / 2))
          (bsLoop f l (if f l[base + size / 2] = .gt then base else base + size / 2) (size - size / 2)) (cmpsOnly k) ∧
          (size - size / 2 = 1 → k = 0) ∧ (2 ≤ size - size / 2 → 2 ^ k ≤ 2 * (size - size / 2 - 1)) ∧
          bsLoop f l (if f l[base + size / 2] = .gt then base else base + size / 2) (size - size / 2) < l.length := by
        split
        · exact ih _ (by omega) _ (by omega) (by omega)
        · exact ih _ (by omega) _ (by omega) (by omega)
      obtain ⟨k, hk, hk1, hk2, hlt⟩ := key
      refine ⟨1 + k, ?_, by omega, fun _ => ?_, hlt⟩
      · have := Spent.bind (f := fun o => bsLoopM fm l (if o = .gt then base else base + size / 2) (size - size / 2)) (hf _ (List.getElem_mem hm)) hk
        rwa [show cmpsOnly 1 + cmpsOnly k = cmpsOnly (1 + k) from rfl] at this
      by_cases h3 : size - size / 2 = 1
      · rw [hk1 h3]; omega
      · have := hk2 (by omega)
        rw [Nat.pow_add]
        omega
    · simp only [hs, ↓reduceDIte]
      exact ⟨0, Spent.pure _, fun _ => rfl, fun h => absurd h (by omega), by omega⟩

theorem binarySearchBy_spent (f : α → Ordering) (fm : α → Counts Ordering) (l : List α) (hf : ∀ x ∈ l, Spent (fm x) (f x) (cmpsOnly 1)) :
    ∃ k, Spent (binarySearchByM fm l) (binarySearchBy f l) (cmpsOnly k) ∧ k ≤ Nat.log2 l.length + 2 := by
  suffices h : ∃ k, Spent (binarySearchByM fm l) (binarySearchBy f l) (cmpsOnly k) ∧ (l.length = 0 → k = 0) ∧
      (l.length = 1 → k = 1) ∧ (2 ≤ l.length → 2 ^ k ≤ 4 * (l.length - 1)) by
    obtain ⟨k, h1, h2, h3, h4⟩ := h
    exact ⟨k, h1, (searchCost_log h2 h3 h4).1⟩
  unfold binarySearchByM binarySearchBy
  by_cases h0 : l.length = 0
  · simp only [h0, ↓reduceIte]
    exact ⟨0, Spent.pure _, by simp⟩
  · simp only [if_neg h0]
    obtain ⟨k, hk, hk1, hk2, hlt⟩ := bsLoop_spent f fm l hf l.length 0 (by omega) (by omega)
    refine ⟨k + 1, ?_, fun h => absurd h h0, fun h => by rw [hk1 h], fun h => ?_⟩
    · have := Spent.bind hk (f := fun base => match l[base]? with
        | none => pure (SearchResult.notFound base)
        | some x => do
          match ← fm x with
          | .eq => pure (SearchResult.found base)
          | .lt => pure (SearchResult.notFound (base + 1))
          | .gt => pure (SearchResult.notFound base))
        (r' := match l[bsLoop f l 0 l.length]? with
          | none => SearchResult.notFound (bsLoop f l 0 l.length)
          | some x => match f x with
            | .eq => SearchResult.found (bsLoop f l 0 l.length)
            | .lt => SearchResult.notFound (bsLoop f l 0 l.length + 1)
            | .gt => SearchResult.notFound (bsLoop f l 0 l.length)) (u' := cmpsOnly 1) ?_
      · rwa [show cmpsOnly k + cmpsOnly 1 = cmpsOnly (k + 1) from rfl] at this
      · rw [List.getElem?_eq_getElem hlt]
        have := Spent.bind (hf _ (List.getElem_mem hlt)) (f := fun o => match o with
          | .eq => pure (SearchResult.found (bsLoop f l 0 l.length))
          | .lt => pure (SearchResult.notFound (bsLoop f l 0 l.length + 1))
          | .gt => pure (SearchResult.notFound (bsLoop f l 0 l.length)))
          (r' := match f l[bsLoop f l 0 l.length] with
            | .eq => SearchResult.found (bsLoop f l 0 l.length)
            | .lt => SearchResult.notFound (bsLoop f l 0 l.length + 1)
            | .gt => SearchResult.notFound (bsLoop f l 0 l.length)) (u' := 0) (by cases f l[bsLoop f l 0 l.length] <;> exact Spent.pure _)
        rwa [Use.add_zero] at this
    · have := hk2 h
      rw [Nat.pow_succ]; omega
end

/-! ### The driver -/

section
variable {σ A B : Type} [MergeState σ A B]

/-- total -/
def sumUse {α : Type} (c : α → Use) : List α → Use
  | [] => 0
  | x :: xs => c x + sumUse c xs

theorem sumUse_append {α : Type} (c : α → Use) (l l' : List α) : sumUse c (l ++ l') = sumUse c l + sumUse c l' := by
  induction l with
  | nil => exact (Use.zero_add _).symm
  | cons x l ih => rw [List.cons_append, sumUse, sumUse, ih, Use.add_assoc]

/-- total of numbers -/
def sumN {α : Type} (c : α → Nat) : List α → Nat
  | [] => 0
  | x :: xs => c x + sumN c xs

theorem sumN_append {α : Type} (c : α → Nat) (l l' : List α) : sumN c (l ++ l') = sumN c l + sumN c l' := by
  induction l with
  | nil => exact (Nat.zero_add _).symm
  | cons x l ih => rw [List.cons_append, sumN, sumN, ih, Nat.add_assoc]

/-- `opM` is `op` with effects, and spends at most `ca x` and at most `cb y`, and at most `ea x + eb y` tests of equality, on the collision of `x` and `y`. -/
structure Mirrors (opM : MergeOpM Counts σ A B) (op : MergeOp σ A B) (pa : A → Prop) (pb : B → Prop) (ca : A → Use) (cb : B → Use)
    (ea : A → Nat) (eb : B → Nat) : Prop where
  fromA : opM.fromA = op.fromA
  fromB : opM.fromB = op.fromB
  cmp : ∀ x y, pa x → pb y → Spent (opM.cmp x y) (op.cmp x y) (cmpsOnly 1)
  collision : ∀ s x as y bs, MergeState.aSlice s = x :: as → MergeState.bSlice s = y :: bs → pa x → pb y →
    ∃ u, Spent (opM.collision s) (op.collision s) u ∧ u ≤ ca x ∧ u ≤ cb y ∧ u.eqs ≤ ea x + eb y
  stepA : ∀ s n, n ≤ (MergeState.aSlice s : List A).length → (op.fromA s n).2 = .cont →
    MergeState.aSlice (op.fromA s n).1 = (MergeState.aSlice s).drop n ∧ (MergeState.bSlice (op.fromA s n).1 : List B) = MergeState.bSlice s
  stepB : ∀ s n, n ≤ (MergeState.bSlice s : List B).length → (op.fromB s n).2 = .cont →
    MergeState.bSlice (op.fromB s n).1 = (MergeState.bSlice s).drop n ∧ (MergeState.aSlice (op.fromB s n).1 : List A) = MergeState.aSlice s
  stepC : ∀ s x as y bs, MergeState.aSlice s = x :: as → MergeState.bSlice s = y :: bs → (op.collision s).2 = .cont →
    (MergeState.aSlice (op.collision s).1 : List A) = as ∧ (MergeState.bSlice (op.collision s).1 : List B) = bs

/-- what the searches of a merge of `an` with `bn` elements cost at most, in terms of the left and of the right operand -/
def searchesA (an bn : Nat) : Nat := an * (Nat.log2 bn + 2)
def searchesB (an bn : Nat) : Nat := pivots an * (bn * (Nat.log2 bn + 2))

theorem searchesA_split {an bn x y k1 : Nat} (h0 : an ≠ 0) (hx : x ≤ bn) (hy : y ≤ bn) (hk : k1 ≤ Nat.log2 bn + 2) :
    k1 + (searchesA (an / 2) x + searchesA (an - an / 2 - 1) y) ≤ searchesA an bn := by
  unfold searchesA
  have e2 := Nat.mul_le_mul_left (an / 2) (Nat.add_le_add_right (log2_mono hx) 2)
  have e3 := Nat.mul_le_mul_left (an - an / 2 - 1) (Nat.add_le_add_right (log2_mono hy) 2)
  have e4 : an * (Nat.log2 bn + 2) = (1 + an / 2 + (an - an / 2 - 1)) * (Nat.log2 bn + 2) := by congr 1; omega
  rw [e4, Nat.add_mul, Nat.add_mul]
  omega

theorem searchesB_split {an bn x y k1 : Nat} (h0 : an ≠ 0) (hb : bn ≠ 0) (h : x + y ≤ bn) (hk : k1 ≤ Nat.log2 bn + 2) :
    k1 + (searchesB (an / 2) x + searchesB (an - an / 2 - 1) y) ≤ searchesB an bn := by
  unfold searchesB
  have p1 := pivots_half h0 (Nat.le_refl (an / 2))
  have p2 := pivots_half h0 (show an - an / 2 - 1 ≤ an / 2 by omega)
  generalize hP : pivots an = P at *
  cases P with
  | zero => omega
  | succ P =>
    have l1 := Nat.add_le_add_right (log2_mono (show x ≤ bn by omega)) 2
    have l2 := Nat.add_le_add_right (log2_mono (show y ≤ bn by omega)) 2
    generalize Nat.log2 bn + 2 = L at *
    have e1 : pivots (an / 2) * (x * (Nat.log2 x + 2)) ≤ P * (x * L) := Nat.mul_le_mul (by omega) (Nat.mul_le_mul_left _ l1)
    have e2 : pivots (an - an / 2 - 1) * (y * (Nat.log2 y + 2)) ≤ P * (y * L) := Nat.mul_le_mul (by omega) (Nat.mul_le_mul_left _ l2)
    have e3 : P * (x * L) + P * (y * L) = P * ((x + y) * L) := by rw [Nat.add_mul, Nat.mul_add]
    have e4 : P * ((x + y) * L) ≤ P * (bn * L) := Nat.mul_le_mul_left _ (Nat.mul_le_mul_right _ h)
    have e5 : L ≤ bn * L := Nat.le_mul_of_pos_left _ (by omega)
    rw [Nat.add_mul, Nat.one_mul]
    omega

theorem drive_spent {opM : MergeOpM Counts σ A B} {op : MergeOp σ A B} {pa : A → Prop} {pb : B → Prop} {ca : A → Use} {cb : B → Use}
    {ea : A → Nat} {eb : B → Nat} (H : Mirrors opM op pa pb ca cb ea eb) : ∀ (an bn : Nat) (s : σ) (as as2 : List A) (bs bs2 : List B),
    MergeState.aSlice s = as ++ as2 → MergeState.bSlice s = bs ++ bs2 → as.length = an → bs.length = bn →
    (∀ x ∈ as, pa x) → (∀ y ∈ bs, pb y) →
    ∃ u, Spent (driveM opM s an bn) (binaryMerge op s an bn) u ∧
      u ≤ cmpsOnly (searchesA an bn) + sumUse ca as ∧ u ≤ cmpsOnly (searchesB an bn) + sumUse cb bs ∧ u.eqs ≤ sumN ea as + sumN eb bs ∧
      ((binaryMerge op s an bn).2 = .cont →
        (MergeState.aSlice (binaryMerge op s an bn).1 : List A) = as2 ∧ (MergeState.bSlice (binaryMerge op s an bn).1 : List B) = bs2) := by
  intro an
  induction an using Nat.strongRecOn with
  | _ an ih =>
  intro bn s as as2 bs bs2 hsa hsb hla hlb hpa hpb
  have z1 : ∀ (n : Nat) (x : Use), (0 : Use) ≤ cmpsOnly n + x := fun n x => ⟨Nat.zero_le _, Nat.zero_le _, Nat.zero_le _⟩
  rw [driveM, binaryMerge]
  by_cases h0 : an = 0
  · simp only [h0, ↓reduceDIte]
    have ea : as = [] := List.length_eq_zero_iff.1 (hla.trans h0)
    subst ea
    by_cases hb0 : bn = 0
    · have eb : bs = [] := List.length_eq_zero_iff.1 (hlb.trans hb0)
      subst eb
      simp only [hb0, ↓reduceIte]
      exact ⟨0, Spent.pure _, z1 _ _, z1 _ _, Nat.zero_le _, fun _ => ⟨by simpa using hsa, by simpa using hsb⟩⟩
    · simp only [if_neg hb0]
      refine ⟨0, by rw [H.fromB]; exact Spent.pure _, z1 _ _, z1 _ _, Nat.zero_le _, fun hc => ?_⟩
      obtain ⟨g1, g2⟩ := H.stepB s bn (by rw [hsb]; simp; omega) hc
      rw [g1, g2, hsa, hsb]
      exact ⟨by simp, by rw [← hlb]; simp⟩
  · simp only [h0, ↓reduceDIte]
    by_cases hb0 : bn = 0
    · have eb : bs = [] := List.length_eq_zero_iff.1 (hlb.trans hb0)
      subst eb
      simp only [hb0, ↓reduceIte]
      refine ⟨0, by rw [H.fromA]; exact Spent.pure _, z1 _ _, z1 _ _, Nat.zero_le _, fun hc => ?_⟩
      obtain ⟨g1, g2⟩ := H.stepA s an (by rw [hsa]; simp; omega) hc
      rw [g1, g2, hsa, hsb]
      exact ⟨by rw [← hla]; simp, by simp⟩
    · simp only [if_neg hb0]
      have hm : an / 2 < as.length := by omega
      have hget : (MergeState.aSlice s : List A)[an / 2]? = some as[an / 2] := by
        rw [hsa, List.getElem?_append_left hm, List.getElem?_eq_getElem hm]
      have hbl : ¬ (MergeState.bSlice s : List B).length < bn := by rw [hsb]; simp; omega
      have htake : (MergeState.bSlice s : List B).take bn = bs := by rw [hsb, ← hlb]; simp
      have spl : as = as.take (an / 2) ++ as[an / 2] :: as.drop (an / 2 + 1) := by
        rw [← List.drop_eq_getElem_cons hm, List.take_append_drop]
      have hxm : as[an / 2] ∈ as := List.getElem_mem hm
      simp only [hget, hbl, ↓reduceIte, htake]
      obtain ⟨k1, r1, b1⟩ := binarySearchBy_spent (fun b => (op.cmp as[an / 2] b).swap) (fun b => do let o ← opM.cmp as[an / 2] b; pure o.swap) bs
        (fun b hb => Spent.map (H.cmp _ b (hpa _ hxm) (hpb b hb)) Ordering.swap)
      have rng := binarySearchBy_range (fun b => (op.cmp as[an / 2] b).swap) bs
      generalize as[an / 2] = x at spl hxm r1 rng ⊢
      generalize binarySearchBy (fun b => (op.cmp x b).swap) bs = res at r1 rng ⊢
      rw [hlb] at b1
      have hal : (as.take (an / 2)).length = an / 2 := by simp; omega
      have hal2 : (as.drop (an / 2 + 1)).length = an - an / 2 - 1 := by simp; omega
      have hsa1 : (MergeState.aSlice s : List A) = as.take (an / 2) ++ (x :: (as.drop (an / 2 + 1) ++ as2)) := by
        rw [hsa]; conv => lhs; rw [spl]
        simp
      have hpa1 : ∀ z ∈ as.take (an / 2), pa z := fun z hz => hpa z (List.mem_of_mem_take hz)
      have hpa2 : ∀ z ∈ as.drop (an / 2 + 1), pa z := fun z hz => hpa z (List.mem_of_mem_drop hz)
      have hsum : sumUse ca as = sumUse ca (as.take (an / 2)) + (ca x + sumUse ca (as.drop (an / 2 + 1))) := by
        conv => lhs; rw [spl]
        rw [sumUse_append, sumUse]
      have hsumn : sumN ea as = sumN ea (as.take (an / 2)) + (ea x + sumN ea (as.drop (an / 2 + 1))) := by
        conv => lhs; rw [spl]
        rw [sumN_append, sumN]
      have hmm : an / 2 < an := by omega
      have hmr : an - an / 2 - 1 < an := by omega
      cases res with
      | found bm =>
        simp only at rng
        have splb : bs = bs.take bm ++ bs[bm] :: bs.drop (bm + 1) := by
          rw [← List.drop_eq_getElem_cons rng, List.take_append_drop]
        have hym : bs[bm] ∈ bs := List.getElem_mem rng
        generalize bs[bm] = y at splb hym
        have hbl1 : (bs.take bm).length = bm := by simp; omega
        have hbl2 : (bs.drop (bm + 1)).length = bn - bm - 1 := by simp; omega
        have hsb1 : (MergeState.bSlice s : List B) = bs.take bm ++ (y :: (bs.drop (bm + 1) ++ bs2)) := by
          rw [hsb]; conv => lhs; rw [splb]
          simp
        have hsumb : sumUse cb bs = sumUse cb (bs.take bm) + (cb y + sumUse cb (bs.drop (bm + 1))) := by
          conv => lhs; rw [splb]
          rw [sumUse_append, sumUse]
        have hsumnb : sumN eb bs = sumN eb (bs.take bm) + (eb y + sumN eb (bs.drop (bm + 1))) := by
          conv => lhs; rw [splb]
          rw [sumN_append, sumN]
        obtain ⟨u2, r2, ba2, bb2, bn2, st2⟩ := ih (an / 2) hmm bm s _ _ _ _ hsa1 hsb1 hal hbl1 hpa1 (fun z hz => hpb z (List.mem_of_mem_take hz))
        have sA := searchesA_split (an := an) (bn := bn) (x := bm) (y := bn - bm - 1) h0 (by omega) (by omega) b1
        have sB := searchesB_split (an := an) (bn := bn) (x := bm) (y := bn - bm - 1) h0 hb0 (by omega) b1
        generalize searchesA an bn = SA at *
        generalize searchesB an bn = SB at *
        simp only
        generalize hR : binaryMerge op s (an / 2) bm = R at r2 st2 ⊢
        suffices h : ∃ u3, Spent (andThenM R fun s => do
              let r ← opM.collision s
              andThenM r fun s => driveM opM s (an - an / 2 - 1) (bn - bm - 1))
            (andThen R fun m => andThen (op.collision m) fun m => binaryMerge op m (an - an / 2 - 1) (bn - bm - 1)) u3 ∧
            (u3 ≤ cmpsOnly (searchesA (an - an / 2 - 1) (bn - bm - 1)) + (ca x + sumUse ca (as.drop (an / 2 + 1))) ∧
             u3 ≤ cmpsOnly (searchesB (an - an / 2 - 1) (bn - bm - 1)) + (cb y + sumUse cb (bs.drop (bm + 1))) ∧
             u3.eqs ≤ ea x + sumN ea (as.drop (an / 2 + 1)) + (eb y + sumN eb (bs.drop (bm + 1))) ∧
             ((andThen R fun m => andThen (op.collision m) fun m => binaryMerge op m (an - an / 2 - 1) (bn - bm - 1)).2 = .cont →
                (MergeState.aSlice (andThen R fun m => andThen (op.collision m) fun m => binaryMerge op m (an - an / 2 - 1) (bn - bm - 1)).1 : List A) = as2 ∧
                (MergeState.bSlice (andThen R fun m => andThen (op.collision m) fun m => binaryMerge op m (an - an / 2 - 1) (bn - bm - 1)).1 : List B) = bs2)) by
          obtain ⟨u3, r3, ba3, bb3, bn3, st3⟩ := h
          refine ⟨cmpsOnly k1 + (u2 + u3), Spent.bind r1 (Spent.bind r2 r3), ?_, ?_, by simp only [Use.add_eqs, cmpsOnly_eqs]; omega, st3⟩
          · rw [hsum]
            simp only [Use.le_def, Use.add_eqs, Use.add_cmps, Use.add_sorted, cmpsOnly_eqs, cmpsOnly_cmps, cmpsOnly_sorted] at *
            omega
          · rw [hsumb]
            simp only [Use.le_def, Use.add_eqs, Use.add_cmps, Use.add_sorted, cmpsOnly_eqs, cmpsOnly_cmps, cmpsOnly_sorted] at *
            omega
        obtain ⟨R1, Rf⟩ := R
        cases Rf with
        | stop => exact ⟨0, Spent.pure _, z1 _ _, z1 _ _, Nat.zero_le _, fun h => by cases h⟩
        | panic => exact ⟨0, Spent.pure _, z1 _ _, z1 _ _, Nat.zero_le _, fun h => by cases h⟩
        | cont =>
          obtain ⟨ga, gb⟩ := st2 rfl
          obtain ⟨u4, r4, ba4, bb4, bn4⟩ := H.collision R1 _ _ _ _ ga gb (hpa x hxm) (hpb y hym)
          have stC := H.stepC R1 _ _ _ _ ga gb
          show ∃ u3, Spent (opM.collision R1 >>= fun r => andThenM r fun s => driveM opM s (an - an / 2 - 1) (bn - bm - 1))
            (andThen (op.collision R1) fun m => binaryMerge op m (an - an / 2 - 1) (bn - bm - 1)) u3 ∧ _ ∧ _ ∧ _ ∧
            ((andThen (op.collision R1) fun m => binaryMerge op m (an - an / 2 - 1) (bn - bm - 1)).2 = .cont →
              MergeState.aSlice (andThen (op.collision R1) fun m => binaryMerge op m (an - an / 2 - 1) (bn - bm - 1)).1 = as2 ∧
              MergeState.bSlice (andThen (op.collision R1) fun m => binaryMerge op m (an - an / 2 - 1) (bn - bm - 1)).1 = bs2)
          generalize op.collision R1 = C at r4 stC ⊢
          obtain ⟨C1, Cf⟩ := C
          cases Cf with
          | stop =>
            refine ⟨u4 + 0, Spent.bind r4 (Spent.pure _), ?_, ?_, ?_, fun h => by cases h⟩ <;>
            · simp only [Use.le_def, Use.add_eqs, Use.add_cmps, Use.add_sorted, cmpsOnly_eqs, cmpsOnly_cmps, cmpsOnly_sorted, Use.zero_eqs, Use.zero_cmps, Use.zero_sorted] at *
              omega
          | panic =>
            refine ⟨u4 + 0, Spent.bind r4 (Spent.pure _), ?_, ?_, ?_, fun h => by cases h⟩ <;>
            · simp only [Use.le_def, Use.add_eqs, Use.add_cmps, Use.add_sorted, cmpsOnly_eqs, cmpsOnly_cmps, cmpsOnly_sorted, Use.zero_eqs, Use.zero_cmps, Use.zero_sorted] at *
              omega
          | cont =>
            obtain ⟨ga', gb'⟩ := stC rfl
            obtain ⟨u5, r5, ba5, bb5, bn5, st5⟩ := ih (an - an / 2 - 1) hmr (bn - bm - 1) C1 _ _ _ _ ga' gb' hal2 hbl2 hpa2
              (fun z hz => hpb z (List.mem_of_mem_drop hz))
            refine ⟨u4 + u5, Spent.bind r4 r5, ?_, ?_, ?_, st5⟩ <;>
            · simp only [Use.le_def, Use.add_eqs, Use.add_cmps, Use.add_sorted, cmpsOnly_eqs, cmpsOnly_cmps, cmpsOnly_sorted] at *
              omega
      | notFound bi =>
        simp only at rng
        have hbl1 : (bs.take bi).length = bi := by simp; omega
        have hbl2 : (bs.drop bi).length = bn - bi := by simp; omega
        have hsb1 : (MergeState.bSlice s : List B) = bs.take bi ++ (bs.drop bi ++ bs2) := by
          rw [hsb, ← List.append_assoc, List.take_append_drop]
        have hsumb : sumUse cb bs = sumUse cb (bs.take bi) + sumUse cb (bs.drop bi) := by
          rw [← sumUse_append, List.take_append_drop]
        have hsumnb : sumN eb bs = sumN eb (bs.take bi) + sumN eb (bs.drop bi) := by
          rw [← sumN_append, List.take_append_drop]
        obtain ⟨u2, r2, ba2, bb2, bn2, st2⟩ := ih (an / 2) hmm bi s _ _ _ _ hsa1 hsb1 hal hbl1 hpa1 (fun z hz => hpb z (List.mem_of_mem_take hz))
        have sA := searchesA_split (an := an) (bn := bn) (x := bi) (y := bn - bi) h0 (by omega) (by omega) b1
        have sB := searchesB_split (an := an) (bn := bn) (x := bi) (y := bn - bi) h0 hb0 (by omega) b1
        generalize searchesA an bn = SA at *
        generalize searchesB an bn = SB at *
        simp only
        generalize hR : binaryMerge op s (an / 2) bi = R at r2 st2 ⊢
        suffices h : ∃ u3, Spent (andThenM R fun s => andThenM (opM.fromA s 1) fun s => driveM opM s (an - an / 2 - 1) (bn - bi))
            (andThen R fun m => andThen (op.fromA m 1) fun m => binaryMerge op m (an - an / 2 - 1) (bn - bi)) u3 ∧
            (u3 ≤ cmpsOnly (searchesA (an - an / 2 - 1) (bn - bi)) + sumUse ca (as.drop (an / 2 + 1)) ∧
             u3 ≤ cmpsOnly (searchesB (an - an / 2 - 1) (bn - bi)) + sumUse cb (bs.drop bi) ∧
             u3.eqs ≤ sumN ea (as.drop (an / 2 + 1)) + sumN eb (bs.drop bi) ∧
             ((andThen R fun m => andThen (op.fromA m 1) fun m => binaryMerge op m (an - an / 2 - 1) (bn - bi)).2 = .cont →
                (MergeState.aSlice (andThen R fun m => andThen (op.fromA m 1) fun m => binaryMerge op m (an - an / 2 - 1) (bn - bi)).1 : List A) = as2 ∧
                (MergeState.bSlice (andThen R fun m => andThen (op.fromA m 1) fun m => binaryMerge op m (an - an / 2 - 1) (bn - bi)).1 : List B) = bs2)) by
          obtain ⟨u3, r3, ba3, bb3, bn3, st3⟩ := h
          refine ⟨cmpsOnly k1 + (u2 + u3), Spent.bind r1 (Spent.bind r2 r3), ?_, ?_, by simp only [Use.add_eqs, cmpsOnly_eqs]; omega, st3⟩
          · rw [hsum]
            simp only [Use.le_def, Use.add_eqs, Use.add_cmps, Use.add_sorted, cmpsOnly_eqs, cmpsOnly_cmps, cmpsOnly_sorted] at *
            omega
          · rw [hsumb]
            simp only [Use.le_def, Use.add_eqs, Use.add_cmps, Use.add_sorted, cmpsOnly_eqs, cmpsOnly_cmps, cmpsOnly_sorted] at *
            omega
        obtain ⟨R1, Rf⟩ := R
        cases Rf with
        | stop => exact ⟨0, Spent.pure _, z1 _ _, z1 _ _, Nat.zero_le _, fun h => by cases h⟩
        | panic => exact ⟨0, Spent.pure _, z1 _ _, z1 _ _, Nat.zero_le _, fun h => by cases h⟩
        | cont =>
          obtain ⟨ga, gb⟩ := st2 rfl
          have stA := H.stepA R1 1 (by rw [ga]; simp)
          show ∃ u3, Spent (andThenM (opM.fromA R1 1) fun s => driveM opM s (an - an / 2 - 1) (bn - bi))
            (andThen (op.fromA R1 1) fun m => binaryMerge op m (an - an / 2 - 1) (bn - bi)) u3 ∧ _ ∧ _ ∧ _ ∧
            ((andThen (op.fromA R1 1) fun m => binaryMerge op m (an - an / 2 - 1) (bn - bi)).2 = .cont →
              MergeState.aSlice (andThen (op.fromA R1 1) fun m => binaryMerge op m (an - an / 2 - 1) (bn - bi)).1 = as2 ∧
              MergeState.bSlice (andThen (op.fromA R1 1) fun m => binaryMerge op m (an - an / 2 - 1) (bn - bi)).1 = bs2)
          rw [H.fromA]
          generalize op.fromA R1 1 = C at stA ⊢
          obtain ⟨C1, Cf⟩ := C
          cases Cf with
          | stop => exact ⟨0, Spent.pure _, z1 _ _, z1 _ _, Nat.zero_le _, fun h => by cases h⟩
          | panic => exact ⟨0, Spent.pure _, z1 _ _, z1 _ _, Nat.zero_le _, fun h => by cases h⟩
          | cont =>
            obtain ⟨ga', gb'⟩ := stA rfl
            rw [ga] at ga'
            rw [gb] at gb'
            exact ih (an - an / 2 - 1) hmr (bn - bi) C1 _ _ _ _ ga' gb' hal2 hbl2 hpa2 (fun z hz => hpb z (List.mem_of_mem_drop hz))

end
end Tree
end Verif
