import Verif.Model.RadixCost
import Verif.Lemmas.Cost
import Verif.Lemmas.RadixDepth
/-! How often a lookup in a radix tree compares key components. -/
namespace Verif
open Std

/-- a binary search with a comparison that is not counted -/
theorem bsLoop_runs0 {α : Type} (f : α → Ordering) (fm : α → Counted Ordering) (l : List α) (hf : ∀ x ∈ l, Runs (fm x) (f x) 0 []) :
    ∀ (size base : Nat), Runs (bsLoopM fm l base size) (bsLoop f l base size) 0 [] := by
  intro size
  induction size using Nat.strongRecOn with
  | _ size ih =>
    intro base
    rw [bsLoopM, bsLoop]
    by_cases hs : size > 1
    · simp only [hs, ↓reduceDIte]
      cases hx : l[base + size / 2]? with
      | none => exact ih _ (by omega) _
      | some x =>
        simp only
        refine Runs.bind (k := 0) (k' := 0) (ss := []) (ss' := []) (hf _ (List.mem_of_getElem? hx)) ?_
        split
        · exact ih _ (by omega) _
        · exact ih _ (by omega) _
    · simp only [hs, ↓reduceDIte]
      exact Runs.pure _

theorem binarySearchBy_runs0 {α : Type} (f : α → Ordering) (fm : α → Counted Ordering) (l : List α) (hf : ∀ x ∈ l, Runs (fm x) (f x) 0 []) :
    Runs (binarySearchByM fm l) (binarySearchBy f l) 0 [] := by
  unfold binarySearchByM binarySearchBy
  by_cases h0 : l.length = 0
  · simp only [h0, ↓reduceIte]
    exact Runs.pure _
  · simp only [if_neg h0]
    refine Runs.bind (k := 0) (k' := 0) (ss := []) (ss' := []) (bsLoop_runs0 f fm l hf _ _) ?_
    cases hx : l[bsLoop f l 0 l.length]? with
    | none => exact Runs.pure _
    | some x =>
      refine Runs.bind (k := 0) (k' := 0) (ss := []) (ss' := []) (hf _ (List.mem_of_getElem? hx)) ?_
      cases hc : f x <;> (simp only [hc]; exact Runs.pure _)

theorem log2_le_log2 {a b : Nat} (h : a ≤ b) : Nat.log2 a ≤ Nat.log2 b := by
  by_cases ha : a = 0
  · subst ha; simp [Nat.log2_zero]
  · exact (Nat.le_log2 (by omega)).2 (Nat.le_trans (Nat.log2_self_le ha) h)

namespace Tree
variable {K V : Type} [Ord K] [DecidableEq K]

omit [Ord K] in
theorem commonPrefix_runs (p q : List K) : ∃ k, Runs (commonPrefixM tickEq p q) (commonPrefix p q) k [] ∧ k ≤ q.length ∧
    (commonPrefix p q = p.length → k = commonPrefix p q) := by
  induction p generalizing q with
  | nil => exact ⟨0, by rw [commonPrefixM, commonPrefix]; exact Runs.pure _; all_goals simp, by simp, Eq.symm⟩
  | cons x xs ih =>
    cases q with
    | nil => exact ⟨0, by rw [commonPrefixM, commonPrefix]; exact Runs.pure _; all_goals simp, by simp, by simp [commonPrefix]⟩
    | cons y ys =>
      have ht : Runs (tickEq x y) (decide (x = y)) 1 [] := by intro w; simp [tickEq]
      rw [commonPrefixM, commonPrefix]
      by_cases h : x = y
      · obtain ⟨k, hk, h1, h2⟩ := ih ys
        refine ⟨1 + (k + 0), Runs.bind (ss := []) (ss' := []) ht ?_, by simp; omega, ?_⟩
        · simp only [h, decide_true, ↓reduceIte]
          exact Runs.bind (ss := []) (ss' := []) hk (Runs.pure _)
        · simp only [h, ↓reduceIte, List.length_cons]
          intro e
          have := h2 (by omega)
          omega
      · refine ⟨1 + 0, Runs.bind (ss := []) (ss' := []) ht ?_, by simp, by simp [h]⟩
        simp only [h, decide_false, Bool.false_eq_true, ↓reduceIte]
        exact Runs.pure _

omit [Ord K] in
theorem commonPrefix_runs0 (p q : List K) : Runs (commonPrefixM (fun a b => pure (decide (a = b))) p q) (commonPrefix p q) 0 [] := by
  induction p generalizing q with
  | nil => rw [commonPrefixM, commonPrefix]; exact Runs.pure _; all_goals simp
  | cons x xs ih =>
    cases q with
    | nil => rw [commonPrefixM, commonPrefix]; exact Runs.pure _; all_goals simp
    | cons y ys =>
      rw [commonPrefixM, commonPrefix]
      refine Runs.bind (k := 0) (k' := 0) (ss := []) (ss' := []) (Runs.pure _) ?_
      by_cases h : x = y
      · simp only [h, decide_true, ↓reduceIte]
        exact Runs.bind (k := 0) (k' := 0) (ss := []) (ss' := []) (ih ys) (Runs.pure _)
      · simp only [h, decide_false, Bool.false_eq_true, ↓reduceIte]
        exact Runs.pure _

theorem headed_mem {ks : List (Tree K V)} (h : headed ks = true) {x : Tree K V} (hx : x ∈ ks) : ∃ c p, x.pre = c :: p := by
  unfold headed at h
  have := List.all_eq_true.1 h x hx
  cases e : x.pre with
  | nil => simp [e] at this
  | cons c p => exact ⟨c, p, rfl⟩

/-- tests of equality -/
theorem findGo_eqs : ∀ fuel (t : Tree K V) (p : List K),
    ∃ k, Runs (findGoM tickEq (fun a b => pure (compare a b)) fuel t p) (findGo fuel t p) k [] ∧ k ≤ p.length := by
  intro fuel
  induction fuel with
  | zero => intro t p; exact ⟨0, Runs.pure _, by omega⟩
  | succ fuel ih =>
    intro t p
    obtain ⟨k, hk, h1, h2⟩ := commonPrefix_runs t.pre p
    have hla := commonPrefix_le_left t.pre p
    have hlb := commonPrefix_le_right t.pre p
    suffices ∃ k', Runs _ (findGo (fuel + 1) t p) k' [] ∧ k + k' ≤ p.length by
      obtain ⟨k', hk', hle⟩ := this
      exact ⟨k + k', by rw [findGoM]; exact Runs.bind (ss := []) (ss' := []) hk hk', hle⟩
    rw [findGo]
    generalize commonPrefix t.pre p = n at *
    by_cases c1 : p.length - n = 0 ∧ t.pre.length - n = 0
    · rw [if_pos c1, if_pos c1]; exact ⟨0, Runs.pure _, by omega⟩
    rw [if_neg c1, if_neg c1]
    by_cases c2 : p.length - n = 0
    · rw [if_pos c2, if_pos c2]; exact ⟨0, Runs.pure _, by omega⟩
    rw [if_neg c2, if_neg c2]
    by_cases c3 : t.pre.length - n = 0
    · rw [if_pos c3, if_pos c3]
      have e := h2 (by omega)
      cases hc : p[n]? with
      | none => exact ⟨0, Runs.pure _, by omega⟩
      | some c =>
        simp only
        by_cases hh : headed t.kids = true
        · simp only [hh, ↓reduceIte]
          have hs : Runs (binarySearchByM (fun e : Tree K V => headCmpM (fun a b => (pure (compare a b) : Counted Ordering)) e c) t.kids)
              (binarySearchBy (fun e : Tree K V => compare e.pre.head? (some c)) t.kids) 0 [] := by
            refine binarySearchBy_runs0 _ _ _ fun x hx => ?_
            obtain ⟨d, q, e⟩ := headed_mem hh hx
            simp only [headCmpM, e, List.head?_cons]
            exact Runs.pure _
          cases hb : binarySearchBy (fun e : Tree K V => compare e.pre.head? (some c)) t.kids with
          | notFound i =>
            rw [hb] at hs
            exact ⟨0 + 0, Runs.bind (ss := []) (ss' := []) hs (Runs.pure _), by omega⟩
          | found i =>
            rw [hb] at hs
            simp only
            cases hx : t.kids[i]? with
            | none => exact ⟨0 + 0, Runs.bind (ss := []) (ss' := []) hs (by simp only [hx]; exact Runs.pure _), by omega⟩
            | some x =>
              obtain ⟨k', hk', hle⟩ := ih x (p.drop n)
              rw [List.length_drop] at hle
              exact ⟨0 + k', Runs.bind (ss := []) (ss' := []) hs (by simp only [hx]; exact hk'), by omega⟩
        · simp only [hh]
          exact ⟨0, Runs.pure _, by omega⟩
    · rw [if_neg c3, if_neg c3]; exact ⟨0, Runs.pure _, by omega⟩

omit [Ord K] [DecidableEq K] in
theorem narrow_iff {w : Nat} {t : Tree K V} : Narrow w t ↔ t.kids.length ≤ w ∧ ∀ c ∈ t.kids, Narrow w c := by
  obtain ⟨p, v, ks⟩ := t
  exact ⟨fun h => by cases h; exact ⟨‹_›, ‹_›⟩, fun h => .mk h.1 h.2⟩

/-- one level of a lookup, counting comparisons -/
theorem findGo_cmps_step {w fuel : Nat} {t : Tree K V} {p : List K} {b : Nat} (hv : Valid t) (hw : Narrow w t)
    (ih : t.pre.length < p.length → ∀ x ∈ t.kids, ∃ k,
      Runs (findGoM (fun a b => pure (decide (a = b))) (tick2 compare) fuel x (p.drop t.pre.length)) (findGo fuel x (p.drop t.pre.length)) k [] ∧ k ≤ b) :
    ∃ k, Runs (findGoM (fun a b => pure (decide (a = b))) (tick2 compare) (fuel + 1) t p) (findGo (fuel + 1) t p) k [] ∧
      (k = 0 ∨ t.pre.length < p.length ∧ k ≤ Nat.log2 w + 2 + b) := by
  have hk := commonPrefix_runs0 t.pre p
  have hla := commonPrefix_le_left t.pre p
  have hlb := commonPrefix_le_right t.pre p
  suffices ∃ k', Runs _ (findGo (fuel + 1) t p) k' [] ∧ (k' = 0 ∨ t.pre.length < p.length ∧ k' ≤ Nat.log2 w + 2 + b) by
    obtain ⟨k', hk', hle⟩ := this
    exact ⟨0 + k', by rw [findGoM]; exact Runs.bind (ss := []) (ss' := []) hk hk', by rw [Nat.zero_add]; exact hle⟩
  rw [findGo]
  generalize commonPrefix t.pre p = n at *
  by_cases c1 : p.length - n = 0 ∧ t.pre.length - n = 0
  · rw [if_pos c1, if_pos c1]; exact ⟨0, Runs.pure _, .inl rfl⟩
  rw [if_neg c1, if_neg c1]
  by_cases c2 : p.length - n = 0
  · rw [if_pos c2, if_pos c2]; exact ⟨0, Runs.pure _, .inl rfl⟩
  rw [if_neg c2, if_neg c2]
  by_cases c3 : t.pre.length - n = 0
  · rw [if_pos c3, if_pos c3]
    have e : n = t.pre.length := by omega
    have hlt : t.pre.length < p.length := by omega
    cases hc : p[n]? with
    | none => exact ⟨0, Runs.pure _, .inl rfl⟩
    | some c =>
      simp only [hv.kids.headed, ↓reduceIte]
      obtain ⟨k1, hs, s0, s1, s2⟩ := binarySearchBy_runs (fun e : Tree K V => compare e.pre.head? (some c))
        (fun e : Tree K V => headCmpM (tick2 compare) e c) t.kids (fun x hx => by
          obtain ⟨d, q, e⟩ := headed_mem hv.kids.headed hx
          simp only [headCmpM, e, List.head?_cons]
          exact Runs.tick _ _ _)
      have hk1 := (searchCost_log s0 s1 s2).1
      have := log2_le_log2 (narrow_iff.1 hw).1
      cases hb : binarySearchBy (fun e : Tree K V => compare e.pre.head? (some c)) t.kids with
      | notFound i =>
        rw [hb] at hs
        exact ⟨k1 + 0, Runs.bind (ss := []) (ss' := []) hs (Runs.pure _), .inr ⟨hlt, by omega⟩⟩
      | found i =>
        rw [hb] at hs
        simp only
        cases hx : t.kids[i]? with
        | none => exact ⟨k1 + 0, Runs.bind (ss := []) (ss' := []) hs (by simp only [hx]; exact Runs.pure _), .inr ⟨hlt, by omega⟩⟩
        | some x =>
          obtain ⟨k', hk', hle⟩ := ih hlt x (List.mem_of_getElem? hx)
          rw [e]
          exact ⟨k1 + k', Runs.bind (ss := []) (ss' := []) hs (by simp only [hx]; exact hk'), .inr ⟨hlt, by omega⟩⟩
  · rw [if_neg c3, if_neg c3]; exact ⟨0, Runs.pure _, .inl rfl⟩

theorem findGo_cmps_ne {w : Nat} : ∀ fuel (t : Tree K V) (p : List K), Valid t → Narrow w t → t.pre ≠ [] →
    ∃ k, Runs (findGoM (fun a b => pure (decide (a = b))) (tick2 compare) fuel t p) (findGo fuel t p) k [] ∧
      k ≤ (p.length - 1) * (Nat.log2 w + 2) := by
  intro fuel
  induction fuel with
  | zero => intro t p _ _ _; exact ⟨0, Runs.pure _, Nat.zero_le _⟩
  | succ fuel ih =>
    intro t p hv hw hne
    have hpos := List.length_pos_iff.2 hne
    obtain ⟨k, hk, h⟩ := findGo_cmps_step (fuel := fuel) (p := p) (b := (p.length - 2) * (Nat.log2 w + 2)) hv hw (fun hlt x hx => by
      obtain ⟨k, hk, hle⟩ := ih x (p.drop t.pre.length) (hv.kids.valid x hx) ((narrow_iff.1 hw).2 x hx) (hv.kids.ne x hx)
      refine ⟨k, hk, Nat.le_trans hle (Nat.mul_le_mul_right _ ?_)⟩
      rw [List.length_drop]; omega)
    refine ⟨k, hk, ?_⟩
    rcases h with rfl | ⟨hlt, h⟩
    · exact Nat.zero_le _
    · obtain ⟨m, hm⟩ : ∃ m, p.length = m + 2 := ⟨p.length - 2, by omega⟩
      simp only [hm, Nat.add_sub_cancel, show m + 2 - 1 = m + 1 by omega, Nat.succ_mul] at h ⊢
      omega

/-- comparisons -/
theorem findGo_cmps {w fuel : Nat} {t : Tree K V} (hv : Valid t) (hw : Narrow w t) (p : List K) :
    ∃ k, Runs (findGoM (fun a b => pure (decide (a = b))) (tick2 compare) fuel t p) (findGo fuel t p) k [] ∧
      k ≤ p.length * (Nat.log2 w + 2) := by
  cases fuel with
  | zero => exact ⟨0, Runs.pure _, Nat.zero_le _⟩
  | succ fuel =>
    obtain ⟨k, hk, h⟩ := findGo_cmps_step (fuel := fuel) (p := p) (b := (p.length - 1) * (Nat.log2 w + 2)) hv hw (fun hlt x hx => by
      obtain ⟨k, hk, hle⟩ := findGo_cmps_ne (w := w) fuel x (p.drop t.pre.length) (hv.kids.valid x hx) ((narrow_iff.1 hw).2 x hx) (hv.kids.ne x hx)
      refine ⟨k, hk, Nat.le_trans hle (Nat.mul_le_mul_right _ ?_)⟩
      rw [List.length_drop]; omega)
    refine ⟨k, hk, ?_⟩
    rcases h with rfl | ⟨hlt, h⟩
    · exact Nat.zero_le _
    · obtain ⟨m, hm⟩ : ∃ m, p.length = m + 1 := ⟨p.length - 1, by omega⟩
      simp only [hm, Nat.add_sub_cancel, Nat.succ_mul] at h ⊢
      omega

/-- with few different key components, nodes have few children -/
theorem Valid.narrow {w : Nat} (rank : K → Nat) (hr : ∀ x y, compare x y = .lt → rank x < rank y) (hb : ∀ x, rank x < w) {t : Tree K V} :
    Valid t → Narrow w t := by
  refine induct (P := fun t => Valid t → Narrow w t) ?_ t
  intro p v ks ih hv
  refine .mk ?_ (fun c hc => ih c hc (hv.kids.valid c hc))
  have hk : Kids ks := hv.kids
  have key : ∀ (ks : List (Tree K V)) (lo : Nat), Kids ks → (∀ c ∈ ks, ∀ x, hd c = some x → lo ≤ rank x) → ks.length + lo ≤ w ∨ ks = [] := by
    intro ks
    induction ks with
    | nil => intro lo _ _; exact .inr rfl
    | cons c cs ihk =>
      intro lo hk hlo
      left
      have hx : ∃ x, hd c = some x := by
        have := hk.ne c (by simp)
        cases e : c.pre with
        | nil => exact absurd e this
        | cons x q => exact ⟨x, by simp [hd, e]⟩
      obtain ⟨x, hx⟩ := hx
      have h0 := hlo c (by simp) x hx
      have hbx := hb x
      rcases ihk (rank x + 1) (hk.sublist (List.sublist_cons_self _ _)) (fun c' hc' y hy => by
        have h := (List.pairwise_cons.1 hk.asc).1 c' hc'
        have h : compare (hd c) (hd c') = .lt := h
        rw [hx, hy] at h
        exact hr x y h) with h | rfl
      · simp only [List.length_cons]; omega
      · simp only [List.length_cons, List.length_nil]; omega
  rcases key ks 0 hk (fun _ _ _ _ => Nat.zero_le _) with h | rfl
  · exact h
  · simp
end Tree
end Verif
