import Verif.Model.BTreeMap
import Verif.Lemmas.MapOps
/-! Lemmas about the ordered-entry-list model of `BTreeMap`. -/
namespace Verif
namespace BTreeMap
open Std

variable {K V W R : Type _} [Ord K] [TransOrd K]

/-- the entries are strictly ascending by key (std's guarantee) -/
def Asc {K V : Type _} [Ord K] (m : BTreeMap K V) : Prop := AscendingBy Prod.fst m.entries

omit [TransOrd K] in
theorem get_eq (m : BTreeMap K V) (k : K) : m.get k = (findBy Prod.fst m.entries k).map (·.2) := rfl

theorem get_iff {m : BTreeMap K V} (h : m.Asc) {k : K} {v : V} : m.get k = some v ↔ Maps m.entries k v := by
  rw [get_eq, ← findBy_maps h]
  simp

theorem get_none_iff {m : BTreeMap K V} {k : K} : m.get k = none ↔ ¬ HasKey m.entries k := by
  rw [get_eq, ← findBy_none_hasKey]; simp

theorem get_congr (m : BTreeMap K V) {k k' : K} (e : compare k k' = .eq) : m.get k = m.get k' := by
  rw [get_eq, get_eq, findBy_congr _ _ e]

theorem get_mem {m : BTreeMap K V} (h : m.Asc) {k : K} {v : V} (hm : (k, v) ∈ m.entries) : m.get k = some v :=
  (get_iff h).2 (maps_of_mem hm)

theorem mem_stdInsert {l : List (K × V)} (h : AscendingBy Prod.fst l) (k : K) (v : V) (e : K × V) :
    e ∈ stdInsert k v l ↔ (e ∈ l ∧ compare e.1 k ≠ .eq) ∨ (compare e.1 k = .eq ∧ e.2 = v ∧
      ((∃ w, (e.1, w) ∈ l) ∨ (e.1 = k ∧ ¬ HasKey l k))) := by
  induction l with
  | nil =>
    simp only [stdInsert, List.mem_singleton, List.not_mem_nil, false_and, false_or, HasKey, Maps]
    constructor
    · rintro rfl; exact ⟨cmp_self _, rfl, .inr ⟨rfl, by simp⟩⟩
    · rintro ⟨_, h2, (⟨w, hw⟩ | ⟨h3, _⟩)⟩
      · cases hw
      · exact Prod.ext h3 h2
  | cons x l ih =>
    rw [ascendingBy_cons] at h
    have ih := ih h.2
    simp only [stdInsert]
    split
    · rename_i hc
      have hlt : ∀ y ∈ x :: l, compare k y.1 = .lt := by
        intro y hy
        rcases List.mem_cons.1 hy with rfl | hy
        · exact hc
        · exact cmp_lt_trans hc (h.1 y hy)
      have hno : ¬ HasKey (x :: l) k := by
        rintro ⟨w, k', hm, e'⟩
        have := hlt _ hm
        rw [cmp_symm e'] at this; cases this
      constructor
      · intro he
        rcases List.mem_cons.1 he with rfl | he
        · exact .inr ⟨cmp_self _, rfl, .inr ⟨rfl, hno⟩⟩
        · exact .inl ⟨he, fun e' => by have := hlt _ he; rw [cmp_symm e'] at this; cases this⟩
      · rintro (⟨he, _⟩ | ⟨h1, h2, (⟨w, hw⟩ | ⟨h3, _⟩)⟩)
        · exact List.mem_cons_of_mem _ he
        · have := hlt _ hw; rw [cmp_symm h1] at this; cases this
        · exact List.mem_cons.2 (.inl (Prod.ext h3 h2))
    · rename_i hc
      have hxk := cmp_symm hc
      constructor
      · intro he
        rcases List.mem_cons.1 he with rfl | he
        · exact .inr ⟨hxk, rfl, .inl ⟨x.2, by simp⟩⟩
        · refine .inl ⟨List.mem_cons_of_mem _ he, fun e' => ?_⟩
          have := h.1 _ he
          rw [cmp_eq_trans hxk (cmp_symm e')] at this; cases this
      · rintro (⟨he, hne⟩ | ⟨h1, h2, (⟨w, hw⟩ | ⟨h3, h4⟩)⟩)
        · rcases List.mem_cons.1 he with rfl | he
          · exact absurd hxk hne
          · exact List.mem_cons_of_mem _ he
        · rcases List.mem_cons.1 hw with e' | hw
          · apply List.mem_cons.2; left
            obtain ⟨e1, e2⟩ := e
            simp only at *
            rw [← e']; simp [h2]
          · have := h.1 _ hw
            simp only at this
            rw [cmp_eq_trans hxk (cmp_symm h1)] at this; cases this
        · exact absurd ⟨x.2, x.1, by simp, hxk⟩ h4
    · rename_i hc
      have hxk : compare x.1 k = .lt := cmp_gt_iff.1 hc
      have hk : HasKey (x :: l) k ↔ HasKey l k := by
        constructor
        · rintro ⟨w, k', hm, e'⟩
          rcases List.mem_cons.1 hm with rfl | hm
          · simp [hxk] at e'
          · exact ⟨w, k', hm, e'⟩
        · rintro ⟨w, k', hm, e'⟩; exact ⟨w, k', List.mem_cons_of_mem _ hm, e'⟩
      rw [List.mem_cons, ih, hk]
      constructor
      · rintro (rfl | (⟨h1, h2⟩ | ⟨h1, h2, h3⟩))
        · exact .inl ⟨by simp, by simp [hxk]⟩
        · exact .inl ⟨List.mem_cons_of_mem _ h1, h2⟩
        · refine .inr ⟨h1, h2, ?_⟩
          rcases h3 with ⟨w, hw⟩ | h3
          · exact .inl ⟨w, List.mem_cons_of_mem _ hw⟩
          · exact .inr h3
      · rintro (⟨h1, h2⟩ | ⟨h1, h2, h3⟩)
        · rcases List.mem_cons.1 h1 with rfl | h1
          · exact .inl rfl
          · exact .inr (.inl ⟨h1, h2⟩)
        · refine .inr (.inr ⟨h1, h2, ?_⟩)
          rcases h3 with ⟨w, hw⟩ | h3
          · rcases List.mem_cons.1 hw with e' | hw
            · rw [← e'] at hxk; simp only at hxk; rw [h1] at hxk; cases hxk
            · exact .inl ⟨w, hw⟩
          · exact .inr h3

theorem stdInsert_asc {l : List (K × V)} (h : AscendingBy Prod.fst l) (k : K) (v : V) :
    AscendingBy Prod.fst (stdInsert k v l) := by
  induction l with
  | nil => simp [stdInsert, AscendingBy]
  | cons x l ih =>
    have h' := ascendingBy_cons.1 h
    simp only [stdInsert]
    split
    · rename_i hc
      rw [ascendingBy_cons]
      refine ⟨?_, h⟩
      intro y hy
      rcases List.mem_cons.1 hy with rfl | hy
      · exact hc
      · exact cmp_lt_trans hc (h'.1 y hy)
    · rw [ascendingBy_cons]; exact ⟨h'.1, h'.2⟩
    · rename_i hc
      rw [ascendingBy_cons]
      refine ⟨?_, ih h'.2⟩
      intro y hy
      rcases (mem_stdInsert h'.2 k v y).1 hy with ⟨h1, _⟩ | ⟨h1, _, _⟩
      · exact h'.1 y h1
      · exact cmp_lt_of_lt_of_eq (cmp_gt_iff.1 hc) (cmp_symm h1)

theorem insert_asc {m : BTreeMap K V} (h : m.Asc) (k : K) (v : V) : (m.insert k v).Asc := stdInsert_asc h k v

theorem get_insert {m : BTreeMap K V} (h : m.Asc) (k k' : K) (v : V) :
    (m.insert k v).get k' = if compare k k' = .eq then some v else m.get k' := by
  apply Option.ext
  intro w
  rw [get_iff (insert_asc h k v)]
  by_cases hc : compare k k' = .eq
  · simp only [hc, ↓reduceIte, Option.some.injEq]
    constructor
    · rintro ⟨k2, hm, e⟩
      rcases (mem_stdInsert h k v _).1 hm with ⟨_, h2⟩ | ⟨_, h2, _⟩
      · exact absurd (cmp_eq_trans e (cmp_symm hc)) h2
      · exact h2.symm
    · rintro rfl
      by_cases hk : HasKey m.entries k
      · obtain ⟨w, k2, hm, e⟩ := hk
        exact ⟨k2, (mem_stdInsert h k v _).2 (.inr ⟨e, rfl, .inl ⟨w, hm⟩⟩), cmp_eq_trans e hc⟩
      · exact ⟨k, (mem_stdInsert h k v _).2 (.inr ⟨cmp_self _, rfl, .inr ⟨rfl, hk⟩⟩), hc⟩
  · simp only [hc, ↓reduceIte, get_iff h]
    constructor
    · rintro ⟨k2, hm, e⟩
      rcases (mem_stdInsert h k v _).1 hm with ⟨h1, _⟩ | ⟨h1, _, _⟩
      · exact ⟨k2, h1, e⟩
      · exact absurd (cmp_eq_trans (cmp_symm h1) e) hc
    · rintro ⟨k2, hm, e⟩
      refine ⟨k2, (mem_stdInsert h k v _).2 (.inl ⟨hm, fun e' => hc (cmp_eq_trans (cmp_symm e') e)⟩), e⟩

/-- insertion of optional results in sequence -/
def insAll (res : BTreeMap K R) (l : List (K × Option R)) : BTreeMap K R :=
  l.foldl (fun res e => insertOpt res e.1 e.2) res

/-- keys pairwise different in the order -/
def Distinct {K R : Type _} [Ord K] (l : List (K × R)) : Prop := l.Pairwise (fun x y => compare x.1 y.1 ≠ .eq)

omit [TransOrd K] in
theorem AscendingBy.distinct {l : List (K × V)} (h : AscendingBy Prod.fst l) (g : K × V → Option R) :
    Distinct (l.map (fun e => (e.1, g e))) := by
  rw [Distinct, List.pairwise_map]
  exact h.imp (fun h => by rw [h]; simp)

theorem insAll_spec (l : List (K × Option R)) (hd : Distinct l) : ∀ (res : BTreeMap K R), res.Asc →
    (∀ e ∈ l, ¬ HasKey res.entries e.1) →
    (insAll res l).Asc ∧ ∀ k r, (k, r) ∈ (insAll res l).entries ↔ (k, r) ∈ res.entries ∨ (k, some r) ∈ l := by
  induction l with
  | nil => intro res h _; exact ⟨h, by simp [insAll]⟩
  | cons x l ih =>
    intro res h hk
    obtain ⟨xk, xo⟩ := x
    have hd' := List.pairwise_cons.1 hd
    have step : insAll res ((xk, xo) :: l) = insAll (insertOpt res xk xo) l := rfl
    rw [step]
    cases xo with
    | none =>
      have := ih hd'.2 res h (fun e he => hk e (List.mem_cons_of_mem _ he))
      refine ⟨this.1, fun k r => ?_⟩
      rw [show insertOpt res xk none = res from rfl, this.2]
      simp
    | some xr =>
      have hno := hk (xk, some xr) (by simp)
      have mem : ∀ e, e ∈ (res.insert xk xr).entries ↔ e ∈ res.entries ∨ e = (xk, xr) := by
        intro e
        rw [insert, mem_stdInsert h]
        constructor
        · rintro (⟨h1, _⟩ | ⟨h1, h2, (⟨w, hw⟩ | ⟨h3, _⟩)⟩)
          · exact .inl h1
          · exact absurd ⟨w, e.1, hw, h1⟩ hno
          · exact .inr (Prod.ext h3 h2)
        · rintro (h1 | rfl)
          · exact .inl ⟨h1, fun e' => hno ⟨e.2, e.1, h1, e'⟩⟩
          · exact .inr ⟨cmp_self _, rfl, .inr ⟨rfl, hno⟩⟩
      have := ih hd'.2 (res.insert xk xr) (insert_asc h xk xr) (by
        intro e he ⟨w, k', hm, e'⟩
        rcases (mem _).1 hm with h1 | h1
        · exact hk e (List.mem_cons_of_mem _ he) ⟨w, k', h1, e'⟩
        · cases h1; exact hd'.1 e he e')
      refine ⟨this.1, fun k r => ?_⟩
      rw [show insertOpt res xk (some xr) = res.insert xk xr from rfl, this.2, mem]
      simp only [List.mem_cons, Prod.mk.injEq, Option.some.injEq, or_assoc]

omit [TransOrd K] in
theorem new_asc : (new : BTreeMap K V).Asc := by simp [Asc, new]

/-- joining by walking over one map -/
theorem walk_spec (l : List (K × V)) (h : AscendingBy Prod.fst l) (g : K × V → Option R) :
    (insAll new (l.map (fun e => (e.1, g e)))).Asc ∧
    ∀ k r, (k, r) ∈ (insAll new (l.map (fun e => (e.1, g e)))).entries ↔ ∃ v, (k, v) ∈ l ∧ g (k, v) = some r := by
  have := insAll_spec _ (AscendingBy.distinct h g) (new : BTreeMap K R) new_asc (by
    rintro e _ ⟨v, k', hm, _⟩; simp [new] at hm)
  refine ⟨this.1, fun k r => ?_⟩
  rw [this.2]
  simp only [new, List.not_mem_nil, false_or, List.mem_map, Prod.mk.injEq, Prod.exists]
  constructor
  · rintro ⟨a, b, h1, rfl, h2⟩; exact ⟨b, h1, h2⟩
  · rintro ⟨v, h1, h2⟩; exact ⟨k, v, h1, rfl, h2⟩

omit [TransOrd K] in
theorem insAll_map (l : List (K × V)) (g : K × V → Option R) (res : BTreeMap K R) :
    insAll res (l.map (fun e => (e.1, g e))) = l.foldl (fun res e => insertOpt res e.1 (g e)) res := by
  rw [insAll, List.foldl_map]

/-! ### in-place primitives -/

omit [TransOrd K] in
theorem retain_asc {m : BTreeMap K V} (h : m.Asc) [TransOrd K] (f : K → V → V × Bool) : (m.retain f).Asc := by
  refine ascendingBy_filterMap (ka := Prod.fst) h ?_
  intro a _ r hr
  split at hr <;> simp at hr
  subst hr; exact cmp_self _

theorem mem_retain (m : BTreeMap K V) (f : K → V → V × Bool) (k : K) (v : V) :
    (k, v) ∈ (m.retain f).entries ↔ ∃ v0, (k, v0) ∈ m.entries ∧ f k v0 = (v, true) := by
  simp only [retain, List.mem_filterMap, Prod.exists]
  constructor
  · rintro ⟨a, b, h1, h2⟩
    split at h2 <;> simp at h2
    rename_i w heq
    obtain ⟨rfl, rfl⟩ := h2
    exact ⟨b, h1, heq⟩
  · rintro ⟨v0, h1, h2⟩
    exact ⟨k, v0, h1, by rw [h2]⟩

theorem setMut_asc {m : BTreeMap K V} (h : m.Asc) (k : K) (v : V) : (m.setMut k v).Asc := by
  rw [Asc, setMut, ascendingBy_map, List.map_map, ← ascendingBy_map]
  refine h.imp ?_
  intro x y hxy
  simp only [Function.comp]
  split <;> split <;> exact hxy

theorem remove_asc {m : BTreeMap K V} (h : m.Asc) (k : K) : (m.remove k).Asc := h.sublist List.filter_sublist

theorem mem_setMut (m : BTreeMap K V) (k : K) (v : V) (e : K × V) :
    e ∈ (m.setMut k v).entries ↔ (e ∈ m.entries ∧ compare e.1 k ≠ .eq) ∨ (compare e.1 k = .eq ∧ e.2 = v ∧ ∃ w, (e.1, w) ∈ m.entries) := by
  simp only [setMut, List.mem_map]
  constructor
  · rintro ⟨x, hx, rfl⟩
    by_cases hc : compare x.1 k = .eq
    · rw [if_pos hc]; exact .inr ⟨hc, rfl, x.2, hx⟩
    · simp only [hc, ↓reduceIte]; exact .inl ⟨hx, hc⟩
  · rintro (⟨h1, h2⟩ | ⟨h1, h2, w, hw⟩)
    · exact ⟨e, h1, by simp [h2]⟩
    · exact ⟨(e.1, w), hw, by simp [h1, ← h2]⟩

omit [TransOrd K] in
theorem mem_remove (m : BTreeMap K V) (k : K) (e : K × V) : e ∈ (m.remove k).entries ↔ e ∈ m.entries ∧ compare e.1 k ≠ .eq := by
  simp [remove, List.mem_filter]

theorem get_setMut {m : BTreeMap K V} (h : m.Asc) (k k' : K) (v : V) :
    (m.setMut k v).get k' = if compare k k' = .eq ∧ (m.get k').isSome then some v else m.get k' := by
  apply Option.ext
  intro w
  rw [get_iff (setMut_asc h k v)]
  by_cases hc : compare k k' = .eq
  · cases hg : m.get k' with
    | none =>
      simp only [Option.isSome_none, Bool.false_eq_true, and_false, ↓reduceIte, reduceCtorEq, iff_false]
      rintro ⟨k2, hm, e⟩
      rcases (mem_setMut m k v _).1 hm with ⟨h1, _⟩ | ⟨_, _, w', h1⟩
      · exact get_none_iff.1 hg ⟨_, k2, h1, e⟩
      · exact get_none_iff.1 hg ⟨_, k2, h1, e⟩
    | some u =>
      simp only [hc, Option.isSome_some, and_self, ↓reduceIte, Option.some.injEq]
      constructor
      · rintro ⟨k2, hm, e⟩
        rcases (mem_setMut m k v _).1 hm with ⟨_, h2⟩ | ⟨_, h2, _⟩
        · exact absurd (cmp_eq_trans e (cmp_symm hc)) h2
        · exact h2.symm
      · rintro rfl
        obtain ⟨k2, hm, e⟩ := (get_iff h).1 hg
        exact ⟨k2, (mem_setMut m k v _).2 (.inr ⟨cmp_eq_trans e (cmp_symm hc), rfl, u, hm⟩), e⟩
  · simp only [hc, false_and, ↓reduceIte, get_iff h]
    constructor
    · rintro ⟨k2, hm, e⟩
      rcases (mem_setMut m k v _).1 hm with ⟨h1, _⟩ | ⟨h1, _, _⟩
      · exact ⟨k2, h1, e⟩
      · exact absurd (cmp_eq_trans (cmp_symm h1) e) hc
    · rintro ⟨k2, hm, e⟩
      exact ⟨k2, (mem_setMut m k v _).2 (.inl ⟨hm, fun e' => hc (cmp_eq_trans (cmp_symm e') e)⟩), e⟩

theorem get_remove {m : BTreeMap K V} (h : m.Asc) (k k' : K) :
    (m.remove k).get k' = if compare k k' = .eq then none else m.get k' := by
  apply Option.ext
  intro w
  rw [get_iff (remove_asc h k)]
  by_cases hc : compare k k' = .eq
  · simp only [hc, ↓reduceIte, reduceCtorEq, iff_false]
    rintro ⟨k2, hm, e⟩
    exact ((mem_remove m k _).1 hm).2 (cmp_eq_trans e (cmp_symm hc))
  · simp only [hc, ↓reduceIte, get_iff h]
    constructor
    · rintro ⟨k2, hm, e⟩; exact ⟨k2, ((mem_remove m k _).1 hm).1, e⟩
    · rintro ⟨k2, hm, e⟩
      exact ⟨k2, (mem_remove m k _).2 ⟨hm, fun e' => hc (cmp_eq_trans (cmp_symm e') e)⟩, e⟩

theorem get_retain {m : BTreeMap K V} (h : m.Asc) (f : K → V → V × Bool) (hf : ∀ k k' v, compare k k' = .eq → f k v = f k' v) (k : K) :
    (m.retain f).get k = (m.get k).bind (fun v => if (f k v).2 then some (f k v).1 else none) := by
  apply Option.ext
  intro w
  rw [get_iff (retain_asc h f)]
  constructor
  · rintro ⟨k2, hm, e⟩
    obtain ⟨v0, h1, h2⟩ := (mem_retain m f _ _).1 hm
    rw [(get_iff h).2 ⟨k2, h1, e⟩, Option.bind_some, ← hf _ _ _ e, h2]; rfl
  · intro hb
    cases hg : m.get k with
    | none => simp [hg] at hb
    | some v =>
      rw [hg, Option.bind_some] at hb
      obtain ⟨k2, hm, e⟩ := (get_iff h).1 hg
      refine ⟨k2, (mem_retain m f _ _).2 ⟨v, hm, ?_⟩, e⟩
      rw [hf _ _ _ e]
      split at hb
      · rename_i h2
        simp only [Option.some.injEq] at hb
        exact Prod.ext hb h2
      · cases hb

/-- A walk over `b` whose steps each change only the visited key. -/
theorem fold_spec (step : BTreeMap K V → K × W → BTreeMap K V) (g : K → Option V → W → Option V)
    (hstep : ∀ m e, m.Asc → (step m e).Asc ∧ ∀ k, (step m e).get k = if compare e.1 k = .eq then g e.1 (m.get e.1) e.2 else m.get k)
    (l : List (K × W)) : ∀ (m : BTreeMap K V), AscendingBy Prod.fst l → m.Asc →
    (l.foldl step m).Asc ∧ ∀ k, (l.foldl step m).get k =
      match findBy Prod.fst l k with
      | some e => g e.1 (m.get k) e.2
      | none => m.get k := by
  induction l with
  | nil => intro m _ h; exact ⟨h, fun k => rfl⟩
  | cons x l ih =>
    intro m hl h
    rw [ascendingBy_cons] at hl
    obtain ⟨h1, h2⟩ := hstep m x h
    obtain ⟨h3, h4⟩ := ih (step m x) hl.2 h1
    refine ⟨h3, fun k => ?_⟩
    rw [List.foldl_cons, h4, h2, findBy_cons]
    by_cases hc : compare x.1 k = .eq
    · rw [if_pos hc, if_pos hc, findBy_none_of_lt hl.1 hc, get_congr m hc]
    · rw [if_neg hc, if_neg hc]

end BTreeMap
end Verif
