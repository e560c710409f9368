import Verif.Lemmas.MapHistory
import Verif.Spec.TotalMap
namespace Verif
open Std VecMap TotalVecMap
variable {K : Type} [Ord K] [TransOrd K] {V W : Type}

theorem index_of_maps {m : TotalVecMap K V} (h : AscendingBy Prod.fst m.map.entries) {k : K} {v : V} (hm : Maps m.map.entries k v) :
    m.index k = v := by
  rw [TotalVecMap.index, (get_iff h k v).2 hm]; rfl
theorem index_of_not {m : TotalVecMap K V} (h : AscendingBy Prod.fst m.map.entries) {k : K} (hm : ¬ HasKey m.map.entries k) :
    m.index k = m.default := by
  rw [TotalVecMap.index, (get_none_iff h k).2 hm]; rfl

/-- the value `combine_ref` computes for one join argument -/
def rawArg (f : V → V → Call V) (da db : V) : OuterJoinArg K V V → Call V
  | .left _ v => f v db
  | .right _ w => f da w
  | .both _ v w => f v w

/-- the closure `combine_ref` passes to `outer_join` -/
def argClosure [BEq V] (f : V → V → Call V) (da db rd : V) (arg : OuterJoinArg K V V) : Call (Option V) :=
  match rawArg f da db arg with
  | .panic => .panic
  | .ret r => .ret (if r != rd then some r else none)

theorem combineRef_def [BEq V] (a b : TotalVecMap K V) (f : V → V → Call V) : a.combineRef b f =
    match f a.default b.default with
    | .panic => .panic
    | .ret rd => match (a.map.outerJoin b.map (argClosure f a.default b.default rd)).2 with
      | .panic => .panic
      | _ => .ret ⟨(a.map.outerJoin b.map (argClosure f a.default b.default rd)).1, rd⟩ := by
  unfold TotalVecMap.combineRef
  cases f a.default b.default with
  | panic => rfl
  | ret rd =>
    have : (fun arg : OuterJoinArg K V V =>
      let r := match arg with
        | .left _ v => f v b.default
        | .right _ w => f a.default w
        | .both _ v w => f v w
      match r with
      | .panic => .panic
      | .ret r => .ret (if r != rd then some r else none)) = argClosure f a.default b.default rd := by
      funext arg; cases arg <;> rfl
    simp only
    rw [← this]
    rfl

/-- `combine_ref` returns iff the function returns on the defaults and on the values of every stored key -/
theorem combineRef_spec [BEq V] {a b : TotalVecMap K V} (ha : AscendingBy Prod.fst a.map.entries)
    (hb : AscendingBy Prod.fst b.map.entries) (f : V → V → Call V) :
    (a.combineRef b f = .panic ∧
      (f a.default b.default = .panic ∨ ∃ k, (HasKey a.map.entries k ∨ HasKey b.map.entries k) ∧ f (a.index k) (b.index k) = .panic)) ∨
    ∃ r, a.combineRef b f = .ret r ∧ f a.default b.default = .ret r.default ∧
      AscendingBy Prod.fst r.map.entries ∧
      ∀ k, ∃ v, f (a.index k) (b.index k) = .ret v ∧
        ∀ x, Maps r.map.entries k x ↔ (HasKey a.map.entries k ∨ HasKey b.map.entries k) ∧ x = v ∧ (v == r.default) = false := by
  rw [combineRef_def]
  cases hd : f a.default b.default with
  | panic => exact .inl ⟨rfl, .inl rfl⟩
  | ret rd =>
    simp only
    generalize hc : (argClosure f a.default b.default rd : OuterJoinArg K V V → Call (Option V)) = c
    let g : OuterJoinArg K V V → Option V := fun x => match c x with
      | .ret r => r
      | .panic => none
    have hg : ∀ x r, c x = .ret r → g x = r := by intro x r h; simp only [g, h]
    obtain ⟨c1, c2, -⟩ := collect_call hg (joinArgs a.map.entries b.map.entries)
    rw [outerJoin_eq ha hb c]
    by_cases hp : ∃ x ∈ joinArgs a.map.entries b.map.entries, c x = .panic
    · left
      simp only [c2 hp, true_and]
      right
      obtain ⟨x, hx, hcx⟩ := hp
      rw [mem_joinArgs ha hb] at hx
      subst hc
      unfold argClosure at hcx
      cases x with
      | left k v =>
        obtain ⟨h1, h2⟩ := hx
        refine ⟨k, .inl ⟨v, maps_of_mem h1⟩, ?_⟩
        rw [index_of_maps ha (maps_of_mem h1), index_of_not hb h2]
        simp only [rawArg] at hcx
        cases hf : f v b.default with
        | panic => rfl
        | ret r => rw [hf] at hcx; cases hcx
      | right k w =>
        obtain ⟨h1, h2⟩ := hx
        refine ⟨k, .inr ⟨w, maps_of_mem h1⟩, ?_⟩
        rw [index_of_maps hb (maps_of_mem h1), index_of_not ha h2]
        simp only [rawArg] at hcx
        cases hf : f a.default w with
        | panic => rfl
        | ret r => rw [hf] at hcx; cases hcx
      | both k v w =>
        obtain ⟨h1, h2⟩ := hx
        refine ⟨k, .inr ⟨w, h2⟩, ?_⟩
        rw [index_of_maps ha (maps_of_mem h1), index_of_maps hb h2]
        simp only [rawArg] at hcx
        cases hf : f v w with
        | panic => rfl
        | ret r => rw [hf] at hcx; cases hcx
    · right
      have hnp : ∀ x ∈ joinArgs a.map.entries b.map.entries, c x ≠ .panic := fun x hx h => hp ⟨x, hx, h⟩
      rw [c1 hnp]
      simp only
      refine ⟨_, rfl, rfl, pureJoin_asc (joinArgs_asc ha hb), fun k => ?_⟩
      have hresp : RespectsKeys g := by
        subst hc
        intro k k' _
        exact ⟨fun _ => rfl, fun _ => rfl, fun _ _ => rfl⟩
      have hgs : ∀ (arg : OuterJoinArg K V V) v, rawArg f a.default b.default arg = .ret v →
          ∀ x, g arg = some x ↔ x = v ∧ (v == rd) = false := by
        intro arg v h x
        have : c arg = .ret (if v != rd then some v else none) := by subst hc; unfold argClosure; rw [h]
        rw [hg _ _ this]
        cases hv : v == rd <;> simp [bne, hv, eq_comm]
      have hraw : ∀ arg, Offers a.map.entries b.map.entries arg → ∃ v, rawArg f a.default b.default arg = .ret v := by
        intro arg ho
        have := hnp arg ((mem_joinArgs ha hb arg).2 ho)
        subst hc
        unfold argClosure at this
        cases hr : rawArg f a.default b.default arg with
        | panic => rw [hr] at this; exact absurd rfl this
        | ret v => exact ⟨v, rfl⟩
      by_cases hka : HasKey a.map.entries k <;> by_cases hkb : HasKey b.map.entries k
      · obtain ⟨v, hv⟩ := hka
        obtain ⟨w, hw⟩ := hkb
        obtain ⟨k', hm, e⟩ := id hv
        obtain ⟨x, hx⟩ := hraw (.both k' v w) ⟨hm, (Maps.congr (cmp_symm e)).1 hw⟩
        refine ⟨x, ?_, fun y => ?_⟩
        · rw [index_of_maps ha hv, index_of_maps hb hw]; exact hx
        · rw [maps_pureJoin ha hb hresp]
          have hx' : rawArg f a.default b.default (.both k v w) = .ret x := hx
          constructor
          · rintro (⟨_, _, hn, _⟩ | ⟨_, _, hn, _⟩ | ⟨v', w', hv', hw', hgv⟩)
            · exact absurd ⟨w, hw⟩ hn
            · exact absurd ⟨v, hv⟩ hn
            · rw [Maps.unique ha hv' hv, Maps.unique hb hw' hw] at hgv
              exact ⟨.inl ⟨v, hv⟩, (hgs _ _ hx' y).1 hgv⟩
          · rintro ⟨-, h⟩
            exact .inr (.inr ⟨v, w, hv, hw, (hgs _ _ hx' y).2 h⟩)
      · obtain ⟨v, hv⟩ := hka
        obtain ⟨k', hm, e⟩ := id hv
        obtain ⟨x, hx⟩ := hraw (.left k' v) ⟨hm, fun h => hkb ((HasKey.congr e).1 h)⟩
        refine ⟨x, ?_, fun y => ?_⟩
        · rw [index_of_maps ha hv, index_of_not hb hkb]; exact hx
        · rw [maps_pureJoin ha hb hresp]
          have hx' : rawArg f a.default b.default (.left k v) = .ret x := hx
          constructor
          · rintro (⟨v', hv', hn, hgv⟩ | ⟨w, hw, hn, _⟩ | ⟨v', w', hv', hw', hgv⟩)
            · rw [Maps.unique ha hv' hv] at hgv
              exact ⟨.inl ⟨v, hv⟩, (hgs _ _ hx' y).1 hgv⟩
            · exact absurd ⟨v, hv⟩ hn
            · exact absurd ⟨w', hw'⟩ hkb
          · rintro ⟨-, h⟩
            exact .inl ⟨v, hv, hkb, (hgs _ _ hx' y).2 h⟩
      · obtain ⟨w, hw⟩ := hkb
        obtain ⟨k', hm, e⟩ := id hw
        obtain ⟨x, hx⟩ := hraw (.right k' w) ⟨hm, fun h => hka ((HasKey.congr e).1 h)⟩
        refine ⟨x, ?_, fun y => ?_⟩
        · rw [index_of_not ha hka, index_of_maps hb hw]; exact hx
        · rw [maps_pureJoin ha hb hresp]
          have hx' : rawArg f a.default b.default (.right k w) = .ret x := hx
          constructor
          · rintro (⟨v', hv', hn, hgv⟩ | ⟨w', hw', hn, hgv⟩ | ⟨v', w', hv', hw', hgv⟩)
            · exact absurd ⟨v', hv'⟩ hka
            · rw [Maps.unique hb hw' hw] at hgv
              exact ⟨.inr ⟨w, hw⟩, (hgs _ _ hx' y).1 hgv⟩
            · exact absurd ⟨v', hv'⟩ hka
          · rintro ⟨-, h⟩
            exact .inr (.inl ⟨w, hw, hka, (hgs _ _ hx' y).2 h⟩)
      · refine ⟨rd, ?_, fun y => ?_⟩
        · rw [index_of_not ha hka, index_of_not hb hkb]; exact hd
        · rw [maps_pureJoin ha hb hresp]
          constructor
          · rintro (⟨v', hv', hn, hgv⟩ | ⟨w', hw', hn, hgv⟩ | ⟨v', w', hv', hw', hgv⟩)
            · exact absurd ⟨v', hv'⟩ hka
            · exact absurd ⟨w', hw'⟩ hkb
            · exact absurd ⟨v', hv'⟩ hka
          · rintro ⟨h | h, -⟩
            · exact absurd h hka
            · exact absurd h hkb

theorem mapEntries_spec [BEq W] (f : V → Call W) (d : W) (l : List (K × V)) (hl : AscendingBy Prod.fst l) :
    (mapEntries f d l = .panic ∧ ∃ e ∈ l, f e.2 = .panic) ∨
    ∃ r, mapEntries f d l = .ret r ∧ AscendingBy Prod.fst r ∧ (∀ e ∈ l, ∃ w, f e.2 = .ret w) ∧
      (∀ k w, (k, w) ∈ r ↔ ∃ v, (k, v) ∈ l ∧ f v = .ret w ∧ (w == d) = false) := by
  induction l with
  | nil => exact .inr ⟨[], rfl, List.Pairwise.nil, by simp, by simp⟩
  | cons e l ih =>
    obtain ⟨hlt, hl'⟩ := ascendingBy_cons.1 hl
    obtain ⟨ek, ev⟩ := e
    simp only [mapEntries]
    cases hf : f ev with
    | panic => exact .inl ⟨rfl, _, List.mem_cons_self, hf⟩
    | ret w =>
      simp only
      rcases ih hl' with ⟨h1, e', he', h2⟩ | ⟨r, h1, hasc, h2, h3⟩
      · exact .inl ⟨by rw [h1], e', List.mem_cons_of_mem _ he', h2⟩
      · refine .inr ⟨_, by rw [h1], ?_, ?_, ?_⟩
        · cases hw : w == d
          · simp only [bne, hw, Bool.not_false, ↓reduceIte]
            refine ascendingBy_cons.2 ⟨?_, hasc⟩
            rintro ⟨k, x⟩ hx
            obtain ⟨v, hv, -⟩ := (h3 k x).1 hx
            exact hlt _ hv
          · simp only [bne, hw, Bool.not_true, Bool.false_eq_true, ↓reduceIte]; exact hasc
        · intro x hx
          rcases List.mem_cons.1 hx with rfl | hx
          · exact ⟨w, hf⟩
          · exact h2 x hx
        · intro k x
          have : (∃ v, (k, v) ∈ (ek, ev) :: l ∧ f v = .ret x ∧ (x == d) = false) ↔
              (k = ek ∧ x = w ∧ (w == d) = false) ∨ (k, x) ∈ r := by
            rw [h3]
            simp only [List.mem_cons, Prod.mk.injEq]
            constructor
            · rintro ⟨v, ⟨rfl, rfl⟩ | hv, e1, e2⟩
              · rw [hf] at e1; cases e1; exact .inl ⟨rfl, rfl, e2⟩
              · exact .inr ⟨v, hv, e1, e2⟩
            · rintro (⟨rfl, rfl, e2⟩ | ⟨v, hv, e1, e2⟩)
              · exact ⟨ev, .inl ⟨rfl, rfl⟩, hf, e2⟩
              · exact ⟨v, .inr hv, e1, e2⟩
          rw [this]
          cases hw : w == d <;> simp [bne, hw]

/-- `map_values` -/
theorem totalMapValues_spec [BEq W] {m : TotalVecMap K V} (hm : AscendingBy Prod.fst m.map.entries) (f : V → Call W) :
    (m.mapValues f = .panic ∧ (f m.default = .panic ∨ ∃ k, HasKey m.map.entries k ∧ f (m.index k) = .panic)) ∨
    ∃ r, m.mapValues f = .ret r ∧ f m.default = .ret r.default ∧ AscendingBy Prod.fst r.map.entries ∧
      ∀ k, ∃ w, f (m.index k) = .ret w ∧
        ∀ x, Maps r.map.entries k x ↔ HasKey m.map.entries k ∧ x = w ∧ (w == r.default) = false := by
  unfold TotalVecMap.mapValues
  cases hd : f m.default with
  | panic => exact .inl ⟨rfl, .inl rfl⟩
  | ret d =>
    simp only
    rcases mapEntries_spec f d m.map.entries hm with ⟨h1, ⟨k, v⟩, he, h2⟩ | ⟨r, h1, hasc, h2, h3⟩
    · refine .inl ⟨by rw [h1], .inr ⟨k, ⟨v, maps_of_mem he⟩, ?_⟩⟩
      rw [index_of_maps hm (maps_of_mem he)]; exact h2
    · refine .inr ⟨⟨⟨r⟩, d⟩, by rw [h1], rfl, hasc, fun k => ?_⟩
      by_cases hk : HasKey m.map.entries k
      · obtain ⟨v, k', hv, e⟩ := hk
        obtain ⟨w, hw⟩ := h2 _ hv
        refine ⟨w, by rw [index_of_maps hm ⟨k', hv, e⟩]; exact hw, fun x => ?_⟩
        constructor
        · rintro ⟨k2, hx, e2⟩
          obtain ⟨v2, hv2, e3, e4⟩ := (h3 k2 x).1 hx
          have := Maps.unique hm ⟨k', hv, e⟩ ⟨k2, hv2, e2⟩
          subst this
          rw [hw] at e3; cases e3
          exact ⟨⟨v, k', hv, e⟩, rfl, e4⟩
        · rintro ⟨-, rfl, e4⟩
          exact ⟨k', (h3 _ _).2 ⟨v, hv, hw, e4⟩, e⟩
      · refine ⟨d, by rw [index_of_not hm hk]; exact hd, fun x => ?_⟩
        constructor
        · rintro ⟨k2, hx, e2⟩
          obtain ⟨v2, hv2, e3, e4⟩ := (h3 k2 x).1 hx
          exact absurd ⟨v2, k2, hv2, e2⟩ hk
        · rintro ⟨h, -⟩; exact absurd h hk

theorem new_entries [BEq V] (m : VecMap K V) (d : V) : (TotalVecMap.new m d).map.entries = m.entries.filter (fun e => e.2 != d) := by
  simp only [TotalVecMap.new, VecMap.retain]
  rw [smallVecRetain_ret (q := ()) (l := m.entries.filter (fun e => e.2 != d))]
  generalize m.entries = l
  induction l with
  | nil => rfl
  | cons x l ih =>
    simp only [keepRun, ih, List.filter_cons]

/-- invariant of all total maps the API can build -/
theorem BuiltTotalMap.inv {V : Type} [BEq V] {m : TotalVecMap K V} (h : BuiltTotalMap m) :
    AscendingBy Prod.fst m.map.entries ∧ ∀ e ∈ m.map.entries, (e.2 == m.default) = false := by
  have hnew : ∀ {V : Type} [BEq V] {m : VecMap K V} (d : V), AscendingBy Prod.fst m.entries →
      AscendingBy Prod.fst (TotalVecMap.new m d).map.entries ∧ ∀ e ∈ (TotalVecMap.new m d).map.entries, (e.2 == d) = false := by
    intro V _ m d h
    rw [new_entries]
    refine ⟨h.sublist List.filter_sublist, fun e he => ?_⟩
    have := (List.mem_filter.1 he).2
    simpa [bne] using this
  induction h with
  | new h d => exact hnew d h.ascending
  | constant v => exact ⟨List.Pairwise.nil, by simp [TotalVecMap.constant, VecMap.empty]⟩
  | deserialized seq d h =>
    unfold TotalVecMap.deserialize at h
    split at h
    · cases h
    · rename_i m hm
      split at h
      · cases h
      · cases h; exact hnew _ (visitMap_ok_asc hm)
  | combineRef ha hb f h iha ihb =>
    rcases combineRef_spec iha.1 ihb.1 f with ⟨h1, -⟩ | ⟨r, h1, -, h3, h4⟩
    · rw [h1] at h; cases h
    · rw [h1] at h; cases h
      refine ⟨h3, ?_⟩
      rintro ⟨k, v⟩ hv
      obtain ⟨w, -, h5⟩ := h4 k
      obtain ⟨-, rfl, h6⟩ := (h5 v).1 (maps_of_mem hv)
      exact h6
  | mapValues hm f h ih =>
    rcases totalMapValues_spec ih.1 f with ⟨h1, -⟩ | ⟨r, h1, -, h3, h4⟩
    · rw [h1] at h; cases h
    · rw [h1] at h; cases h
      refine ⟨h3, ?_⟩
      rintro ⟨k, v⟩ hv
      obtain ⟨w, -, h5⟩ := h4 k
      obtain ⟨-, rfl, h6⟩ := (h5 v).1 (maps_of_mem hv)
      exact h6

end Verif
