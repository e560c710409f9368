import Verif.Lemmas.VecMap
/-! Histories of `VecMap` operations. -/
namespace Verif
open Std

section
variable {K V W R : Type _} [Ord K] [TransOrd K]

theorem Maps.congr {l : List (K × V)} {k k' : K} (e : compare k k' = .eq) {v : V} : Maps l k v ↔ Maps l k' v := by
  unfold Maps; simp only [cmp_congr_right e]
theorem HasKey.congr {l : List (K × V)} {k k' : K} (e : compare k k' = .eq) : HasKey l k ↔ HasKey l k' := by
  unfold HasKey; simp only [Maps.congr e]
theorem maps_of_mem {l : List (K × V)} {k : K} {v : V} (h : (k, v) ∈ l) : Maps l k v := ⟨k, h, cmp_self k⟩
theorem Maps.unique {l : List (K × V)} (h : AscendingBy Prod.fst l) {k : K} {v w : V} (h1 : Maps l k v) (h2 : Maps l k w) : v = w := by
  obtain ⟨k1, m1, e1⟩ := h1
  obtain ⟨k2, m2, e2⟩ := h2
  have := h.eq_of_mem m1 m2 (cmp_eq_trans e1 (cmp_symm e2))
  exact congrArg Prod.snd this
omit [TransOrd K] in
theorem hasKey_iff_has {l : List (K × V)} {k : K} : HasKey l k ↔ Has (l.map Prod.fst) k := by
  unfold HasKey Maps Has
  constructor
  · rintro ⟨v, k', h, e⟩; exact ⟨k', List.mem_map.2 ⟨_, h, rfl⟩, e⟩
  · rintro ⟨y, h, e⟩
    obtain ⟨⟨k', v⟩, h', rfl⟩ := List.mem_map.1 h
    exact ⟨v, k', h', e⟩

theorem pick_last_maps (l : List (K × V)) (k : K) (v : V) :
    (∃ k', findBy Prod.fst l.reverse k = some (k', v)) ↔ LastValue l k v := by
  rw [← List.reverse_reverse l]
  generalize l.reverse = m
  rw [List.reverse_reverse]
  induction m with
  | nil => simp [LastValue]
  | cons x m ih =>
    obtain ⟨xk, xv⟩ := x
    rw [findBy_cons, List.reverse_cons]
    generalize m.reverse = l at ih
    unfold LastValue at ih ⊢
    by_cases e : compare xk k = .eq
    · simp only [e, ↓reduceIte, Option.some.injEq, Prod.mk.injEq]
      constructor
      · rintro ⟨k', rfl, rfl⟩; exact ⟨l, xk, [], rfl, e, by simp [HasKey, Maps]⟩
      · rintro ⟨before, k', after, he, hk, hn⟩
        rcases List.eq_nil_or_concat after with rfl | ⟨after', y, rfl⟩
        · have := List.append_inj' he rfl
          simp only [List.cons.injEq, Prod.mk.injEq, and_true] at this
          exact ⟨xk, rfl, this.2.2⟩
        · exfalso
          have he' : l ++ [(xk, xv)] = (before ++ (k', v) :: after') ++ [y] := by rw [he]; simp [List.concat_eq_append]
          have := (List.append_inj' he' rfl).2
          simp only [List.cons.injEq, and_true] at this
          subst this
          exact hn ⟨xv, xk, by simp [List.concat_eq_append], e⟩
    · simp only [e, ↓reduceIte]
      rw [ih]
      constructor
      · rintro ⟨before, k', after, rfl, hk, hn⟩
        refine ⟨before, k', after ++ [(xk, xv)], by simp, hk, ?_⟩
        rintro ⟨w, k2, hm, e2⟩
        rcases List.mem_append.1 hm with hm | hm
        · exact hn ⟨w, k2, hm, e2⟩
        · simp only [List.mem_singleton, Prod.mk.injEq] at hm
          rw [hm.1] at e2; exact e e2
      · rintro ⟨before, k', after, he, hk, hn⟩
        rcases List.eq_nil_or_concat after with rfl | ⟨after', y, rfl⟩
        · have := List.append_inj' he rfl
          simp only [List.cons.injEq, Prod.mk.injEq, and_true] at this
          rw [this.2.1] at e; exact absurd hk e
        · have he' : l ++ [(xk, xv)] = (before ++ (k', v) :: after') ++ [y] := by rw [he]; simp [List.concat_eq_append]
          have hl := (List.append_inj' he' rfl).1
          refine ⟨before, k', after', hl, hk, ?_⟩
          rintro ⟨w, k2, hm, e2⟩
          exact hn ⟨w, k2, by simp [List.concat_eq_append, hm], e2⟩

namespace VecMap

theorem fromIter_asc (l : List (K × V)) : AscendingBy Prod.fst (fromIter l).entries :=
  (sortDedupByKey_spec (key := (Prod.fst : K × V → K)) .last l).1
theorem fromIter_maps (l : List (K × V)) (k : K) (v : V) : Maps (fromIter l).entries k v ↔ LastValue l k v := by
  rw [← findBy_maps (fromIter_asc l), ← pick_last_maps]
  have := (sortDedupByKey_spec (key := (Prod.fst : K × V → K)) .last l).2 k
  show (∃ k', findBy Prod.fst (sortDedupByKey .last (fun e : K × V => e.1) l) k = some (k', v)) ↔ _
  have e : (fun e : K × V => e.1) = Prod.fst := rfl
  rw [e, this]; rfl
theorem fromIter_hasKey (l : List (K × V)) (k : K) : HasKey (fromIter l).entries k ↔ HasKey l k := by
  have h : ¬ HasKey (fromIter l).entries k ↔ ¬ HasKey l k := by
    rw [← findBy_none_hasKey, ← findBy_none_hasKey]
    have := (sortDedupByKey_spec (key := (Prod.fst : K × V → K)) .last l).2 k
    show findBy Prod.fst (sortDedupByKey .last (fun e : K × V => e.1) l) k = none ↔ _
    have e : (fun e : K × V => e.1) = Prod.fst := rfl
    rw [e, this]
    simp [pick, findBy_none]
  constructor
  · intro h1; exact Classical.byContradiction (fun h2 => h.2 h2 h1)
  · intro h1; exact Classical.byContradiction (fun h2 => h.1 h2 h1)

theorem visitMap_go_ok {E : Type _} (vals l : List (K × V)) :
    visitMap.go (E := E) vals (l.map .ok) = .ok ⟨stdDedupBy (fun a b => compare a.1 b.1 == .eq)
      (stableSortBy (fun a b => compare a.1 b.1) (vals ++ l))⟩ := by
  induction l generalizing vals with
  | nil => simp [visitMap.go]
  | cons x l ih => simp [visitMap.go, ih]

omit [TransOrd K] in
theorem visitMap_go_err {E : Type _} (vals l : List (K × V)) (e : E) (rest : List (Except E (K × V))) :
    visitMap.go vals (l.map .ok ++ .error e :: rest) = .error e := by
  induction l generalizing vals with
  | nil => simp [visitMap.go]
  | cons x l ih => simp [visitMap.go, ih]

omit [Ord K] [TransOrd K] in
theorem seq_cases {E T : Type _} (seq : List (Except E T)) :
    (∃ l : List T, seq = l.map .ok) ∨
      (∃ (l : List T) (e : E) (rest : List (Except E T)), seq = l.map .ok ++ .error e :: rest) := by
  induction seq with
  | nil => exact .inl ⟨[], rfl⟩
  | cons x seq ih =>
    cases x with
    | error e => exact .inr ⟨[], e, seq, rfl⟩
    | ok x =>
      rcases ih with ⟨l, rfl⟩ | ⟨l, e, rest, rfl⟩
      · exact .inl ⟨x :: l, rfl⟩
      · exact .inr ⟨x :: l, e, rest, rfl⟩

theorem sortDedup_asc (l : List (K × V)) : AscendingBy Prod.fst (stdDedupBy (fun a b : K × V => compare a.1 b.1 == .eq)
    (stableSortBy (fun a b => compare a.1 b.1) l)) := (stdSortDedup_spec (key := (Prod.fst : K × V → K)) l).1
theorem sortDedup_find (l : List (K × V)) (k : K) : findBy Prod.fst (stdDedupBy (fun a b : K × V => compare a.1 b.1 == .eq)
    (stableSortBy (fun a b => compare a.1 b.1) l)) k = findBy Prod.fst l k := (stdSortDedup_spec (key := (Prod.fst : K × V → K)) l).2 k

theorem visitMap_ok_asc {E : Type _} {seq : List (Except E (K × V))} {m : VecMap K V} (h : visitMap seq = .ok m) :
    AscendingBy Prod.fst m.entries := by
  rcases seq_cases seq with ⟨l, rfl⟩ | ⟨l, e, rest, rfl⟩
  · rw [visitMap, visitMap_go_ok] at h
    cases h; exact sortDedup_asc _
  · rw [visitMap, visitMap_go_err] at h; cases h

theorem checkBytes_ok {valid : K × V → Bool} {l : List (K × V)} {m : VecMap K V} :
    checkBytes valid l = .ok m ↔ (∀ x ∈ l, valid x = true) ∧ AscendingBy Prod.fst l ∧ m.entries = l := by
  have hz : (l.zip (l.drop 1)).all (fun p => compare p.1.1 p.2.1 == .lt) = true ↔ AscendingBy Prod.fst l := by
    rw [ascendingBy_map, ← zip_adjacent]
    have : (l.map Prod.fst).zip ((l.map Prod.fst).drop 1) = (l.zip (l.drop 1)).map (fun p => (p.1.1, p.2.1)) := by
      rw [← List.map_drop, List.zip_map]; rfl
    rw [this, List.all_map]; rfl
  unfold checkBytes
  by_cases h1 : l.all valid = true
  · by_cases h2 : (l.zip (l.drop 1)).all (fun p => compare p.1.1 p.2.1 == .lt) = true
    · simp only [h1, h2, Bool.not_true, Bool.false_eq_true, ↓reduceIte, Except.ok.injEq]
      rw [hz] at h2
      constructor
      · rintro rfl; exact ⟨by simpa using h1, h2, rfl⟩
      · rintro ⟨_, _, h⟩; cases m; exact congrArg _ h.symm
    · have h3 := h2
      rw [hz] at h3
      simp only [h1, h2, Bool.not_true, Bool.not_false, Bool.false_eq_true, ↓reduceIte,
        reduceCtorEq, false_iff, not_and]
      exact fun _ h => absurd h h3
  · simp only [h1, Bool.not_false, ↓reduceIte, reduceCtorEq, false_iff, not_and]
    intro h; exact absurd (List.all_eq_true.2 h) h1

variable {a : VecMap K V}

omit [TransOrd K] in
theorem mapValues_asc (ha : AscendingBy Prod.fst a.entries) (f : V → R) : AscendingBy Prod.fst (a.mapValues f).entries := by
  rw [ascendingBy_map] at ha ⊢
  simpa [mapValues, Function.comp_def] using ha

omit [TransOrd K] in
theorem mapValues_maps (f : V → R) (k : K) (r : R) : Maps (a.mapValues f).entries k r ↔ ∃ v, Maps a.entries k v ∧ r = f v := by
  unfold Maps mapValues
  simp only [List.mem_map, Prod.mk.injEq]
  constructor
  · rintro ⟨k', ⟨⟨k2, v⟩, hm, rfl, rfl⟩, e⟩; exact ⟨v, ⟨k2, hm, e⟩, rfl⟩
  · rintro ⟨v, ⟨k', hm, e⟩, rfl⟩; exact ⟨k', ⟨(k', v), hm, rfl, rfl⟩, e⟩

theorem insert_asc (ha : AscendingBy Prod.fst a.entries) (k : K) (v : V) : AscendingBy Prod.fst (a.insert k v).1.entries := by
  obtain ⟨lo, mid, hi, hs, hi', -, -, hlt, hgt⟩ := split_at ha k
  have he := (hi' v).1
  rw [hs, ascendingBy_append, ascendingBy_append] at ha
  rw [he, ascendingBy_append, ascendingBy_cons]
  refine ⟨ha.1.1, ⟨fun y hy => cmp_gt_iff.1 (hgt y hy), ha.2.1⟩, ?_⟩
  intro x hx y hy
  rcases List.mem_cons.1 hy with rfl | hy
  · exact hlt x hx
  · exact ha.2.2 x (by simp [hx]) y hy

theorem insert_mem (ha : AscendingBy Prod.fst a.entries) (k : K) (v : V) (e : K × V) :
    e ∈ (a.insert k v).1.entries ↔ e = (k, v) ∨ (e ∈ a.entries ∧ compare e.1 k ≠ .eq) := by
  obtain ⟨lo, mid, hi, hs, hi', -, hm, hlt, hgt⟩ := split_at ha k
  have he := (hi' v).1
  rw [he, hs]
  simp only [List.mem_append, List.mem_cons]
  constructor
  · rintro (h | rfl | h)
    · exact .inr ⟨.inl (.inl h), by rw [hlt e h]; simp⟩
    · exact .inl rfl
    · exact .inr ⟨.inr h, by rw [hgt e h]; simp⟩
  · rintro (rfl | ⟨(h | h) | h, hn⟩)
    · exact .inr (.inl rfl)
    · exact .inl h
    · rcases hm with rfl | ⟨y, rfl, hy⟩
      · cases h
      · simp only [List.mem_singleton] at h; subst h; exact absurd hy hn
    · exact .inr (.inr h)

theorem insert_ret (ha : AscendingBy Prod.fst a.entries) (k : K) (v : V) : (a.insert k v).2 = a.get k := by
  obtain ⟨lo, mid, hi, hs, hi', -, hm, hlt, hgt⟩ := split_at ha k
  have hr := (hi' v).2
  rw [hr, get_eq ha, hs]
  have h1 : findBy Prod.fst lo k = none := findBy_none.2 (fun x hx => by rw [hlt x hx]; simp)
  have h2 : findBy Prod.fst hi k = none := findBy_none.2 (fun x hx => by rw [hgt x hx]; simp)
  rw [findBy_append, findBy_append, h1, h2]
  rcases hm with rfl | ⟨y, rfl, hy⟩
  · rfl
  · simp [findBy_cons, hy]

theorem updateMut_asc (ha : AscendingBy Prod.fst a.entries) (k : K) (w : V → V) : AscendingBy Prod.fst (a.updateMut k w).1.entries := by
  obtain ⟨lo, mid, hi, hs, -, hu, -, -, -⟩ := split_at ha k
  rw [(hu w).1]
  rw [hs] at ha
  rw [ascendingBy_map] at ha ⊢
  simpa [Function.comp_def] using ha

theorem updateMut_mem (ha : AscendingBy Prod.fst a.entries) (k : K) (w : V → V) (e : K × V) :
    e ∈ (a.updateMut k w).1.entries ↔
      (compare e.1 k ≠ .eq ∧ e ∈ a.entries) ∨ (compare e.1 k = .eq ∧ ∃ v, (e.1, v) ∈ a.entries ∧ e.2 = w v) := by
  obtain ⟨lo, mid, hi, hs, -, hu, hm, hlt, hgt⟩ := split_at ha k
  rw [(hu w).1, hs]
  simp only [List.mem_append, List.mem_map]
  constructor
  · rintro ((h | ⟨x, hx, rfl⟩) | h)
    · exact .inl ⟨by rw [hlt e h]; simp, .inl (.inl h)⟩
    · rcases hm with rfl | ⟨y, rfl, hy⟩
      · cases hx
      · simp only [List.mem_singleton] at hx; subst hx
        exact .inr ⟨hy, x.2, .inl (.inr (by simp)), rfl⟩
    · exact .inl ⟨by rw [hgt e h]; simp, .inr h⟩
  · rintro (⟨hn, (h | h) | h⟩ | ⟨hc, v, (h | h) | h, he⟩)
    · exact .inl (.inl h)
    · rcases hm with rfl | ⟨y, rfl, hy⟩
      · cases h
      · simp only [List.mem_singleton] at h; subst h; exact absurd hy hn
    · exact .inr h
    · have := hlt _ h; rw [hc] at this; cases this
    · exact .inl (.inr ⟨_, h, by rw [← he]⟩)
    · have := hgt _ h; rw [hc] at this; cases this

theorem updateMut_ret (ha : AscendingBy Prod.fst a.entries) (k : K) (w : V → V) :
    (a.updateMut k w).2 = true ↔ HasKey a.entries k := by
  obtain ⟨lo, mid, hi, hs, -, hu, hm, hlt, hgt⟩ := split_at ha k
  rw [(hu w).2]
  rcases hm with rfl | ⟨y, rfl, hy⟩
  · simp only [List.isEmpty_nil, Bool.not_true, Bool.false_eq_true, false_iff]
    rintro ⟨v, k', h, e⟩
    rw [hs] at h
    simp only [List.append_nil, List.mem_append] at h
    rcases h with h | h
    · have := hlt _ h; rw [e] at this; cases this
    · have := hgt _ h; rw [e] at this; cases this
  · simp only [List.isEmpty_cons, Bool.not_false, true_iff]
    exact ⟨y.2, y.1, by rw [hs]; simp, hy⟩

theorem retain_asc {P : Type _} (ha : AscendingBy Prod.fst a.entries) {f : P → K × V → Call (P × Bool)} {p : P}
    (hr : (a.retain f p).2.2 ≠ .panic) : AscendingBy Prod.fst (a.retain f p).1.entries := by
  unfold retain at hr ⊢
  cases hk : keepRun f p a.entries with
  | panic => exact absurd (smallVecRetain_panic hk).1 hr
  | ret ql =>
    obtain ⟨q, l⟩ := ql
    rw [smallVecRetain_ret hk]
    exact ha.sublist (keepRun_sublist hk)

/-- the closure of `combine_with` as a join closure -/
def combineArg (f : V → V → Call V) : OuterJoinArg K V V → Call (Option V)
  | .left _ v => .ret (some v)
  | .right _ w => .ret (some w)
  | .both _ v w => match f v w with
    | .ret r => .ret (some r)
    | .panic => .panic

omit [TransOrd K] in
theorem combineWith_def (a b : VecMap K V) (f : V → V → Call V) : a.combineWith b f = a.outerJoinWith b (combineArg f) := by
  unfold combineWith
  congr 1

end VecMap
end

open VecMap in
theorem BuiltMap.ascending {K : Type} [Ord K] [TransOrd K] {V : Type} {m : VecMap K V} (h : BuiltMap m) :
    AscendingBy Prod.fst m.entries := by
  induction h with
  | empty => exact List.Pairwise.nil
  | single x => exact List.pairwise_singleton _ _
  | fromIter l => exact fromIter_asc l
  | fromBTreeMap l h => exact h
  | deserialized seq h => exact visitMap_ok_asc h
  | validated valid l h => rw [checkBytes_ok] at h; rw [h.2.2]; exact h.2.1
  | mapValues h f ih => exact mapValues_asc ih f
  | insert h k v ih => exact insert_asc ih k v
  | updateMut h k w ih => exact updateMut_asc ih k w
  | retain h f p hr ih => exact retain_asc ih hr
  | extend h l ih =>
    rw [VecMap.extend, VecMap.mergeWith, combineWith_def, outerJoinWith_eq ih (fromIter_asc l), outerJoin_eq ih (fromIter_asc l)]
    exact collect_asc (joinArgs_asc ih (fromIter_asc l))
  | mergeWith _ _ iha ihb =>
    rw [VecMap.mergeWith, combineWith_def, outerJoinWith_eq iha ihb, outerJoin_eq iha ihb]; exact collect_asc (joinArgs_asc iha ihb)
  | combineWith _ _ f iha ihb =>
    rw [combineWith_def, outerJoinWith_eq iha ihb, outerJoin_eq iha ihb]; exact collect_asc (joinArgs_asc iha ihb)
  | outerJoin _ _ f iha ihb => rw [outerJoin_eq iha ihb]; exact collect_asc (joinArgs_asc iha ihb)
  | leftJoin _ _ f iha ihb => rw [leftJoin_eq iha ihb]; exact collect_asc (joinArgs_asc iha ihb)
  | rightJoin _ _ f iha ihb => rw [rightJoin_eq iha ihb]; exact collect_asc (joinArgs_asc iha ihb)
  | innerJoin _ _ f iha ihb => rw [innerJoin_eq iha ihb]; exact collect_asc (joinArgs_asc iha ihb)
  | outerJoinWith _ _ f iha ihb => rw [outerJoinWith_eq iha ihb, outerJoin_eq iha ihb]; exact collect_asc (joinArgs_asc iha ihb)
  | leftJoinWith _ _ f iha ihb => rw [leftJoinWith_eq iha ihb, leftJoin_eq iha ihb]; exact collect_asc (joinArgs_asc iha ihb)
  | rightJoinWith _ _ f iha ihb => rw [rightJoinWith_eq iha ihb, rightJoin_eq iha ihb]; exact collect_asc (joinArgs_asc iha ihb)
  | innerJoinWith _ _ f iha ihb => rw [innerJoinWith_eq iha ihb, innerJoin_eq iha ihb]; exact collect_asc (joinArgs_asc iha ihb)

end Verif
