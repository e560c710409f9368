import Verif.Lemmas.MapOps
/-! One step of a map history. -/
namespace Verif
open Std

section
variable {K V W R : Type _} [Ord K] [TransOrd K]

theorem maps_pureJoin {a : List (K × V)} {b : List (K × W)} (ha : AscendingBy Prod.fst a) (hb : AscendingBy Prod.fst b)
    {g : OuterJoinArg K V W → Option R} (hg : RespectsKeys g) (k : K) (r : R) :
    Maps ((joinArgs a b).filterMap (argRes g)) k r ↔
      (∃ v, Maps a k v ∧ ¬ HasKey b k ∧ g (.left k v) = some r) ∨
      (∃ w, Maps b k w ∧ ¬ HasKey a k ∧ g (.right k w) = some r) ∨
      (∃ v w, Maps a k v ∧ Maps b k w ∧ g (.both k v w) = some r) := by
  unfold Maps
  simp only [mem_pureJoin, mem_joinArgs ha hb]
  constructor
  · rintro ⟨k', ⟨arg, ho, rfl, hr⟩, e⟩
    cases arg with
    | left k2 v =>
      refine .inl ⟨v, ⟨k2, ho.1, e⟩, ?_, by rw [← (hg k2 k e).1]; exact hr⟩
      rw [← HasKey.congr e]; exact ho.2
    | right k2 w =>
      refine .inr (.inl ⟨w, ⟨k2, ho.1, e⟩, ?_, by rw [← (hg k2 k e).2.1]; exact hr⟩)
      rw [← HasKey.congr e]; exact ho.2
    | both k2 v w =>
      obtain ⟨h1, k3, h2, e'⟩ := ho
      exact .inr (.inr ⟨v, w, ⟨k2, h1, e⟩, ⟨k3, h2, cmp_eq_trans e' e⟩, by rw [← (hg k2 k e).2.2]; exact hr⟩)
  · rintro (⟨v, ⟨k', hm, e⟩, hn, hr⟩ | ⟨w, ⟨k', hm, e⟩, hn, hr⟩ | ⟨v, w, ⟨k', hm, e⟩, ⟨k2, hm2, e2⟩, hr⟩)
    · exact ⟨k', ⟨.left k' v, ⟨hm, fun h => hn ((HasKey.congr e).1 h)⟩, rfl, by rw [(hg k' k e).1]; exact hr⟩, e⟩
    · exact ⟨k', ⟨.right k' w, ⟨hm, fun h => hn ((HasKey.congr e).1 h)⟩, rfl, by rw [(hg k' k e).2.1]; exact hr⟩, e⟩
    · exact ⟨k', ⟨.both k' v w, ⟨hm, k2, hm2, cmp_eq_trans e2 (cmp_symm e)⟩, rfl, by rw [(hg k' k e).2.2]; exact hr⟩, e⟩

/-- pure versions of the closure dispatchers -/
def pureLeft (f : K → V → Option W → Option R) : OuterJoinArg K V W → Option R
  | .left k v => f k v none
  | .right _ _ => none
  | .both k v w => f k v (some w)
def pureRight (f : K → Option V → W → Option R) : OuterJoinArg K V W → Option R
  | .left _ _ => none
  | .right k w => f k none w
  | .both k v w => f k (some v) w
def pureInner (f : K → V → W → Option R) : OuterJoinArg K V W → Option R
  | .left _ _ => none
  | .right _ _ => none
  | .both k v w => f k v w
def pureCombine (f : V → V → V) : OuterJoinArg K V V → Option V
  | .left _ v => some v
  | .right _ w => some w
  | .both _ v w => some (f v w)

theorem leftArg_pure (f : K → V → Option W → Option R) : leftArg (fun k v w => .ret (f k v w)) = fun x => .ret (pureLeft f x) := by
  funext x; cases x <;> rfl
theorem rightArg_pure (f : K → Option V → W → Option R) : rightArg (fun k v w => .ret (f k v w)) = fun x => .ret (pureRight f x) := by
  funext x; cases x <;> rfl
theorem innerArg_pure (f : K → V → W → Option R) : innerArg (fun k v w => .ret (f k v w)) = fun x => .ret (pureInner f x) := by
  funext x; cases x <;> rfl
theorem combineArg_pure (f : V → V → V) :
    VecMap.combineArg (K := K) (fun v w => .ret (f v w)) = fun x => .ret (pureCombine f x) := by
  funext x; cases x <;> rfl

namespace VecMap
variable {a : VecMap K V} {b : VecMap K W} (ha : AscendingBy Prod.fst a.entries) (hb : AscendingBy Prod.fst b.entries)
include ha hb

theorem outerJoin_pure (f : OuterJoinArg K V W → Option R) :
    a.outerJoin b (fun x => .ret (f x)) = (⟨(joinArgs a.entries b.entries).filterMap (argRes f)⟩, .cont) := by
  rw [outerJoin_eq ha hb, collect_pure]
theorem leftJoin_pure (f : K → V → Option W → Option R) :
    a.leftJoin b (fun k v w => .ret (f k v w)) = (⟨(joinArgs a.entries b.entries).filterMap (argRes (pureLeft f))⟩, .cont) := by
  rw [leftJoin_eq ha hb, leftArg_pure, collect_pure]
theorem rightJoin_pure (f : K → Option V → W → Option R) :
    a.rightJoin b (fun k v w => .ret (f k v w)) = (⟨(joinArgs a.entries b.entries).filterMap (argRes (pureRight f))⟩, .cont) := by
  rw [rightJoin_eq ha hb, rightArg_pure, collect_pure]
theorem innerJoin_pure (f : K → V → W → Option R) :
    a.innerJoin b (fun k v w => .ret (f k v w)) = (⟨(joinArgs a.entries b.entries).filterMap (argRes (pureInner f))⟩, .cont) := by
  rw [innerJoin_eq ha hb, innerArg_pure, collect_pure]
omit hb in
theorem combineWith_pure {b : VecMap K V} (hb : AscendingBy Prod.fst b.entries) (f : V → V → V) :
    a.combineWith b (fun v w => .ret (f v w)) = (⟨(joinArgs a.entries b.entries).filterMap (argRes (pureCombine f))⟩, .cont) := by
  rw [combineWith_def, outerJoinWith_eq ha hb, outerJoin_eq ha hb, combineArg_pure, collect_pure]

end VecMap
end

section
variable {K V W : Type} [Ord K] [TransOrd K]

open VecMap in
theorem mapStep {m : VecMap K V} {M : K → V → Prop} (hm : AscendingBy Prod.fst m.entries) (hM : ∀ k v, Maps m.entries k v ↔ M k v)
    (op : MapOp K V W) (ok : op.Ok) :
    AscendingBy Prod.fst (op.exec m).1.entries ∧ (∀ k v, Maps (op.exec m).1.entries k v ↔ op.next M k v) ∧
      op.answers M (op.exec m).2 := by
  have hK : ∀ k, HasKey m.entries k ↔ ∃ v, M k v := fun k => by unfold HasKey; simp only [hM]
  have hN : ∀ k, ¬ HasKey m.entries k ↔ ∀ v, ¬ M k v := fun k => by rw [hK]; simp
  have hc : ∀ {k k'}, compare k k' = .eq → ∀ v, M k v ↔ M k' v := fun e v => by rw [← hM, ← hM, Maps.congr e]
  cases op with
  | insert k v =>
    refine ⟨insert_asc hm k v, ?_, _, rfl, fun v' => by rw [insert_ret hm, get_iff hm, hM]⟩
    intro k' v'
    simp only [MapOp.exec, MapOp.next, Maps, insert_mem hm]
    constructor
    · rintro ⟨k2, (h | ⟨h1, h2⟩), e⟩
      · cases h; exact .inl ⟨e, rfl⟩
      · refine .inr ⟨fun h => h2 (cmp_eq_trans e (cmp_symm h)), (hM _ _).1 ⟨k2, h1, e⟩⟩
    · rintro (⟨e, rfl⟩ | ⟨hn, h⟩)
      · exact ⟨k, .inl rfl, e⟩
      · obtain ⟨k2, h1, e⟩ := (hM _ _).2 h
        exact ⟨k2, .inr ⟨h1, fun h => hn (cmp_eq_trans (cmp_symm h) e)⟩, e⟩
  | update k w =>
    refine ⟨updateMut_asc hm k w, ?_, _, rfl, by rw [updateMut_ret hm, hK]⟩
    intro k' v'
    simp only [MapOp.exec, MapOp.next, Maps, updateMut_mem hm]
    constructor
    · rintro ⟨k2, (⟨h1, h2⟩ | ⟨h1, v, h2, h3⟩), e⟩
      · exact .inr ⟨fun h => h1 (cmp_eq_trans e (cmp_symm h)), (hM _ _).1 ⟨k2, h2, e⟩⟩
      · exact .inl ⟨cmp_eq_trans (cmp_symm h1) e, v, (hM _ _).1 ⟨k2, h2, e⟩, h3⟩
    · rintro (⟨e, v, h, rfl⟩ | ⟨hn, h⟩)
      · obtain ⟨k2, h1, e'⟩ := (hM _ _).2 h
        exact ⟨k2, .inr ⟨cmp_eq_trans e' (cmp_symm e), v, h1, rfl⟩, e'⟩
      · obtain ⟨k2, h1, e⟩ := (hM _ _).2 h
        exact ⟨k2, .inl ⟨fun h => hn (cmp_eq_trans (cmp_symm h) e), h1⟩, e⟩
  | retain p =>
    have e : m.retain (fun _ e => .ret ((), p e.1 e.2)) () = (⟨m.entries.filter (fun e => p e.1 e.2)⟩, (), .cont) := by
      rw [VecMap.retain, smallVecRetain_ret (keepRun_pure (fun e : K × V => p e.1 e.2) m.entries ())]
    simp only [MapOp.exec, e]
    refine ⟨hm.sublist List.filter_sublist, ?_, rfl⟩
    intro k v
    simp only [MapOp.next, Maps, List.mem_filter]
    constructor
    · rintro ⟨k', ⟨h1, h2⟩, e⟩; exact ⟨(hM _ _).1 ⟨k', h1, e⟩, by rw [← ok k' k v e]; exact h2⟩
    · rintro ⟨h1, h2⟩
      obtain ⟨k', h, e⟩ := (hM _ _).2 h1
      exact ⟨k', ⟨h, by rw [ok k' k v e]; exact h2⟩, e⟩
  | mapValues f =>
    refine ⟨mapValues_asc hm f, fun k r => ?_, rfl⟩
    simp only [MapOp.exec, MapOp.next, mapValues_maps, hM]
  | extend l =>
    have hl := fromIter_asc l
    have e : m.extend l = (⟨(joinArgs m.entries (fromIter l).entries).filterMap (argRes (pureCombine (fun _ r => r)))⟩, .cont) := by
      rw [VecMap.extend, VecMap.mergeWith, combineWith_pure hm hl (fun _ r => r)]
    simp only [MapOp.exec, e]
    refine ⟨pureJoin_asc (joinArgs_asc hm hl), fun k r => ?_, rfl⟩
    rw [maps_pureJoin hm hl (by intro k k' _; exact ⟨fun _ => rfl, fun _ => rfl, fun _ _ => rfl⟩)]
    simp only [pureCombine, fromIter_maps, fromIter_hasKey, hN, hM, Option.some.injEq, MapOp.next]
    constructor
    · rintro (⟨v, h1, h2, rfl⟩ | ⟨w, h1, h2, rfl⟩ | ⟨v, w, h1, h2, rfl⟩)
      · exact .inr ⟨h2, h1⟩
      · exact .inl h1
      · exact .inl h2
    · rintro (h | ⟨h1, h2⟩)
      · by_cases hx : ∃ v, M k v
        · obtain ⟨v, hv⟩ := hx; exact .inr (.inr ⟨v, r, hv, h, rfl⟩)
        · exact .inr (.inl ⟨r, h, fun v hv => hx ⟨v, hv⟩, rfl⟩)
      · exact .inl ⟨r, h2, h1, rfl⟩
  | mergeWith b =>
    have hb := BuiltMap.ascending ok
    have e : m.mergeWith b = (⟨(joinArgs m.entries b.entries).filterMap (argRes (pureCombine (fun _ r => r)))⟩, .cont) := by
      rw [VecMap.mergeWith, combineWith_pure hm hb (fun _ r => r)]
    simp only [MapOp.exec, e]
    refine ⟨pureJoin_asc (joinArgs_asc hm hb), fun k r => ?_, rfl⟩
    rw [maps_pureJoin hm hb (by intro k k' _; exact ⟨fun _ => rfl, fun _ => rfl, fun _ _ => rfl⟩)]
    simp only [pureCombine, hN, hM, Option.some.injEq, MapOp.next, asSlice]
    constructor
    · rintro (⟨v, h1, h2, rfl⟩ | ⟨w, h1, h2, rfl⟩ | ⟨v, w, h1, h2, rfl⟩)
      · exact .inr ⟨h2, h1⟩
      · exact .inl h1
      · exact .inl h2
    · rintro (h | ⟨h1, h2⟩)
      · by_cases hx : ∃ v, M k v
        · obtain ⟨v, hv⟩ := hx; exact .inr (.inr ⟨v, r, hv, h, rfl⟩)
        · exact .inr (.inl ⟨r, h, fun v hv => hx ⟨v, hv⟩, rfl⟩)
      · exact .inl ⟨r, h2, h1, rfl⟩
  | combineWith b f =>
    have hb := BuiltMap.ascending ok
    simp only [MapOp.exec, combineWith_pure hm hb f]
    refine ⟨pureJoin_asc (joinArgs_asc hm hb), fun k r => ?_, rfl⟩
    rw [maps_pureJoin hm hb (by intro k k' _; exact ⟨fun _ => rfl, fun _ => rfl, fun _ _ => rfl⟩)]
    simp only [pureCombine, hN, hM, Option.some.injEq, MapOp.next, asSlice]
    constructor
    · rintro (⟨v, h1, h2, rfl⟩ | ⟨w, h1, h2, rfl⟩ | ⟨v, w, h1, h2, rfl⟩)
      · exact .inl ⟨h1, h2⟩
      · exact .inr (.inl ⟨h1, h2⟩)
      · exact .inr (.inr ⟨v, w, h1, h2, rfl⟩)
    · rintro (⟨h1, h2⟩ | ⟨h1, h2⟩ | ⟨v, w, h1, h2, rfl⟩)
      · exact .inl ⟨r, h1, h2, rfl⟩
      · exact .inr (.inl ⟨r, h1, h2, rfl⟩)
      · exact .inr (.inr ⟨v, w, h1, h2, rfl⟩)
  | outerJoinWith b f =>
    have hb := BuiltMap.ascending ok.1
    simp only [MapOp.exec, outerJoinWith_eq hm hb, outerJoin_pure hm hb]
    refine ⟨pureJoin_asc (joinArgs_asc hm hb), fun k r => ?_, rfl⟩
    rw [maps_pureJoin hm hb ok.2]
    simp only [hN, hM, MapOp.next, asSlice]
  | leftJoinWith b f =>
    have hb := BuiltMap.ascending ok.1
    simp only [MapOp.exec, leftJoinWith_eq hm hb, leftJoin_pure hm hb]
    refine ⟨pureJoin_asc (joinArgs_asc hm hb), fun k r => ?_, rfl⟩
    rw [maps_pureJoin hm hb (by intro k k' e; exact ⟨fun v => ok.2 k k' v _ e, fun _ => rfl, fun v w => ok.2 k k' v _ e⟩)]
    simp [hM, MapOp.next, asSlice, pureLeft]
  | rightJoinWith b f =>
    have hb := BuiltMap.ascending ok.1
    simp only [MapOp.exec, rightJoinWith_eq hm hb, rightJoin_pure hm hb]
    refine ⟨pureJoin_asc (joinArgs_asc hm hb), fun k r => ?_, rfl⟩
    rw [maps_pureJoin hm hb (by intro k k' e; exact ⟨fun _ => rfl, fun w => ok.2 k k' _ w e, fun v w => ok.2 k k' _ w e⟩)]
    simp [hN, hM, MapOp.next, asSlice, pureRight]
  | innerJoinWith b f =>
    have hb := BuiltMap.ascending ok.1
    simp only [MapOp.exec, innerJoinWith_eq hm hb, innerJoin_pure hm hb]
    refine ⟨pureJoin_asc (joinArgs_asc hm hb), fun k r => ?_, rfl⟩
    rw [maps_pureJoin hm hb (by intro k k' e; exact ⟨fun _ => rfl, fun _ => rfl, fun v w => ok.2 k k' v w e⟩)]
    simp [hM, MapOp.next, asSlice, pureInner]
  | get k => exact ⟨hm, hM, _, rfl, fun v => by rw [get_iff hm, hM]⟩
  | len =>
    refine ⟨hm, hM, m.entries.map Prod.fst, ?_, ?_, ?_⟩
    · have := hm
      rw [ascendingBy_map] at this
      exact this.imp (fun h e => by rw [e] at h; cases h)
    · intro k; rw [← hK, hasKey_iff_has]
    · simp [MapOp.exec, VecMap.len]
  | isEmpty =>
    refine ⟨hm, hM, _, rfl, ?_⟩
    simp only [VecMap.isEmpty, ← hM]
    cases m.entries with
    | nil => simp [Maps]
    | cons x l => simp only [List.isEmpty_cons, Bool.false_eq_true, false_iff]
                  exact fun h => h x.1 x.2 ⟨x.1, by simp, cmp_self _⟩

theorem mapRun_of_exec (ops : List (MapOp K V W)) : ∀ (m : VecMap K V) (M : K → V → Prop), AscendingBy Prod.fst m.entries →
    (∀ k v, Maps m.entries k v ↔ M k v) → (∀ op ∈ ops, op.Ok) →
    ∃ M', MapRun M ops (execMap m ops).2 M' ∧ AscendingBy Prod.fst (execMap m ops).1.entries ∧
      ∀ k v, Maps (execMap m ops).1.entries k v ↔ M' k v := by
  induction ops with
  | nil => intro m M hm hM _; exact ⟨M, .nil, hm, hM⟩
  | cons op ops ih =>
    intro m M hm hM ok
    obtain ⟨h1, h2, h3⟩ := mapStep hm hM op (ok op (by simp))
    obtain ⟨M', r1, r2, r3⟩ := ih _ _ h1 h2 (fun o ho => ok o (by simp [ho]))
    exact ⟨M', .cons h3 r1, r2, r3⟩

end
end Verif
