import Verif.Lemmas.BTreeMap
import Verif.Props.VecMap
/-!
# C39, C40: joins between `BTreeMap`s

The hypotheses `AscendingBy Prod.fst m.entries` are std's (and rkyv's) guarantee about `BTreeMap` iteration; the results are again shown to
satisfy it.
-/
namespace Verif
namespace BTreeMap
open Std

section
variable {K V W R : Type} [Ord K] [TransOrd K]

/-! ## C39 -/

/-- **C39.** outer join: exactly the closure's results on the offered arguments -/
theorem C39_outer_join (a : BTreeMap K V) (b : BTreeMap K W) (ha : AscendingBy Prod.fst a.entries) (hb : AscendingBy Prod.fst b.entries)
    (f : OuterJoinArg K V W → Option R) :
    AscendingBy Prod.fst (a.outerJoin b f).entries ∧
    ∀ k r, (k, r) ∈ (a.outerJoin b f).entries ↔ ∃ arg, Offers a.entries b.entries arg ∧ arg.key = k ∧ f arg = some r := by
  have w := walk_spec a.entries ha (fun e => f (match b.get e.1 with
      | some w => .both e.1 e.2 w
      | none => .left e.1 e.2))
  have hd : Distinct (b.entries.map (fun e => (e.1, if (a.get e.1).isNone then f (.right e.1 e.2) else none))) :=
    AscendingBy.distinct hb _
  have e1 : a.outerJoin b f = insAll (insAll new (a.entries.map (fun e => (e.1, f (match b.get e.1 with
      | some w => .both e.1 e.2 w
      | none => .left e.1 e.2))))) ((b.entries.filter (fun e => (a.get e.1).isNone)).map (fun e => (e.1, f (.right e.1 e.2)))) := by
    rw [insAll_map, insAll_map, List.foldl_filter]
    rfl
  have s := insAll_spec ((b.entries.filter (fun e => (a.get e.1).isNone)).map (fun e => (e.1, f (.right e.1 e.2))))
    (AscendingBy.distinct (hb.sublist List.filter_sublist) _) _ w.1 (by
      intro e he ⟨r, k', hm, hc⟩
      obtain ⟨v, hv, _⟩ := (w.2 _ _).1 hm
      simp only [List.mem_map, List.mem_filter, Option.isNone_iff_eq_none] at he
      obtain ⟨x, ⟨_, hn⟩, rfl⟩ := he
      exact get_none_iff.1 hn ⟨v, k', hv, hc⟩)
  rw [e1]
  refine ⟨s.1, fun k r => ?_⟩
  rw [s.2, w.2]
  simp only [List.mem_map, List.mem_filter, Option.isNone_iff_eq_none, Prod.mk.injEq, Prod.exists, get_none_iff]
  constructor
  · rintro (⟨v, hv, h⟩ | ⟨k', w, ⟨hw, hn⟩, rfl, h⟩)
    · cases hg : b.get k with
      | none => rw [hg] at h; exact ⟨.left k v, ⟨hv, get_none_iff.1 hg⟩, rfl, h⟩
      | some w => rw [hg] at h; exact ⟨.both k v w, ⟨hv, (get_iff hb).1 hg⟩, rfl, h⟩
    · exact ⟨.right k' w, ⟨hw, hn⟩, rfl, h⟩
  · rintro ⟨arg, ho, rfl, h⟩
    cases arg with
    | left k v => exact .inl ⟨v, ho.1, by rw [show b.get (OuterJoinArg.left k v : OuterJoinArg K V W).key = none from get_none_iff.2 ho.2]; exact h⟩
    | right k w => exact .inr ⟨k, w, ⟨ho.1, ho.2⟩, rfl, h⟩
    | both k v w => exact .inl ⟨v, ho.1, by rw [show b.get (OuterJoinArg.both k v w : OuterJoinArg K V W).key = some w from (get_iff hb).2 ho.2]; exact h⟩

/-- the hypotheses are met by ordinary maps -/
example : AscendingBy Prod.fst [(1, 'a'), (4, 'b')] ∧ AscendingBy Prod.fst [(1, true), (3, false)] := by
  constructor <;> simp [AscendingBy] <;> decide

/-- **C39.** left join -/
theorem C39_left_join (a : BTreeMap K V) (b : BTreeMap K W) (ha : AscendingBy Prod.fst a.entries) (f : K → V → Option W → Option R) :
    AscendingBy Prod.fst (a.leftJoin b f).entries ∧
    ∀ k r, (k, r) ∈ (a.leftJoin b f).entries ↔ ∃ v, (k, v) ∈ a.entries ∧ f k v (b.get k) = some r := by
  have w := walk_spec a.entries ha (fun e => f e.1 e.2 (b.get e.1))
  rw [insAll_map] at w
  exact w

/-- **C39.** right join -/
theorem C39_right_join (a : BTreeMap K V) (b : BTreeMap K W) (hb : AscendingBy Prod.fst b.entries) (f : K → Option V → W → Option R) :
    AscendingBy Prod.fst (a.rightJoin b f).entries ∧
    ∀ k r, (k, r) ∈ (a.rightJoin b f).entries ↔ ∃ w, (k, w) ∈ b.entries ∧ f k (a.get k) w = some r := by
  have w := walk_spec b.entries hb (fun e => f e.1 (a.get e.1) e.2)
  rw [insAll_map] at w
  exact w

/-- **C39.** inner join. (The key stored is the one of the right hand map: the branch on the size hints always goes that way.) -/
theorem C39_inner_join (a : BTreeMap K V) (b : BTreeMap K W) (hb : AscendingBy Prod.fst b.entries)
    (f : K → V → W → Option R) :
    AscendingBy Prod.fst (a.innerJoin b f).entries ∧
    ∀ k r, (k, r) ∈ (a.innerJoin b f).entries ↔ ∃ v w, a.get k = some v ∧ (k, w) ∈ b.entries ∧ f k v w = some r := by
  have w := walk_spec b.entries hb (fun e => (a.get e.1).bind (fun v => f e.1 v e.2))
  rw [insAll_map] at w
  have e : a.innerJoin b f = b.entries.foldl (fun res e => insertOpt res e.1 ((a.get e.1).bind (fun v => f e.1 v e.2))) new := by
    unfold innerJoin
    rw [if_neg (by simp [sizeHint])]
    congr 1
    funext res e
    cases a.get e.1 <;> rfl
  rw [e]
  refine ⟨w.1, fun k r => ?_⟩
  rw [w.2]
  constructor
  · rintro ⟨w, hw, h⟩
    cases hg : a.get k with
    | none => simp [hg] at h
    | some v => exact ⟨v, w, rfl, hw, by simpa [hg] using h⟩
  · rintro ⟨v, w, hg, hw, h⟩
    exact ⟨w, hw, by simpa [hg] using h⟩

/-- two maps with the same entries are the same -/
theorem ext_mem {l m : List (K × R)} (hl : AscendingBy Prod.fst l) (hm : AscendingBy Prod.fst m) (h : ∀ k r, (k, r) ∈ l ↔ (k, r) ∈ m) : l = m := by
  refine hl.ext hm (fun k => ?_)
  apply Option.ext
  intro e
  rw [hl.findBy_eq_some, hm.findBy_eq_some, show e = (e.1, e.2) from rfl, h]

/-- **C39.** When equal keys are identical, all four joins produce exactly the entries the `VecMap` joins produce. -/
theorem C39_agrees_with_VecMap [LawfulEqOrd K] (a : VecMap K V) (b : VecMap K W) (ha : BuiltMap a) (hb : BuiltMap b) :
    (∀ f : OuterJoinArg K V W → Option R,
      (outerJoin ⟨a.asSlice⟩ ⟨b.asSlice⟩ f).entries = (a.outerJoin b (fun x => .ret (f x))).1.asSlice) ∧
    (∀ f : K → V → Option W → Option R,
      (leftJoin ⟨a.asSlice⟩ ⟨b.asSlice⟩ f).entries = (a.leftJoin b (fun k v w => .ret (f k v w))).1.asSlice) ∧
    (∀ f : K → Option V → W → Option R,
      (rightJoin ⟨a.asSlice⟩ ⟨b.asSlice⟩ f).entries = (a.rightJoin b (fun k v w => .ret (f k v w))).1.asSlice) ∧
    (∀ f : K → V → W → Option R,
      (innerJoin ⟨a.asSlice⟩ ⟨b.asSlice⟩ f).entries = (a.innerJoin b (fun k v w => .ret (f k v w))).1.asSlice) := by
  have ga : AscendingBy Prod.fst a.asSlice := ha.ascending
  have gb : AscendingBy Prod.fst b.asSlice := hb.ascending
  have mapsMem : ∀ {T : Type} {l : List (K × T)} {k : K} {t : T}, Maps l k t ↔ (k, t) ∈ l := by
    intro T l k t
    constructor
    · rintro ⟨k', h, e⟩; rw [← cmp_eq_iff.1 e]; exact h
    · exact maps_of_mem
  refine ⟨fun f => ?_, fun f => ?_, fun f => ?_, fun f => ?_⟩
  · have h1 := C39_outer_join ⟨a.asSlice⟩ ⟨b.asSlice⟩ ga gb f
    have h2 := C21_outer_join a b ha hb f
    exact ext_mem h1.1 h2.2.1 (fun k r => (h1.2 k r).trans (h2.2.2 k r).symm)
  · have h1 := C39_left_join ⟨a.asSlice⟩ ⟨b.asSlice⟩ ga f
    have h2 := C22_left_join a b ha hb f
    refine ext_mem h1.1 h2.2.1 (fun k r => (h1.2 k r).trans (Iff.trans ?_ (h2.2.2 k r).symm))
    refine exists_congr fun v => and_congr_right fun _ => ?_
    cases hg : BTreeMap.get (⟨b.asSlice⟩ : BTreeMap K W) k with
    | none =>
      have hn : ¬ HasKey b.asSlice k := get_none_iff.1 hg
      constructor
      · exact fun h => .inl ⟨hn, h⟩
      · rintro (⟨_, h⟩ | ⟨w, hw, _⟩)
        · exact h
        · exact absurd ⟨w, hw⟩ hn
    | some w =>
      have hm : Maps b.asSlice k w := (get_iff (m := ⟨b.asSlice⟩) gb).1 hg
      constructor
      · exact fun h => .inr ⟨w, hm, h⟩
      · rintro (⟨h, _⟩ | ⟨w', hw, h⟩)
        · exact absurd ⟨w, hm⟩ h
        · rw [Maps.unique gb hm hw]; exact h
  · have h1 := C39_right_join ⟨a.asSlice⟩ ⟨b.asSlice⟩ gb f
    have h2 := C23_right_join a b ha hb f
    refine ext_mem h1.1 h2.2.1 (fun k r => (h1.2 k r).trans (Iff.trans ?_ (h2.2.2 k r).symm))
    cases hg : BTreeMap.get (⟨a.asSlice⟩ : BTreeMap K V) k with
    | none =>
      have hn : ¬ HasKey a.asSlice k := get_none_iff.1 hg
      constructor
      · rintro ⟨w, hw, h⟩; exact .inl ⟨w, hw, hn, h⟩
      · rintro (⟨w, hw, _, h⟩ | ⟨v, w, hv, _, _⟩)
        · exact ⟨w, hw, h⟩
        · exact absurd ⟨v, maps_of_mem hv⟩ hn
    | some v =>
      have hm : Maps a.asSlice k v := (get_iff (m := ⟨a.asSlice⟩) ga).1 hg
      constructor
      · rintro ⟨w, hw, h⟩; exact .inr ⟨v, w, mapsMem.1 hm, maps_of_mem hw, h⟩
      · rintro (⟨w, hw, hn, h⟩ | ⟨v', w, hv, hw, h⟩)
        · exact absurd ⟨v, hm⟩ hn
        · exact ⟨w, mapsMem.1 hw, by rw [Maps.unique ga hm (maps_of_mem hv)]; exact h⟩
  · have h1 := C39_inner_join ⟨a.asSlice⟩ ⟨b.asSlice⟩ gb f
    have h2 := C24_inner_join a b ha hb f
    refine ext_mem h1.1 h2.2.1 (fun k r => (h1.2 k r).trans (Iff.trans ?_ (h2.2.2 k r).symm))
    refine exists_congr fun v => exists_congr fun w => ?_
    rw [get_iff (m := ⟨a.asSlice⟩) ga, mapsMem, mapsMem]

/-- the common domain of `C39_agrees_with_VecMap` is inhabited -/
example : BuiltMap (VecMap.fromIter [(2, 'b'), (1, 'a')]) := .fromIter _

/-! ## C40 -/

/-- **C40.** `inner_join_with` -/
theorem C40_inner_join_with (a : BTreeMap K V) (b : BTreeMap K W) (ha : AscendingBy Prod.fst a.entries) (f : K → V → W → V × Bool) :
    AscendingBy Prod.fst (a.innerJoinWith b f).entries ∧
    ∀ k v, (k, v) ∈ (a.innerJoinWith b f).entries ↔ ∃ v0 w, (k, v0) ∈ a.entries ∧ b.get k = some w ∧ f k v0 w = (v, true) := by
  refine ⟨retain_asc ha _, fun k v => ?_⟩
  rw [innerJoinWith, mem_retain]
  constructor
  · rintro ⟨v0, h1, h2⟩
    cases hg : b.get k with
    | none => simp [hg] at h2
    | some w => exact ⟨v0, w, h1, rfl, by simpa [hg] using h2⟩
  · rintro ⟨v0, w, h1, hg, h2⟩
    exact ⟨v0, h1, by simpa [hg] using h2⟩

/-- **C40.** `left_join_with` -/
theorem C40_left_join_with (a : BTreeMap K V) (b : BTreeMap K W) (ha : AscendingBy Prod.fst a.entries) (f : K → V → Option W → V × Bool) :
    AscendingBy Prod.fst (a.leftJoinWith b f).entries ∧
    ∀ k v, (k, v) ∈ (a.leftJoinWith b f).entries ↔ ∃ v0, (k, v0) ∈ a.entries ∧ f k v0 (b.get k) = (v, true) :=
  ⟨retain_asc ha _, fun k v => mem_retain _ _ k v⟩

/-- **C40.** `outer_join_with` -/
theorem C40_outer_join_with (a : BTreeMap K V) (b : BTreeMap K W) (ha : AscendingBy Prod.fst a.entries)
    (hb : AscendingBy Prod.fst b.entries) (l : K → V → Option W → V × Bool) (r : K → W → Option V)
    (hl : ∀ k k' v w, compare k k' = .eq → l k v w = l k' v w) (hr : ∀ k k' w, compare k k' = .eq → r k w = r k' w) (k : K) :
    AscendingBy Prod.fst (a.outerJoinWith b l r).entries ∧
    (a.outerJoinWith b l r).get k =
      match a.get k, b.get k with
      | some v, w => if (l k v w).2 then some (l k v w).1 else none
      | none, some w => r k w
      | none, none => none := by
  have s := fold_spec (outerJoinWithStep l r)
    (fun k v w => match v with
      | some v => if (l k v (some w)).2 then some (l k v (some w)).1 else none
      | none => r k w)
    (by
      intro m e hm
      unfold outerJoinWithStep
      cases hg : m.get e.1 with
      | none =>
        simp only
        cases hr' : r e.1 e.2 with
        | none =>
          refine ⟨hm, fun k => ?_⟩
          split
          · rename_i hc; rw [show insertOpt m e.1 none = m from rfl, ← get_congr m hc]; exact hg
          · rfl
        | some v => exact ⟨insert_asc hm _ _, fun k => get_insert hm _ _ _⟩
      | some v =>
        simp only
        cases hb2 : (l e.1 v (some e.2)).2 with
        | true =>
          simp only [↓reduceIte]
          refine ⟨setMut_asc hm _ _, fun k => ?_⟩
          rw [get_setMut hm]
          by_cases hc : compare e.1 k = .eq
          · simp [hc, ← get_congr m hc, hg]
          · simp [hc]
        | false =>
          simp only [Bool.false_eq_true, ↓reduceIte]
          refine ⟨remove_asc (setMut_asc hm _ _) _, fun k => ?_⟩
          rw [get_remove (setMut_asc hm _ _), get_setMut hm]
          by_cases hc : compare e.1 k = .eq <;> simp [hc])
    b.entries a hb ha
  refine ⟨retain_asc s.1 _, ?_⟩
  rw [outerJoinWith, get_retain s.1, s.2]
  · rw [get_eq b]
    cases hf : findBy Prod.fst b.entries k with
    | none =>
      simp only [Option.map_none]
      cases a.get k <;> simp
    | some e =>
      have he := findBy_some_mem hf
      simp only [Option.map_some]
      cases a.get k with
      | none =>
        simp only
        rw [hr _ _ _ he.2]
        cases r k e.2 <;> simp
      | some v =>
        simp only
        rw [hl _ _ _ _ he.2]
        cases (l k v (some e.2)).2 <;> simp
  · intro k k' v e
    simp only [get_congr b e, hl _ _ _ _ e]

/-- **C40** (partial). `right_join_with` should leave the keys of `that` only. What it does: keys of both maps are updated or
removed by the closure, keys of `self` that are missing in `that` *stay*, and keys of `that` that are missing in `self` are never added. -/
theorem C40_right_join_with_partial (a : BTreeMap K V) (b : BTreeMap K W) (ha : AscendingBy Prod.fst a.entries)
    (hb : AscendingBy Prod.fst b.entries) (fSome : K → V → W → V × Bool) (fNone : K → W → Bool)
    (hf : ∀ k k' v w, compare k k' = .eq → fSome k v w = fSome k' v w) (k : K) :
    AscendingBy Prod.fst (a.rightJoinWith b fSome fNone).entries ∧
    (a.rightJoinWith b fSome fNone).get k =
      match a.get k, b.get k with
      | some v, some w => if (fSome k v w).2 then some (fSome k v w).1 else none
      | some v, none => some v
      | none, _ => none := by
  have s := fold_spec (rightJoinWithStep fSome fNone)
    (fun k v w => match v with
      | some v => if (fSome k v w).2 then some (fSome k v w).1 else none
      | none => none)
    (by
      intro m e hm
      unfold rightJoinWithStep
      cases hg : m.get e.1 with
      | none =>
        simp only
        cases hr' : fNone e.1 e.2 with
        | true =>
          simp only [↓reduceIte]
          refine ⟨hm, fun k => ?_⟩
          split
          · rename_i hc; rw [← get_congr m hc]; exact hg
          · rfl
        | false =>
          simp only [Bool.false_eq_true, ↓reduceIte]
          exact ⟨remove_asc hm _, fun k => get_remove hm _ _⟩
      | some v =>
        simp only
        cases hb2 : (fSome e.1 v e.2).2 with
        | true =>
          simp only [↓reduceIte]
          refine ⟨setMut_asc hm _ _, fun k => ?_⟩
          rw [get_setMut hm]
          by_cases hc : compare e.1 k = .eq
          · simp [hc, ← get_congr m hc, hg]
          · simp [hc]
        | false =>
          simp only [Bool.false_eq_true, ↓reduceIte]
          refine ⟨remove_asc (setMut_asc hm _ _) _, fun k => ?_⟩
          rw [get_remove (setMut_asc hm _ _), get_setMut hm]
          by_cases hc : compare e.1 k = .eq <;> simp [hc])
    b.entries a hb ha
  refine ⟨s.1, ?_⟩
  rw [rightJoinWith, s.2, get_eq b]
  cases hf' : findBy Prod.fst b.entries k with
  | none => cases a.get k <;> simp
  | some e =>
    have he := findBy_some_mem hf'
    cases a.get k with
    | none => simp
    | some v => simp [hf _ _ _ _ he.2]

/-- **C40** is false of `right_join_with`: with `self = {1}` and `that = {2}`, a right join that keeps everything should give `{2}`, or at
least nothing outside `{2}`; the method leaves `{1}`. -/
theorem C40_right_join_with_counterexample :
    let a : BTreeMap Nat Char := ⟨[(1, 'a')]⟩
    let b : BTreeMap Nat Char := ⟨[(2, 'b')]⟩
    (a.rightJoinWith b (fun _ v _ => (v, true)) (fun _ _ => true)).get 1 = some 'a' ∧
    (a.rightJoinWith b (fun _ v _ => (v, true)) (fun _ _ => true)).get 2 = none := by decide

end
end BTreeMap
end Verif
