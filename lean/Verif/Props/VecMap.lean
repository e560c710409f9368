import Verif.Lemmas.MapHistory
import Verif.Lemmas.Schedule
/-!
# Properties of `VecMap` (C18–C29, C58, and the map parts of C12, C13, C16)

`BuiltMap m` (Verif/Spec/MapHistory.lean): `m` was produced by some finite history of public operations.
`Maps l k v`: the association list `l` has an entry whose key equals `k` (in the order) and whose value is `v`.
`Offers a b arg`: `arg` is the join argument for some key of `a` or `b`.
-/
namespace Verif
open Std VecMap
variable {K V W R : Type} [Ord K] [TransOrd K]

/-! ## C18 -/

/-- **C18.** However a map came about, its entries are strictly ascending by key. -/
theorem C18_keys_strictly_ascending (m : VecMap K V) (h : BuiltMap m) : AscendingBy Prod.fst m.asSlice := h.ascending

/-- a history that changes the value type, joins with a panicking closure and overwrites through `get_mut` -/
example : BuiltMap ((((VecMap.fromIter [(3, "x"), (1, "y"), (3, "z")]).mapValues String.length).outerJoinWith
    (VecMap.single (2, true)) (fun | .right _ _ => .panic | .left _ v => .ret (some v) | .both _ v _ => .ret (some v))).1.updateMut 1
      (· + 1)).1 :=
  .updateMut (.outerJoinWith (.mapValues (.fromIter _) _) (.single _) _) _ _

/-- Conversely every strictly ascending list of entries is the content of some map. -/
theorem C18_every_ascending_is_built (l : List (K × V)) (h : AscendingBy Prod.fst l) : BuiltMap (⟨l⟩ : VecMap K V) :=
  .fromBTreeMap l h

/-! ## C19 -/

/-- **C19.** In a collected map, a key has the value of the last pair with that key. -/
theorem C19_collect_last_wins (items : List (K × V)) (k : K) (v : V) :
    (VecMap.fromIter items).get k = some v ↔
      ∃ before k' after, items = before ++ (k', v) :: after ∧ compare k' k = .eq ∧ ¬ HasKey after k := by
  rw [get_iff (fromIter_asc items), fromIter_maps]; rfl

/-- **C19.** and no value iff no pair has that key -/
theorem C19_collect_none (items : List (K × V)) (k : K) : (VecMap.fromIter items).get k = none ↔ ¬ HasKey items k := by
  rw [get_none_iff (fromIter_asc items), fromIter_hasKey]

example : (VecMap.fromIter [(1, 'a'), (2, 'b'), (1, 'c')]).get 1 = some 'c' :=
  (C19_collect_last_wins _ _ _).2 ⟨[(1, 'a'), (2, 'b')], 1, [], rfl, rfl, by simp [HasKey, Maps]⟩

/-! ## C20 -/

/-- **C20.** Running any sequence of operations on any public map shows the client exactly what the mathematical map shows, and
ends in a map that represents the mathematical result. -/
theorem C20_history_refines_maps (m : VecMap K V) (h : BuiltMap m) (ops : List (MapOp K V W)) (ok : ∀ op ∈ ops, op.Ok) :
    ∃ M', MapRun (Maps m.asSlice) ops (execMap m ops).2 M' ∧ AscendingBy Prod.fst (execMap m ops).1.asSlice ∧
      ∀ k v, (execMap m ops).1.get k = some v ↔ M' k v := by
  obtain ⟨M', h1, h2, h3⟩ := mapRun_of_exec ops m (Maps m.asSlice) h.ascending (fun _ _ => Iff.rfl) ok
  exact ⟨M', h1, h2, fun k v => by rw [get_iff h2, h3]⟩

/-- the hypotheses are satisfiable by a history using every kind of operand -/
example : ∀ op ∈ ([.insert 3 7, .update 3 (· + 1), .retain (fun k _ => k % 2 == 1), .extend [(5, 1), (5, 2)],
      .mergeWith (VecMap.single (9, 9)), .outerJoinWith (VecMap.fromIter [(1, true)]) (fun | .right k _ => some k | .left _ v => some v | .both _ v _ => some v),
      .innerJoinWith (VecMap.single (3, false)) (fun _ v _ => some v), .get 3, .len] : List (MapOp Nat Nat Bool)), op.Ok := by
  have e : ∀ k k' : Nat, compare k k' = .eq → k = k' := fun k k' h => Nat.compare_eq_eq.1 h
  simp only [List.mem_cons, List.not_mem_nil, or_false, forall_eq_or_imp, forall_eq, MapOp.Ok, and_true, true_and]
  refine ⟨fun k k' v h => by rw [e k k' h], .single _, ⟨.fromIter _, fun k k' h => ?_⟩, ⟨.single _, ?_⟩⟩
  · rw [e k k' h]; exact ⟨fun _ => rfl, fun _ => rfl, fun _ _ => rfl⟩
  · exact fun _ _ _ _ _ => trivial

/-- **C20.** `insert` on its own: previous value returned, the new entry (key included) replaces any entry with an equal key, everything
else is untouched. -/
theorem C20_insert (m : VecMap K V) (h : BuiltMap m) (k : K) (v : V) :
    (m.insert k v).2 = m.get k ∧
    ∀ e, e ∈ (m.insert k v).1.asSlice ↔ e = (k, v) ∨ (e ∈ m.asSlice ∧ compare e.1 k ≠ .eq) :=
  ⟨insert_ret h.ascending k v, fun e => insert_mem h.ascending k v e⟩

/-- **C20.** `get` and `get_mut` -/
theorem C20_get (m : VecMap K V) (h : BuiltMap m) (k : K) :
    (∀ v, m.get k = some v ↔ Maps m.asSlice k v) ∧
    (∀ w, ((m.updateMut k w).2 = true ↔ HasKey m.asSlice k) ∧
      ∀ e, e ∈ (m.updateMut k w).1.asSlice ↔
        (compare e.1 k ≠ .eq ∧ e ∈ m.asSlice) ∨ (compare e.1 k = .eq ∧ ∃ v, (e.1, v) ∈ m.asSlice ∧ e.2 = w v)) :=
  ⟨fun v => get_iff h.ascending k v, fun w => ⟨updateMut_ret h.ascending k w, fun e => updateMut_mem h.ascending k w e⟩⟩

/-! ## C21–C24: the joins -/

/-- **C21.** The entries of an outer join are exactly the results of the closure on the offered arguments, under the key of the
argument; no panic; keys ascending. (Two ascending lists with the same members are equal, so this determines the result.) -/
theorem C21_outer_join (a : VecMap K V) (b : VecMap K W) (ha : BuiltMap a) (hb : BuiltMap b) (f : OuterJoinArg K V W → Option R) :
    (a.outerJoin b (fun x => .ret (f x))).2 = .cont ∧
    AscendingBy Prod.fst (a.outerJoin b (fun x => .ret (f x))).1.asSlice ∧
    ∀ k r, (k, r) ∈ (a.outerJoin b (fun x => .ret (f x))).1.asSlice ↔
      ∃ arg, Offers a.asSlice b.asSlice arg ∧ arg.key = k ∧ f arg = some r := by
  have ha := ha.ascending
  have hb := hb.ascending
  rw [outerJoin_pure ha hb]
  refine ⟨rfl, pureJoin_asc (joinArgs_asc ha hb), fun k r => ?_⟩
  simp only [asSlice, mem_pureJoin, mem_joinArgs ha hb]

/-- the three cases occur -/
example : Offers [(1, 'a'), (2, 'b')] [(2, true), (3, false)] (.left 1 'a') ∧
    Offers [(1, 'a'), (2, 'b')] [(2, true), (3, false)] (.both 2 'b' true) ∧
    Offers [(1, 'a'), (2, 'b')] [(2, true), (3, false)] (.right 3 false) := by
  refine ⟨⟨by simp, ?_⟩, ⟨by simp, 2, by simp, rfl⟩, ⟨by simp, ?_⟩⟩
  · rintro ⟨v, k', h, e⟩
    have := Nat.compare_eq_eq.1 e; simp at h; omega
  · rintro ⟨v, k', h, e⟩
    have := Nat.compare_eq_eq.1 e; simp at h; omega

/-- **C21.** the same through `get`, when the closure does not separate equal keys -/
theorem C21_outer_join_get (a : VecMap K V) (b : VecMap K W) (ha : BuiltMap a) (hb : BuiltMap b) (f : OuterJoinArg K V W → Option R)
    (hf : RespectsKeys f) (k : K) :
    (a.outerJoin b (fun x => .ret (f x))).1.get k =
      match a.get k, b.get k with
      | some v, some w => f (.both k v w)
      | some v, none => f (.left k v)
      | none, some w => f (.right k w)
      | none, none => none := by
  have hr := (BuiltMap.outerJoin ha hb (fun x => .ret (f x))).ascending
  have ha := ha.ascending
  have hb := hb.ascending
  apply Option.ext
  intro r
  rw [get_iff hr, outerJoin_pure ha hb, maps_pureJoin ha hb hf]
  simp only [← get_iff ha, ← get_iff hb, ← get_none_iff ha, ← get_none_iff hb]
  cases a.get k <;> cases b.get k <;> simp

/-- **C22.** left join -/
theorem C22_left_join (a : VecMap K V) (b : VecMap K W) (ha : BuiltMap a) (hb : BuiltMap b) (f : K → V → Option W → Option R) :
    (a.leftJoin b (fun k v w => .ret (f k v w))).2 = .cont ∧
    AscendingBy Prod.fst (a.leftJoin b (fun k v w => .ret (f k v w))).1.asSlice ∧
    ∀ k r, (k, r) ∈ (a.leftJoin b (fun k v w => .ret (f k v w))).1.asSlice ↔
      ∃ v, (k, v) ∈ a.asSlice ∧
        ((¬ HasKey b.asSlice k ∧ f k v none = some r) ∨ ∃ w, Maps b.asSlice k w ∧ f k v (some w) = some r) := by
  have ha := ha.ascending
  have hb := hb.ascending
  rw [leftJoin_pure ha hb]
  refine ⟨rfl, pureJoin_asc (joinArgs_asc ha hb), fun k r => ?_⟩
  simp only [asSlice, mem_pureJoin, mem_joinArgs ha hb]
  constructor
  · rintro ⟨arg, ho, rfl, h⟩
    cases arg with
    | left k v => exact ⟨v, ho.1, .inl ⟨ho.2, h⟩⟩
    | right k w => simp [pureLeft] at h
    | both k v w => exact ⟨v, ho.1, .inr ⟨w, ho.2, h⟩⟩
  · rintro ⟨v, hv, (⟨hn, h⟩ | ⟨w, hw, h⟩)⟩
    · exact ⟨.left k v, ⟨hv, hn⟩, rfl, h⟩
    · exact ⟨.both k v w, ⟨hv, hw⟩, rfl, h⟩

/-- **C22.** through `get` -/
theorem C22_left_join_get (a : VecMap K V) (b : VecMap K W) (ha : BuiltMap a) (hb : BuiltMap b) (f : K → V → Option W → Option R)
    (hf : ∀ k k' v w, compare k k' = .eq → f k v w = f k' v w) (k : K) :
    (a.leftJoin b (fun k v w => .ret (f k v w))).1.get k = (a.get k).bind (fun v => f k v (b.get k)) := by
  have hr := (BuiltMap.leftJoin ha hb (fun k v w => .ret (f k v w))).ascending
  have ha := ha.ascending
  have hb := hb.ascending
  apply Option.ext
  intro r
  rw [get_iff hr, leftJoin_pure ha hb,
    maps_pureJoin ha hb (by intro k k' e; exact ⟨fun v => hf k k' v _ e, fun _ => rfl, fun v w => hf k k' v _ e⟩)]
  simp only [← get_iff ha, ← get_iff hb, ← get_none_iff ha, ← get_none_iff hb]
  cases a.get k <;> cases b.get k <;> simp [pureLeft]

/-- **C23.** right join -/
theorem C23_right_join (a : VecMap K V) (b : VecMap K W) (ha : BuiltMap a) (hb : BuiltMap b) (f : K → Option V → W → Option R) :
    (a.rightJoin b (fun k v w => .ret (f k v w))).2 = .cont ∧
    AscendingBy Prod.fst (a.rightJoin b (fun k v w => .ret (f k v w))).1.asSlice ∧
    ∀ k r, (k, r) ∈ (a.rightJoin b (fun k v w => .ret (f k v w))).1.asSlice ↔
      (∃ w, (k, w) ∈ b.asSlice ∧ ¬ HasKey a.asSlice k ∧ f k none w = some r) ∨
      (∃ v w, (k, v) ∈ a.asSlice ∧ Maps b.asSlice k w ∧ f k (some v) w = some r) := by
  have ha := ha.ascending
  have hb := hb.ascending
  rw [rightJoin_pure ha hb]
  refine ⟨rfl, pureJoin_asc (joinArgs_asc ha hb), fun k r => ?_⟩
  simp only [asSlice, mem_pureJoin, mem_joinArgs ha hb]
  constructor
  · rintro ⟨arg, ho, rfl, h⟩
    cases arg with
    | left k v => simp [pureRight] at h
    | right k w => exact .inl ⟨w, ho.1, ho.2, h⟩
    | both k v w => exact .inr ⟨v, w, ho.1, ho.2, h⟩
  · rintro (⟨w, hw, hn, h⟩ | ⟨v, w, hv, hw, h⟩)
    · exact ⟨.right k w, ⟨hw, hn⟩, rfl, h⟩
    · exact ⟨.both k v w, ⟨hv, hw⟩, rfl, h⟩

/-- **C23.** through `get` -/
theorem C23_right_join_get (a : VecMap K V) (b : VecMap K W) (ha : BuiltMap a) (hb : BuiltMap b) (f : K → Option V → W → Option R)
    (hf : ∀ k k' v w, compare k k' = .eq → f k v w = f k' v w) (k : K) :
    (a.rightJoin b (fun k v w => .ret (f k v w))).1.get k = (b.get k).bind (fun w => f k (a.get k) w) := by
  have hr := (BuiltMap.rightJoin ha hb (fun k v w => .ret (f k v w))).ascending
  have ha := ha.ascending
  have hb := hb.ascending
  apply Option.ext
  intro r
  rw [get_iff hr, rightJoin_pure ha hb,
    maps_pureJoin ha hb (by intro k k' e; exact ⟨fun _ => rfl, fun w => hf k k' _ w e, fun v w => hf k k' _ w e⟩)]
  simp only [← get_iff ha, ← get_iff hb, ← get_none_iff ha, ← get_none_iff hb]
  cases a.get k <;> cases b.get k <;> simp [pureRight]

/-- **C24.** inner join -/
theorem C24_inner_join (a : VecMap K V) (b : VecMap K W) (ha : BuiltMap a) (hb : BuiltMap b) (f : K → V → W → Option R) :
    (a.innerJoin b (fun k v w => .ret (f k v w))).2 = .cont ∧
    AscendingBy Prod.fst (a.innerJoin b (fun k v w => .ret (f k v w))).1.asSlice ∧
    ∀ k r, (k, r) ∈ (a.innerJoin b (fun k v w => .ret (f k v w))).1.asSlice ↔
      ∃ v w, (k, v) ∈ a.asSlice ∧ Maps b.asSlice k w ∧ f k v w = some r := by
  have ha := ha.ascending
  have hb := hb.ascending
  rw [innerJoin_pure ha hb]
  refine ⟨rfl, pureJoin_asc (joinArgs_asc ha hb), fun k r => ?_⟩
  simp only [asSlice, mem_pureJoin, mem_joinArgs ha hb]
  constructor
  · rintro ⟨arg, ho, rfl, h⟩
    cases arg with
    | left k v => simp [pureInner] at h
    | right k w => simp [pureInner] at h
    | both k v w => exact ⟨v, w, ho.1, ho.2, h⟩
  · rintro ⟨v, w, hv, hw, h⟩
    exact ⟨.both k v w, ⟨hv, hw⟩, rfl, h⟩

/-- **C24.** through `get` -/
theorem C24_inner_join_get (a : VecMap K V) (b : VecMap K W) (ha : BuiltMap a) (hb : BuiltMap b) (f : K → V → W → Option R)
    (hf : ∀ k k' v w, compare k k' = .eq → f k v w = f k' v w) (k : K) :
    (a.innerJoin b (fun k v w => .ret (f k v w))).1.get k = (a.get k).bind (fun v => (b.get k).bind (fun w => f k v w)) := by
  have hr := (BuiltMap.innerJoin ha hb (fun k v w => .ret (f k v w))).ascending
  have ha := ha.ascending
  have hb := hb.ascending
  apply Option.ext
  intro r
  rw [get_iff hr, innerJoin_pure ha hb,
    maps_pureJoin ha hb (by intro k k' e; exact ⟨fun _ => rfl, fun _ => rfl, fun v w => hf k k' v w e⟩)]
  simp only [← get_iff ha, ← get_iff hb, ← get_none_iff ha, ← get_none_iff hb]
  cases a.get k <;> cases b.get k <;> simp [pureInner]

/-! ## C25 -/

/-- **C25.** Every in-place join leaves exactly the map (and ends exactly the way) the corresponding by-reference join does, also when
the closure panics. -/
theorem C25_in_place_joins_agree (a : VecMap K V) (b : VecMap K W) (ha : BuiltMap a) (hb : BuiltMap b) :
    (∀ f : OuterJoinArg K V W → Call (Option V), a.outerJoinWith b f = a.outerJoin b f) ∧
    (∀ f : K → V → Option W → Call (Option V), a.leftJoinWith b f = a.leftJoin b f) ∧
    (∀ f : K → Option V → W → Call (Option V), a.rightJoinWith b f = a.rightJoin b f) ∧
    (∀ f : K → V → W → Call (Option V), a.innerJoinWith b f = a.innerJoin b f) :=
  ⟨fun f => outerJoinWith_eq ha.ascending hb.ascending f, fun f => leftJoinWith_eq ha.ascending hb.ascending f,
   fun f => rightJoinWith_eq ha.ascending hb.ascending f, fun f => innerJoinWith_eq ha.ascending hb.ascending f⟩

/-! ## C26 -/

/-- **C26.** `combine_with` -/
theorem C26_combine_with (a b : VecMap K V) (ha : BuiltMap a) (hb : BuiltMap b) (f : V → V → V) (k : K) :
    (a.combineWith b (fun v w => .ret (f v w))).2 = .cont ∧
    (a.combineWith b (fun v w => .ret (f v w))).1.get k =
      match a.get k, b.get k with
      | some v, some w => some (f v w)
      | some v, none => some v
      | none, x => x := by
  have hr := (BuiltMap.combineWith ha hb (fun v w => .ret (f v w))).ascending
  have ha := ha.ascending
  have hb := hb.ascending
  refine ⟨by rw [combineWith_pure ha hb], ?_⟩
  apply Option.ext
  intro r
  rw [get_iff hr, combineWith_pure ha hb, maps_pureJoin ha hb (by intro k k' _; exact ⟨fun _ => rfl, fun _ => rfl, fun _ _ => rfl⟩)]
  simp only [← get_iff ha, ← get_iff hb, ← get_none_iff ha, ← get_none_iff hb]
  cases a.get k <;> cases b.get k <;> simp [pureCombine]

/-- **C26.** `merge_with` and `extend` are right-biased -/
theorem C26_merge_with_extend (a b : VecMap K V) (ha : BuiltMap a) (hb : BuiltMap b) (items : List (K × V)) (k : K) :
    ((a.mergeWith b).2 = .cont ∧ (a.mergeWith b).1.get k = (b.get k).or (a.get k)) ∧
    ((a.extend items).2 = .cont ∧ (a.extend items).1.get k = ((VecMap.fromIter items).get k).or (a.get k)) := by
  have key : ∀ c : VecMap K V, BuiltMap c → (a.mergeWith c).2 = .cont ∧ (a.mergeWith c).1.get k = (c.get k).or (a.get k) := by
    intro c hc
    obtain ⟨h1, h2⟩ := C26_combine_with a c ha hc (fun _ r => r) k
    refine ⟨h1, h2.trans ?_⟩
    cases a.get k <;> cases c.get k <;> rfl
  exact ⟨key b hb, key _ (.fromIter items)⟩

/-- **C26.** which entries (keys included) `extend` leaves; the surviving key object for a common key is that of `self` -/
theorem C26_combine_entries (a b : VecMap K V) (ha : BuiltMap a) (hb : BuiltMap b) (f : V → V → V) (k : K) (r : V) :
    (k, r) ∈ (a.combineWith b (fun v w => .ret (f v w))).1.asSlice ↔
      ((k, r) ∈ a.asSlice ∧ ¬ HasKey b.asSlice k) ∨ ((k, r) ∈ b.asSlice ∧ ¬ HasKey a.asSlice k) ∨
      ∃ v w, (k, v) ∈ a.asSlice ∧ Maps b.asSlice k w ∧ f v w = r := by
  have ha := ha.ascending
  have hb := hb.ascending
  rw [combineWith_pure ha hb]
  simp only [asSlice, mem_pureJoin, mem_joinArgs ha hb]
  constructor
  · rintro ⟨arg, ho, rfl, h⟩
    cases arg with
    | left k v => simp only [pureCombine, Option.some.injEq] at h; subst h; exact .inl ho
    | right k w => simp only [pureCombine, Option.some.injEq] at h; subst h; exact .inr (.inl ho)
    | both k v w => exact .inr (.inr ⟨v, w, ho.1, ho.2, Option.some.inj h⟩)
  · rintro (h | h | ⟨v, w, hv, hw, rfl⟩)
    · exact ⟨.left k r, h, rfl, rfl⟩
    · exact ⟨.right k r, h, rfl, rfl⟩
    · exact ⟨.both k v w, ⟨hv, hw⟩, rfl, rfl⟩

/-! ## C27 -/

omit [TransOrd K] in
/-- **C27.** `map_values` keeps keys and positions -/
theorem C27_map_values (m : VecMap K V) (f : V → R) :
    (m.mapValues f).asSlice.map Prod.fst = m.asSlice.map Prod.fst ∧ (m.mapValues f).asSlice.map Prod.snd = m.asSlice.map (fun e => f e.2) ∧
    ∀ k r, Maps (m.mapValues f).asSlice k r ↔ ∃ v, Maps m.asSlice k v ∧ r = f v := by
  refine ⟨by simp [mapValues, asSlice], by simp [mapValues, asSlice], fun k r => mapValues_maps f k r⟩

/-- **C27.** turning a map into a set of pairs (compared by key, then value) gives a valid set with exactly the entries -/
theorem C27_into_set [Ord V] (m : VecMap K V) (h : BuiltMap m) :
    @Ascending (K × V) lexOrd m.toVecSet.asSlice ∧ m.toVecSet.asSlice = m.asSlice := by
  refine ⟨?_, rfl⟩
  refine List.Pairwise.imp ?_ h.ascending
  intro x y e
  show (compareLex (compareOn (·.1)) (compareOn (·.2)) x y) = .lt
  simp only [compareLex, compareOn]
  rw [e]; rfl

/-- **C27.** conversions from the ordered std collections take over the contents unchanged -/
theorem C27_from_btree [Ord V] (l : List (K × V)) (s : List K) (hl : AscendingBy Prod.fst l) (hs : Ascending s) :
    (∀ k v, (VecMap.fromBTreeMap l).get k = some v ↔ Maps l k v) ∧ (∀ x, (VecSet.fromBTreeSet s).contains x = true ↔ Has s x) :=
  ⟨fun k v => get_iff (a := ⟨l⟩) hl k v, fun x => VecSet.contains_iff (a := ⟨s⟩) hs x⟩

/-! ## C28 -/

/-- **C28.** deserialising what was serialised gives the same map -/
theorem C28_roundtrip {E : Type _} (m : VecMap K V) (h : BuiltMap m) :
    VecMap.visitMap (E := E) (m.serialize.map .ok) = .ok m := by
  rw [VecMap.visitMap, visitMap_go_ok, List.nil_append]
  congr 1
  cases m with
  | mk l =>
    simp only [VecMap.mk.injEq, serialize]
    exact AscendingBy.ext (key := (Prod.fst : K × V → K)) (sortDedup_asc l) h.ascending (sortDedup_find l)

/-- **C28.** an arbitrary sequence of entries gives a valid map in which the first entry of a repeated key wins; an entry error fails
the whole -/
theorem C28_any_sequence {E : Type} (l : List (K × V)) :
    (∃ m, VecMap.visitMap (E := E) (l.map .ok) = .ok m ∧ BuiltMap m ∧
      ∀ k v, m.get k = some v ↔ ∃ before k' after, l = before ++ (k', v) :: after ∧ compare k' k = .eq ∧ ¬ HasKey before k) ∧
    (∀ (e : E) rest, VecMap.visitMap (l.map .ok ++ .error e :: rest) = .error e) := by
  refine ⟨?_, fun e rest => by rw [VecMap.visitMap, visitMap_go_err]⟩
  have hv : ∃ m, VecMap.visitMap (E := E) (l.map .ok) = .ok m ∧ m.entries = stdDedupBy (fun a b : K × V => compare a.1 b.1 == .eq)
      (stableSortBy (fun a b => compare a.1 b.1) l) := by
    exact ⟨⟨stdDedupBy (fun a b : K × V => compare a.1 b.1 == .eq) (stableSortBy (fun a b => compare a.1 b.1) l)⟩,
      by rw [VecMap.visitMap, visitMap_go_ok, List.nil_append], rfl⟩
  obtain ⟨m, hm, he⟩ := hv
  refine ⟨m, hm, .deserialized _ hm, fun k v => ?_⟩
  have hasc : AscendingBy Prod.fst m.entries := by rw [he]; exact sortDedup_asc l
  rw [get_iff hasc, ← findBy_maps hasc, he, sortDedup_find]
  clear he hm hasc
  induction l with
  | nil => simp
  | cons x l ih =>
    obtain ⟨xk, xv⟩ := x
    rw [findBy_cons]
    by_cases e : compare xk k = .eq
    · simp only [e, ↓reduceIte, Option.some.injEq, Prod.mk.injEq]
      constructor
      · rintro ⟨k', rfl, rfl⟩; exact ⟨[], xk, l, rfl, e, by simp [HasKey, Maps]⟩
      · rintro ⟨before, k', after, h, e', hn⟩
        cases before with
        | nil => simp only [List.nil_append, List.cons.injEq, Prod.mk.injEq] at h; exact ⟨xk, rfl, h.1.2⟩
        | cons y before =>
          simp only [List.cons_append, List.cons.injEq] at h
          exact absurd ⟨xv, xk, by rw [← h.1]; simp, e⟩ hn
    · simp only [e, ↓reduceIte, ih]
      constructor
      · rintro ⟨before, k', after, rfl, e', hn⟩
        refine ⟨(xk, xv) :: before, k', after, rfl, e', ?_⟩
        rintro ⟨w, k2, hm, e2⟩
        rcases List.mem_cons.1 hm with h | h
        · cases h; exact e e2
        · exact hn ⟨w, k2, h, e2⟩
      · rintro ⟨before, k', after, h, e', hn⟩
        cases before with
        | nil => simp only [List.nil_append, List.cons.injEq, Prod.mk.injEq] at h; rw [h.1.1] at e; exact absurd e' e
        | cons y before =>
          simp only [List.cons_append, List.cons.injEq] at h
          refine ⟨before, k', after, h.2, e', ?_⟩
          rintro ⟨w, k2, hm, e2⟩
          exact hn ⟨w, k2, by simp [hm], e2⟩

/-- **C28.** so deserialising and collecting the same entries disagree on repeated keys -/
theorem C28_differs_from_collect : ∃ m : VecMap Nat Char,
    VecMap.visitMap (E := Unit) ([(1, 'a'), (1, 'b')].map .ok) = .ok m ∧ m.get 1 = some 'a' ∧
      (VecMap.fromIter [(1, 'a'), (1, 'b')]).get 1 = some 'b' := by
  obtain ⟨⟨m, h1, -, h2⟩, -⟩ := C28_any_sequence (E := Unit) [(1, 'a'), (1, 'b')]
  refine ⟨m, h1, (h2 1 'a').2 ⟨[], 1, [(1, 'b')], rfl, rfl, by simp [HasKey, Maps]⟩, ?_⟩
  exact (C19_collect_last_wins _ _ _).2 ⟨[(1, 'a')], 1, [], rfl, rfl, by simp [HasKey, Maps]⟩

/-! ## C29 -/

/-- **C29.** An in-place outer join whose closure may panic: the map left behind is a prefix of the map that any total closure agreeing
with it would have produced (hence a valid map), and the call panics iff the closure panics on some offered argument. -/
theorem C29_outer_join_with_panic (a : VecMap K V) (b : VecMap K W) (ha : BuiltMap a) (hb : BuiltMap b)
    (f : OuterJoinArg K V W → Call (Option V)) (g : OuterJoinArg K V W → Option V) (hg : ∀ x r, f x = .ret r → g x = r) :
    AscendingBy Prod.fst (a.outerJoinWith b f).1.asSlice ∧
    (a.outerJoinWith b f).1.asSlice <+: (a.outerJoinWith b (fun x => .ret (g x))).1.asSlice ∧
    ((a.outerJoinWith b f).2 = .panic ↔ ∃ arg, Offers a.asSlice b.asSlice arg ∧ f arg = .panic) ∧
    ((a.outerJoinWith b f).2 ≠ .panic → a.outerJoinWith b f = a.outerJoinWith b (fun x => .ret (g x))) := by
  have ha := ha.ascending
  have hb := hb.ascending
  obtain ⟨h1, h2, h3⟩ := collect_call hg (joinArgs a.entries b.entries)
  rw [outerJoinWith_eq ha hb, outerJoinWith_eq ha hb, outerJoin_pure ha hb, outerJoin_eq ha hb]
  have hp : (collect (argEmit f) (joinArgs a.entries b.entries)).2 = .panic ↔ ∃ arg, Offers a.asSlice b.asSlice arg ∧ f arg = .panic := by
    constructor
    · intro h
      refine Classical.byContradiction fun hn => ?_
      have := h1 (fun x hx e => hn ⟨x, (mem_joinArgs ha hb x).1 hx, e⟩)
      rw [this] at h; cases h
    · rintro ⟨x, hx, e⟩; exact h2 ⟨x, (mem_joinArgs ha hb x).2 hx, e⟩
  refine ⟨collect_asc (joinArgs_asc ha hb), h3, hp, fun hn => ?_⟩
  have hn' : ∀ x ∈ joinArgs a.entries b.entries, f x ≠ .panic := fun x hx e => hn (h2 ⟨x, hx, e⟩)
  rw [h1 hn']

/-- **C29.** the same for left, right, inner joins and `combine_with`: a valid map remains, whatever the closure does -/
theorem C29_other_joins_panic (a : VecMap K V) (b : VecMap K W) (c : VecMap K V) (ha : BuiltMap a) (hb : BuiltMap b) (hc : BuiltMap c) :
    (∀ (f : K → V → Option W → Call (Option V)) (g : K → V → Option W → Option V), (∀ k v w r, f k v w = .ret r → g k v w = r) →
      AscendingBy Prod.fst (a.leftJoinWith b f).1.asSlice ∧
      (a.leftJoinWith b f).1.asSlice <+: (a.leftJoinWith b (fun k v w => .ret (g k v w))).1.asSlice) ∧
    (∀ (f : K → Option V → W → Call (Option V)) (g : K → Option V → W → Option V), (∀ k v w r, f k v w = .ret r → g k v w = r) →
      AscendingBy Prod.fst (a.rightJoinWith b f).1.asSlice ∧
      (a.rightJoinWith b f).1.asSlice <+: (a.rightJoinWith b (fun k v w => .ret (g k v w))).1.asSlice) ∧
    (∀ (f : K → V → W → Call (Option V)) (g : K → V → W → Option V), (∀ k v w r, f k v w = .ret r → g k v w = r) →
      AscendingBy Prod.fst (a.innerJoinWith b f).1.asSlice ∧
      (a.innerJoinWith b f).1.asSlice <+: (a.innerJoinWith b (fun k v w => .ret (g k v w))).1.asSlice) ∧
    (∀ (f : V → V → Call V) (g : V → V → V), (∀ v w r, f v w = .ret r → g v w = r) →
      AscendingBy Prod.fst (a.combineWith c f).1.asSlice ∧
      (a.combineWith c f).1.asSlice <+: (a.combineWith c (fun v w => .ret (g v w))).1.asSlice) := by
  have ha := ha.ascending
  have hb := hb.ascending
  have hc := hc.ascending
  refine ⟨fun f g hg => ?_, fun f g hg => ?_, fun f g hg => ?_, fun f g hg => ?_⟩
  · rw [leftJoinWith_eq ha hb, leftJoinWith_eq ha hb, leftJoin_pure ha hb, leftJoin_eq ha hb]
    refine ⟨collect_asc (joinArgs_asc ha hb), (collect_call (g := pureLeft g) ?_ _).2.2⟩
    intro x r h
    cases x with
    | left k v => exact hg k v none r h
    | right k w => cases h; rfl
    | both k v w => exact hg k v (some w) r h
  · rw [rightJoinWith_eq ha hb, rightJoinWith_eq ha hb, rightJoin_pure ha hb, rightJoin_eq ha hb]
    refine ⟨collect_asc (joinArgs_asc ha hb), (collect_call (g := pureRight g) ?_ _).2.2⟩
    intro x r h
    cases x with
    | left k v => cases h; rfl
    | right k w => exact hg k none w r h
    | both k v w => exact hg k (some v) w r h
  · rw [innerJoinWith_eq ha hb, innerJoinWith_eq ha hb, innerJoin_pure ha hb, innerJoin_eq ha hb]
    refine ⟨collect_asc (joinArgs_asc ha hb), (collect_call (g := pureInner g) ?_ _).2.2⟩
    intro x r h
    cases x with
    | left k v => cases h; rfl
    | right k w => cases h; rfl
    | both k v w => exact hg k v w r h
  · rw [combineWith_pure ha hc, combineWith_def, outerJoinWith_eq ha hc, outerJoin_eq ha hc]
    refine ⟨collect_asc (joinArgs_asc ha hc), (collect_call (g := pureCombine g) ?_ _).2.2⟩
    intro x r h
    cases x with
    | left k v => cases h; rfl
    | right k w => cases h; rfl
    | both k v w =>
      simp only [combineArg] at h
      cases hf : f v w with
      | panic => rw [hf] at h; cases h
      | ret x => rw [hf] at h; cases h; exact congrArg some (hg v w x hf)

/-- a panic in the middle: the map keeps what was already produced -/
example : ∃ f : OuterJoinArg Nat Char Bool → Call (Option Char), f (.left 1 'x') = .ret (some 'x') ∧ f (.right 2 true) = .panic :=
  ⟨fun | .left _ v => .ret (some v) | _ => .panic, rfl, rfl⟩

/-- the crate's join operations on the in-place merge state -/
inductive IsJoinWithOp : MergeOp (InPlaceMS (K × V) (K × W)) (K × V) (K × W) → Prop
  | outer (f : OuterJoinArg K V W → Call (Option V)) : IsJoinWithOp (outerJoinWithOp f)
  | left (f : K → V → Option W → Call (Option V)) : IsJoinWithOp (leftJoinWithOp f)
  | right (f : K → Option V → W → Call (Option V)) : IsJoinWithOp (rightJoinWithOp f)
  | inner (f : K → V → W → Call (Option V)) : IsJoinWithOp (innerJoinWithOp f)

/-- **C29 (interruption between callbacks, e.g. a panicking key comparison).** After any part of any legal callback schedule, the
vector under construction is a prefix of the undisturbed result, hence strictly ascending by key. -/
theorem C29_interrupted_anywhere (a : List (K × V)) (b : List (K × W)) (ha : AscendingBy Prod.fst a) (hb : AscendingBy Prod.fst b)
    (op : MergeOp (InPlaceMS (K × V) (K × W)) (K × V) (K × W)) (hop : IsJoinWithOp op) (done rest : List Ev)
    (hl : Legal (fun x y => compare x.1 y.1) a b (done ++ rest)) :
    (runEvs op { tgt := [], src := a, b := b } done).1.tgt <+: (InPlaceMS.merge a b op).1 ∧
    AscendingBy Prod.fst (runEvs op { tgt := [], src := a, b := b } done).1.tgt := by
  have key : ∀ (h : OuterJoinArg K V W → Call (Option V)), ArgImpl op (fun s => s.tgt) h →
      (op.cmp = fun x y => compare x.1 y.1) →
      (runEvs op { tgt := [], src := a, b := b } done).1.tgt <+: (InPlaceMS.merge a b op).1 ∧
      AscendingBy Prod.fst (runEvs op { tgt := [], src := a, b := b } done).1.tgt := by
    intro h impl hcmp
    rw [← hcmp] at hl
    have h1 := legal_prefix impl hl { tgt := [], src := a, b := b } done trivial rfl rfl (List.prefix_append _ _)
    have h2 := (schedule_indep (ka := Prod.fst) (kb := Prod.fst) impl (fun x y => by rw [hcmp])
      { tgt := [], src := a, b := b } trivial ha hb hl).1
    have h3 : (InPlaceMS.merge a b op).1 = (collect (argEmit h) (joinArgs a b)).1 := by
      rw [InPlaceMS.merge_spec (ka := Prod.fst) (kb := Prod.fst) impl (fun _ => trivial) (fun x y => by rw [hcmp]) ha hb,
        ← joinRef_args, hcmp]
    have h4 : (runEvs op { tgt := [], src := a, b := b } done).1.tgt <+: (InPlaceMS.merge a b op).1 := by
      show _ <+: (mergeAll op { tgt := [], src := a, b := b }).1.tgt
      rw [← h2]; exact h1
    refine ⟨h4, ?_⟩
    rw [h3] at h4
    exact (collect_asc (joinArgs_asc ha hb)).sublist h4.sublist
  cases hop with
  | outer f => exact key f (outerJoinWithOp_impl f) rfl
  | left f => exact key (leftArg f) (leftJoinWithOp_impl f) rfl
  | right f => exact key (rightArg f) (rightJoinWithOp_impl f) rfl
  | inner f => exact key (innerArg f) (innerJoinWithOp_impl f) rfl

/-- a legal schedule with a non-trivial cut -/
example : Legal (fun (x : Nat × Char) (y : Nat × Bool) => compare x.1 y.1) [(1, 'a'), (2, 'b'), (5, 'c')] [(2, true), (3, false)]
    ([.a 1, .c] ++ [.b 1, .a 1]) := by
  refine .a 1 (by simp) (by simp) (by simp; decide) (.c (by decide) (.b 1 (by simp) (by simp) (by simp; decide) ?_))
  exact .a 1 (by simp) (by simp) (by simp) .done

/-- **C29, negative part.** `retain` gives no such guarantee: a predicate that panics can leave the entries out of order (the elements are
a permutation of the original ones, see `C13_retain_panic_permutation`). -/
theorem C29_retain_panic_unsorted : ∃ (m : VecMap Nat Unit) (f : Unit → Nat × Unit → Call (Unit × Bool)), BuiltMap m ∧
    (m.retain f ()).2.2 = .panic ∧ ¬ AscendingBy Prod.fst (m.retain f ()).1.asSlice := by
  refine ⟨⟨[(1, ()), (2, ()), (3, ())]⟩, fun _ e => if e.1 = 3 then .panic else .ret ((), e.1 ≠ 1), .fromBTreeMap _ ?_, rfl, ?_⟩
  · simp [AscendingBy]; decide
  · have : ((⟨[(1, ()), (2, ()), (3, ())]⟩ : VecMap Nat Unit).retain
        (fun _ e => if e.1 = 3 then .panic else .ret ((), e.1 ≠ 1)) ()).1.asSlice = [(2, ()), (1, ()), (3, ())] := rfl
    rw [this]
    simp [AscendingBy]; decide

/-! ## C12, C13, C16: map parts -/

/-- **C12 (maps, in place).** Any two legal schedules leave the same vector and end the same way, for every closure. -/
theorem C12_map_in_place (a : List (K × V)) (b : List (K × W)) (op : MergeOp (InPlaceMS (K × V) (K × W)) (K × V) (K × W))
    (hop : IsJoinWithOp op) (e1 e2 : List Ev) (h1 : Legal (fun x y => compare x.1 y.1) a b e1)
    (h2 : Legal (fun x y => compare x.1 y.1) a b e2) :
    (runEvs op { tgt := [], src := a, b := b } e1).1.tgt = (runEvs op { tgt := [], src := a, b := b } e2).1.tgt ∧
    (runEvs op { tgt := [], src := a, b := b } e1).2 = (runEvs op { tgt := [], src := a, b := b } e2).2 := by
  cases hop with
  | outer f => exact legal_agree (outerJoinWithOp_impl f) { tgt := [], src := a, b := b } trivial h1 h2
  | left f => exact legal_agree (leftJoinWithOp_impl f) { tgt := [], src := a, b := b } trivial h1 h2
  | right f => exact legal_agree (rightJoinWithOp_impl f) { tgt := [], src := a, b := b } trivial h1 h2
  | inner f => exact legal_agree (innerJoinWithOp_impl f) { tgt := [], src := a, b := b } trivial h1 h2

/-- the crate's join operations into a new vector -/
inductive IsJoinOp : MergeOp (SliceMS (K × V) (K × W) (K × R)) (K × V) (K × W) → Prop
  | outer (f : OuterJoinArg K V W → Call (Option R)) : IsJoinOp (outerJoinOp f)
  | left (f : K → V → Option W → Call (Option R)) : IsJoinOp (leftJoinOp f)
  | right (f : K → Option V → W → Call (Option R)) : IsJoinOp (rightJoinOp f)
  | inner (f : K → V → W → Call (Option R)) : IsJoinOp (innerJoinOp f)

/-- **C12 (maps, into a new vector).** -/
theorem C12_map_new_vector (a : List (K × V)) (b : List (K × W)) (op : MergeOp (SliceMS (K × V) (K × W) (K × R)) (K × V) (K × W))
    (hop : IsJoinOp op) (e1 e2 : List Ev) (h1 : Legal (fun x y => compare x.1 y.1) a b e1)
    (h2 : Legal (fun x y => compare x.1 y.1) a b e2) :
    (runEvs op { a := a, b := b, r := [] } e1).1.r = (runEvs op { a := a, b := b, r := [] } e2).1.r ∧
    (runEvs op { a := a, b := b, r := [] } e1).2 = (runEvs op { a := a, b := b, r := [] } e2).2 := by
  cases hop with
  | outer f => exact legal_agree (outerJoinOp_impl f) { a := a, b := b, r := [] } trivial h1 h2
  | left f => exact legal_agree (leftJoinOp_impl f) { a := a, b := b, r := [] } trivial h1 h2
  | right f => exact legal_agree (rightJoinOp_impl f) { a := a, b := b, r := [] } trivial h1 h2
  | inner f => exact legal_agree (innerJoinOp_impl f) { a := a, b := b, r := [] } trivial h1 h2

/-- **C13 (maps).** `retain` keeps exactly the entries a left-to-right run of the predicate accepts. -/
theorem C13_map_retain {P : Type} (m : VecMap K V) (h : BuiltMap m) (f : P → K × V → Call (P × Bool)) (p q : P) (l : List (K × V))
    (hk : keepRun f p m.asSlice = .ret (q, l)) :
    (m.retain f p).1.asSlice = l ∧ (m.retain f p).2 = (q, .cont) ∧ AscendingBy Prod.fst l := by
  have : smallVecRetain f m.entries p = (l, q, .cont) := smallVecRetain_ret hk
  simp only [VecMap.retain, this]
  exact ⟨rfl, trivial, h.ascending.sublist (keepRun_sublist hk)⟩

/-- **C13 (panic).** If the predicate panics, `retain` panics and no element is lost or duplicated: the contents are a permutation. -/
theorem C13_retain_panic_permutation {P : Type} (m : VecMap K V) (s : VecSet K) (f : P → K × V → Call (P × Bool)) (p : P)
    (f' : P → K → Call (P × Bool)) :
    (keepRun f p m.asSlice = .panic → (m.retain f p).2.2 = .panic ∧ (m.retain f p).1.asSlice.Perm m.asSlice) ∧
    (keepRun f' p s.asSlice = .panic → (s.retain f' p).2.2 = .panic ∧ (s.retain f' p).1.asSlice.Perm s.asSlice) :=
  ⟨fun h => smallVecRetain_panic h, fun h => smallVecRetain_panic h⟩

/-- **C16 (maps).** validation of an archived map with valid entries succeeds iff the keys are strictly ascending -/
theorem C16_map_check_bytes (valid : K × V → Bool) (l : List (K × V)) (hv : ∀ x ∈ l, valid x = true) :
    ((∃ m, VecMap.checkBytes valid l = .ok m) ↔ AscendingBy Prod.fst l) ∧
    (∀ m, VecMap.checkBytes valid l = .ok m → m.asSlice = l ∧ ∀ k v, m.get k = some v ↔ Maps l k v) ∧
    (¬ AscendingBy Prod.fst l → VecMap.checkBytes valid l = .error .orderCheck) := by
  refine ⟨⟨fun ⟨s, h⟩ => (checkBytes_ok.1 h).2.1, fun h => ⟨⟨l⟩, checkBytes_ok.2 ⟨hv, h, rfl⟩⟩⟩, ?_, ?_⟩
  · intro m h
    obtain ⟨_, h2, h3⟩ := checkBytes_ok.1 h
    exact ⟨h3, fun k v => by rw [get_iff (by rw [h3]; exact h2), h3]⟩
  · intro h
    cases hc : VecMap.checkBytes valid l with
    | ok m => exact absurd (checkBytes_ok.1 hc).2.1 h
    | error e =>
      cases e with
      | orderCheck => rfl
      | valueCheck =>
        unfold VecMap.checkBytes at hc
        rw [List.all_eq_true.2 hv] at hc
        simp only [Bool.not_true, Bool.false_eq_true, ↓reduceIte] at hc
        split at hc <;> cases hc

omit [TransOrd K] in
/-- **C16 (maps).** an invalid entry is reported -/
theorem C16_map_invalid_entry (valid : K × V → Bool) (l : List (K × V)) (x : K × V) (hx : x ∈ l) (hv : valid x = false) :
    VecMap.checkBytes valid l = .error .valueCheck := by
  unfold VecMap.checkBytes
  have : l.all valid = false := by
    rw [List.all_eq_false]; exact ⟨x, hx, by simp [hv]⟩
  simp [this]

/-- **C16 (maps).** archive round trip, with an order-preserving archived key type -/
theorem C16_map_archive_roundtrip {K' V' E : Type} [Ord K'] [TransOrd K'] (ak : K → K') (av : V → V') (de : K' × V' → Except E (K × V))
    (hde : ∀ k v, de (ak k, av v) = .ok (k, v)) (hord : ∀ x y, compare (ak x) (ak y) = compare x y)
    (m : VecMap K V) (h : BuiltMap m) :
    VecMap.checkBytes (fun _ => true) (m.archive ak av).asSlice = .ok (m.archive ak av) ∧
    (m.archive ak av).unarchive de = .ok m := by
  constructor
  · rw [checkBytes_ok]
    refine ⟨by simp, ?_, rfl⟩
    show AscendingBy Prod.fst (m.entries.map (fun e => (ak e.1, av e.2)))
    rw [AscendingBy, List.pairwise_map]
    simp only [hord]
    exact h.ascending
  · unfold VecMap.unarchive VecMap.archive
    have : (m.entries.map (fun e => (ak e.1, av e.2))).mapM de = Except.ok (ε := E) m.entries := by
      induction m.entries with
      | nil => rfl
      | cons x l ih => simp only [List.map_cons, List.mapM_cons, hde, ih]; rfl
    rw [this]

/-! ## C58 -/

/-- **C58.** two maps are equal iff they have the same keys and equal values under them -/
theorem C58_eq_iff_same_bindings [BEq V] (a b : VecMap K V) (ha : BuiltMap a) (hb : BuiltMap b) :
    a.eq b = true ↔ (∀ k, HasKey a.asSlice k ↔ HasKey b.asSlice k) ∧
      ∀ k v w, Maps a.asSlice k v → Maps b.asSlice k w → (v == w) = true := by
  have ha := ha.ascending
  have hb := hb.ascending
  have hk := eqList_iff (ascendingBy_map.1 ha) (ascendingBy_map.1 hb)
  simp only [hasKey_iff_has, asSlice]
  rw [← hk]
  simp only [List.length_map, VecMap.eq, Bool.and_eq_true, beq_iff_eq, List.all_eq_true, List.zip_map, List.mem_map, Prod.exists,
    Prod.map_apply, forall_exists_index, and_imp, Prod.mk.injEq]
  constructor
  · rintro ⟨hl, h⟩
    refine ⟨⟨hl, ?_⟩, ?_⟩
    · rintro ⟨k1, k2⟩ x1 v1 x2 v2 hz e
      obtain ⟨rfl, rfl⟩ := Prod.mk.inj e
      exact (h _ hz).1
    · rintro k v w ⟨k1, h1, e1⟩ ⟨k2, h2, e2⟩
      obtain ⟨i, hi, hv⟩ := List.mem_iff_getElem.1 h1
      have hi' : i < b.entries.length := by rw [← hl]; exact hi
      have hz : (a.entries[i], b.entries[i]) ∈ a.entries.zip b.entries := by
        rw [List.mem_iff_getElem]; exact ⟨i, by rw [List.length_zip]; omega, by simp⟩
      have := h _ hz
      rw [hv] at this
      have hb2 : b.entries[i] = (k2, w) := hb.eq_of_mem (List.getElem_mem hi') h2
        (cmp_eq_trans (cmp_symm this.1) (cmp_eq_trans e1 (cmp_symm e2)))
      rw [hb2] at this
      exact this.2
  · rintro ⟨⟨hl, h1⟩, h2⟩
    refine ⟨hl, ?_⟩
    rintro ⟨⟨k1, v1⟩, ⟨k2, v2⟩⟩ hz
    have e := h1 (k1, k2) k1 v1 k2 v2 hz rfl
    refine ⟨e, h2 k2 v1 v2 ⟨k1, (List.of_mem_zip hz).1, e⟩ ⟨k2, (List.of_mem_zip hz).2, cmp_self _⟩⟩

/-- **C58.** equal maps have equal hashes, if equal keys with equal values have -/
theorem C58_hash [BEq V] {H : Type _} (h : K × V → H) (hh : ∀ k v k' v', compare k k' = .eq → (v == v') = true → h (k, v) = h (k', v'))
    (a b : VecMap K V) (e : a.eq b = true) : a.hashFeed h = b.hashFeed h := by
  simp only [VecMap.eq, Bool.and_eq_true, beq_iff_eq, List.all_eq_true] at e
  obtain ⟨hl, hz⟩ := e
  unfold hashFeed
  rw [hl]
  congr 1
  revert hl hz
  generalize a.entries = l; generalize b.entries = m
  intro hl hz
  induction l generalizing m with
  | nil => cases m with
    | nil => rfl
    | cons y m => simp at hl
  | cons x l ih =>
    cases m with
    | nil => simp at hl
    | cons y m =>
      simp only [List.zip_cons_cons, List.mem_cons, forall_eq_or_imp, List.length_cons,
        Nat.add_right_cancel_iff] at hz hl
      rw [List.map_cons, List.map_cons, hh x.1 x.2 y.1 y.2 hz.1.1 hz.1.2, ih m hl hz.2]

/-- two equal maps built in different ways -/
example : (((empty : VecMap Nat Char).insert 2 'b').1.insert 1 'a').1.eq ((((empty : VecMap Nat Char).insert 1 'x').1.insert 2 'b').1.insert 1 'a').1 = true := by
  decide +kernel

/-- **C58.** the order on maps is a total order whose ties are the equal maps -/
theorem C58_cmp_total_order [Ord V] [TransOrd V] : (∀ a : VecMap K V, a.cmp a = .eq) ∧
    (∀ a b : VecMap K V, a.cmp b = (b.cmp a).swap) ∧
    (∀ a b c : VecMap K V, a.cmp b ≠ .gt → b.cmp c ≠ .gt → a.cmp c ≠ .gt) ∧
    (∀ a b : VecMap K V, a.cmp b = .eq ↔ a.asSlice.length = b.asSlice.length ∧
      ∀ p ∈ a.asSlice.zip b.asSlice, compare p.1.1 p.2.1 = .eq ∧ compare p.1.2 p.2.2 = .eq) := by
  letI : Ord (K × V) := lexOrd
  haveI : TransOrd (K × V) := by
    show TransCmp (compareLex (compareOn (·.1)) (compareOn (·.2)) : K × V → K × V → Ordering)
    infer_instance
  refine ⟨?_, fun a b => lexCompare_swap _ _, fun a b c => lexCompare_trans_ne_gt, ?_⟩
  · intro a
    have := lexCompare_swap a.entries a.entries
    unfold VecMap.cmp
    show VecSet.lexCompare a.entries a.entries = .eq
    cases h : VecSet.lexCompare a.entries a.entries <;> rw [h] at this <;> simp at this ⊢
  · intro a b
    show VecSet.lexCompare a.entries b.entries = .eq ↔ _
    rw [lexCompare_eq_iff]
    have : ∀ p : (K × V) × (K × V), compare p.1 p.2 = .eq ↔ compare p.1.1 p.2.1 = .eq ∧ compare p.1.2 p.2.2 = .eq := by
      intro p
      show (compareLex (compareOn (·.1)) (compareOn (·.2)) p.1 p.2) = .eq ↔ _
      simp only [compareLex, compareOn, Ordering.then_eq_eq]
    simp only [this, asSlice]

end Verif
