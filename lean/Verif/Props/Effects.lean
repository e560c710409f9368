import Verif.Lemmas.Effects
import Verif.Lemmas.TotalMap
/-!
# C80: how often, in which order and on what the closures are called

For closures with side effects: the joins of `VecMap`, `combine_with`, `map_values`, and `combine_ref` and `map_values` of
`TotalVecMap`.
-/
namespace Verif
open Std
variable {K V W R S : Type} [Ord K] [TransOrd K]

/-- **C80 (outer join).** The closure is called exactly once per key of either map, by ascending key, each time with what the two maps
hold for the key, until it panics; result, closure state and panic are those of this sequence of calls. -/
theorem C80_outer_join (a : VecMap K V) (b : VecMap K W) (ha : BuiltMap a) (hb : BuiltMap b)
    (f : Closure S (OuterJoinArg K V W) (Option R)) (c : S) :
    ∃ args, InOrder OuterJoinArg.key (Offers a.asSlice b.asSlice) args ∧
      a.outerJoinE b f c = (⟨(callEach f args c).1.map fun p => (p.1.key, p.2)⟩, (callEach f args c).2) := by
  refine ⟨_, inOrder_outer ha.ascending hb.ascending, ?_⟩
  simp only [VecMap.outerJoinE, SliceMS.mergeE_spec (outerJoinOpE_impl f) (fun _ _ => rfl) _ _ ha.ascending hb.ascending]
  rfl

/-- **C80 (left join).** Once per entry of the left map, by ascending key. -/
theorem C80_left_join (a : VecMap K V) (b : VecMap K W) (ha : BuiltMap a) (hb : BuiltMap b)
    (f : Closure S (K × V × Option W) (Option R)) (c : S) :
    ∃ args, InOrder (fun x => x.1) (LeftOffer a.asSlice b.asSlice) args ∧
      a.leftJoinE b f c = (⟨(callEach f args c).1.map fun p => (p.1.1, p.2)⟩, (callEach f args c).2) := by
  refine ⟨_, inOrder_left ha.ascending hb.ascending, ?_⟩
  have e := callEach_skipping leftSel f OuterJoinArg.key (fun x => x.1) leftSel_key (joinArgs a.asSlice b.asSlice) c
  simp only [VecMap.leftJoinE, SliceMS.mergeE_spec (leftJoinOpE_impl f) (fun _ _ => rfl) _ _ ha.ascending hb.ascending]
  exact Prod.ext (congrArg VecMap.mk e.1) e.2

/-- **C80 (right join).** Once per entry of the right map, by ascending key. -/
theorem C80_right_join (a : VecMap K V) (b : VecMap K W) (ha : BuiltMap a) (hb : BuiltMap b)
    (f : Closure S (K × Option V × W) (Option R)) (c : S) :
    ∃ args, InOrder (fun x => x.1) (RightOffer a.asSlice b.asSlice) args ∧
      a.rightJoinE b f c = (⟨(callEach f args c).1.map fun p => (p.1.1, p.2)⟩, (callEach f args c).2) := by
  refine ⟨_, inOrder_right ha.ascending hb.ascending, ?_⟩
  have e := callEach_skipping rightSel f OuterJoinArg.key (fun x => x.1) rightSel_key (joinArgs a.asSlice b.asSlice) c
  simp only [VecMap.rightJoinE, SliceMS.mergeE_spec (rightJoinOpE_impl f) (fun _ _ => rfl) _ _ ha.ascending hb.ascending]
  exact Prod.ext (congrArg VecMap.mk e.1) e.2

/-- **C80 (inner join).** Once per key of both maps, by ascending key. -/
theorem C80_inner_join (a : VecMap K V) (b : VecMap K W) (ha : BuiltMap a) (hb : BuiltMap b)
    (f : Closure S (K × V × W) (Option R)) (c : S) :
    ∃ args, InOrder (fun x => x.1) (InnerOffer a.asSlice b.asSlice) args ∧
      a.innerJoinE b f c = (⟨(callEach f args c).1.map fun p => (p.1.1, p.2)⟩, (callEach f args c).2) := by
  refine ⟨_, inOrder_inner ha.ascending hb.ascending, ?_⟩
  have e := callEach_skipping innerSel f OuterJoinArg.key (fun x => x.1) innerSel_key (joinArgs a.asSlice b.asSlice) c
  simp only [VecMap.innerJoinE, SliceMS.mergeE_spec (innerJoinOpE_impl f) (fun _ _ => rfl) _ _ ha.ascending hb.ascending]
  exact Prod.ext (congrArg VecMap.mk e.1) e.2

/-- **C80 (in place, outer join).** The in-place joins call the closure on the same arguments in the same order. The map they leave in
`self`, also when the closure panics, consists of the answers that were given. -/
theorem C80_outer_join_with (a : VecMap K V) (b : VecMap K W) (ha : BuiltMap a) (hb : BuiltMap b)
    (f : Closure S (OuterJoinArg K V W) (Option V)) (c : S) :
    ∃ args, InOrder OuterJoinArg.key (Offers a.asSlice b.asSlice) args ∧
      a.outerJoinWithE b f c = (⟨(callEach f args c).1.map fun p => (p.1.key, p.2)⟩, (callEach f args c).2) := by
  refine ⟨_, inOrder_outer ha.ascending hb.ascending, ?_⟩
  simp only [VecMap.outerJoinWithE, InPlaceMS.mergeE_spec (outerJoinWithOpE_impl f) (fun _ _ => rfl) _ _ ha.ascending hb.ascending]
  rfl

/-- **C80 (in place, left join).** -/
theorem C80_left_join_with (a : VecMap K V) (b : VecMap K W) (ha : BuiltMap a) (hb : BuiltMap b)
    (f : Closure S (K × V × Option W) (Option V)) (c : S) :
    ∃ args, InOrder (fun x => x.1) (LeftOffer a.asSlice b.asSlice) args ∧
      a.leftJoinWithE b f c = (⟨(callEach f args c).1.map fun p => (p.1.1, p.2)⟩, (callEach f args c).2) := by
  refine ⟨_, inOrder_left ha.ascending hb.ascending, ?_⟩
  have e := callEach_skipping leftSel f OuterJoinArg.key (fun x => x.1) leftSel_key (joinArgs a.asSlice b.asSlice) c
  simp only [VecMap.leftJoinWithE, InPlaceMS.mergeE_spec (leftJoinWithOpE_impl f) (fun _ _ => rfl) _ _ ha.ascending hb.ascending]
  exact Prod.ext (congrArg VecMap.mk e.1) e.2

/-- **C80 (in place, right join).** -/
theorem C80_right_join_with (a : VecMap K V) (b : VecMap K W) (ha : BuiltMap a) (hb : BuiltMap b)
    (f : Closure S (K × Option V × W) (Option V)) (c : S) :
    ∃ args, InOrder (fun x => x.1) (RightOffer a.asSlice b.asSlice) args ∧
      a.rightJoinWithE b f c = (⟨(callEach f args c).1.map fun p => (p.1.1, p.2)⟩, (callEach f args c).2) := by
  refine ⟨_, inOrder_right ha.ascending hb.ascending, ?_⟩
  have e := callEach_skipping rightSel f OuterJoinArg.key (fun x => x.1) rightSel_key (joinArgs a.asSlice b.asSlice) c
  simp only [VecMap.rightJoinWithE, InPlaceMS.mergeE_spec (rightJoinWithOpE_impl f) (fun _ _ => rfl) _ _ ha.ascending hb.ascending]
  exact Prod.ext (congrArg VecMap.mk e.1) e.2

/-- **C80 (in place, inner join).** -/
theorem C80_inner_join_with (a : VecMap K V) (b : VecMap K W) (ha : BuiltMap a) (hb : BuiltMap b)
    (f : Closure S (K × V × W) (Option V)) (c : S) :
    ∃ args, InOrder (fun x => x.1) (InnerOffer a.asSlice b.asSlice) args ∧
      a.innerJoinWithE b f c = (⟨(callEach f args c).1.map fun p => (p.1.1, p.2)⟩, (callEach f args c).2) := by
  refine ⟨_, inOrder_inner ha.ascending hb.ascending, ?_⟩
  have e := callEach_skipping innerSel f OuterJoinArg.key (fun x => x.1) innerSel_key (joinArgs a.asSlice b.asSlice) c
  simp only [VecMap.innerJoinWithE, InPlaceMS.mergeE_spec (innerJoinWithOpE_impl f) (fun _ _ => rfl) _ _ ha.ascending hb.ascending]
  exact Prod.ext (congrArg VecMap.mk e.1) e.2

/-- the argument list is determined by what is on offer, so "there is a list" above means "this list" -/
theorem C80_order_unique {X : Type} (key : X → K) (offer : X → Prop) (l l' : List X) (h : InOrder key offer l) (h' : InOrder key offer l') :
    l = l' := h.unique h'

/-- **C80 (combine_with, map_values).** `combine_with` calls the user's closure on the collisions only, by ascending key; the other
entries are taken over. `map_values` calls it once on every value, by ascending key. -/
theorem C80_combine_map_values (a b : VecMap K V) (ha : BuiltMap a) (hb : BuiltMap b) (f : Closure S (V × V) V) (g : Closure S V R) (c : S) :
    (∃ args, InOrder (fun x => x.1) (InnerOffer a.asSlice b.asSlice) args ∧
      (a.combineWithE b f c).2 = (callEach (answering fun x : K × V × V => f (x.2.1, x.2.2)) args c).2) ∧
    (∃ args, InOrder OuterJoinArg.key (Offers a.asSlice b.asSlice) args ∧
      (a.combineWithE b f c).1 = ⟨(callEach (answering (collisionsOnly f)) args c).1.map fun p => (p.1.key, p.2)⟩) ∧
    a.mapValuesE g c = (⟨(callEach (answering fun e : K × V => g e.2) a.asSlice c).1.map fun p => (p.1.1, p.2)⟩,
      (callEach (answering fun e : K × V => g e.2) a.asSlice c).2) := by
  refine ⟨⟨_, inOrder_inner ha.ascending hb.ascending, ?_⟩, ⟨_, inOrder_outer ha.ascending hb.ascending, ?_⟩, ?_⟩
  · simp only [VecMap.combineWithE, VecMap.outerJoinWithE,
      InPlaceMS.mergeE_spec (outerJoinWithOpE_impl _) (fun _ _ => rfl) _ _ ha.ascending hb.ascending]
    refine callEach_sel_state innerSel _ _ ?_ ?_ _ _
    · intro x hx c
      cases x with
      | left k v => exact ⟨_, rfl⟩
      | right k v => exact ⟨_, rfl⟩
      | both k v w => simp [innerSel] at hx
    · intro x y hx c
      cases x with
      | left k v => simp [innerSel] at hx
      | right k v => simp [innerSel] at hx
      | both k v w =>
        simp only [innerSel, Option.some.injEq] at hx
        subst hx
        simp only [VecMap.combineArgE, answering]
        obtain ⟨o, c1, hc⟩ : ∃ o c1, f (v, w) c = (o, c1) := ⟨_, _, rfl⟩
        cases o <;> simp [hc, VecMap.someOf]
  · simp only [VecMap.combineWithE, VecMap.outerJoinWithE,
      InPlaceMS.mergeE_spec (outerJoinWithOpE_impl _) (fun _ _ => rfl) _ _ ha.ascending hb.ascending]
    have e : (VecMap.combineArgE f : Closure S (OuterJoinArg K V V) (Option V)) = answering (collisionsOnly f) := by
      funext x c
      cases x <;> simp only [VecMap.combineArgE, answering, collisionsOnly]
      rename_i k v w
      obtain ⟨o, c1, hc⟩ : ∃ o c1, f (v, w) c = (o, c1) := ⟨_, _, rfl⟩
      cases o <;> simp [hc, VecMap.someOf]
    rw [e]
    rfl
  · simp only [VecMap.mapValuesE, mapEntriesE_eq]
    rfl

/-- **C80 (total maps).** `combine_ref` calls the closure first on the two defaults and then once per key at which either map stores a
value, by ascending key, with the two maps' values there; the entries that come out different from the new default are kept. -/
theorem C80_total_combine_ref [BEq V] (a b : TotalVecMap K V) (ha : BuiltTotalMap a) (hb : BuiltTotalMap b) (f : Closure S (V × V) V) (c : S) :
    ∃ args, InOrder OuterJoinArg.key (Offers a.nonDefaultMappings.asSlice b.nonDefaultMappings.asSlice) args ∧
      (∀ c1, f (a.default, b.default) c = (.panic, c1) → a.combineRefE b f c = (.panic, c1)) ∧
      ∀ rd c1, f (a.default, b.default) c = (.ret rd, c1) →
        ∀ rs c2 fl, callEach (answering fun x : OuterJoinArg K V V => f (x.pair a.default b.default)) args c1 = (rs, c2, fl) →
          a.combineRefE b f c = (if fl = .panic then .panic
            else .ret ⟨⟨(rs.filter fun p => p.2 != rd).map fun p => (p.1.key, p.2)⟩, rd⟩, c2) := by
  refine ⟨_, inOrder_outer ha.inv.1 hb.inv.1, ?_, ?_⟩
  · intro c1 h; simp only [TotalVecMap.combineRefE, h]
  · intro rd c1 h rs c2 fl hr
    have e : (TotalVecMap.combineArgE a.default b.default rd f : Closure S (OuterJoinArg K V V) (Option V)) =
        fun x c => TotalVecMap.unlessDefault rd (f (x.pair a.default b.default) c) := by
      funext x c; cases x <;> rfl
    have hfl := callEach_flow (answering fun x : OuterJoinArg K V V => f (x.pair a.default b.default))
      (joinArgs a.nonDefaultMappings.asSlice b.nonDefaultMappings.asSlice) c1
    rw [hr] at hfl
    have hj : a.map.outerJoinE b.map (TotalVecMap.combineArgE a.default b.default rd f) c1 =
        (⟨(rs.filter fun p => p.2 != rd).map fun p => (p.1.key, p.2)⟩, c2, fl) := by
      simp only [VecMap.outerJoinE, SliceMS.mergeE_spec (outerJoinOpE_impl _) (fun _ _ => rfl) _ _ ha.inv.1 hb.inv.1]
      rw [e, callEach_unless]
      erw [hr]
    simp only [TotalVecMap.combineRefE, h, hj]
    rcases hfl with rfl | rfl <;> rfl

/-- **C80 (total maps).** `map_values` calls the closure first on the default and then once per stored value, by ascending key. -/
theorem C80_total_map_values [BEq V] [BEq W] (m : TotalVecMap K V) (f : Closure S V W) (c : S) :
    (∀ c1, f m.default c = (.panic, c1) → m.mapValuesE f c = (.panic, c1)) ∧
    ∀ d c1, f m.default c = (.ret d, c1) →
      ∀ rs c2 fl, callEach (answering fun e : K × V => f e.2) m.nonDefaultMappings.asSlice c1 = (rs, c2, fl) →
        m.mapValuesE f c = (if fl = .panic then .panic
          else .ret ⟨⟨(rs.filter fun p => p.2 != d).map fun p => (p.1.1, p.2)⟩, d⟩, c2) := by
  refine ⟨?_, ?_⟩
  · intro c1 h; simp only [TotalVecMap.mapValuesE, h]
  · intro d c1 h rs c2 fl hr
    have hfl := callEach_flow (answering fun e : K × V => f e.2) m.nonDefaultMappings.asSlice c1
    rw [hr] at hfl
    have hj : TotalVecMap.mapEntriesE f d m.map.entries c1 = ((rs.filter fun p => p.2 != d).map fun p => (p.1.1, p.2), c2, fl) := by
      rw [totalMapEntriesE_eq, callEach_unless d (fun e : K × V => f e.2)]
      erw [hr]
    simp only [TotalVecMap.mapValuesE, h, hj]
    rcases hfl with rfl | rfl <;> rfl

/-- **C80 (any driver).** Whatever legal schedule of callbacks the merge crate chooses, the closure sees the same calls in the same
order, and the outcome is the same. -/
theorem C80_any_schedule (a : List (K × V)) (b : List (K × W)) (ha : AscendingBy Prod.fst a) (hb : AscendingBy Prod.fst b)
    (f : Closure S (OuterJoinArg K V W) (Option R)) (g : Closure S (K × V × W) (Option V)) (c : S) :
    (∃ args, InOrder OuterJoinArg.key (Offers a b) args ∧ ∀ evs, Legal (fun x y => compare x.1 y.1) a b evs →
      ∀ s c' fl, runEvs (outerJoinOpE f) ({ a := a, b := b, r := [] }, c) evs = ((s, c'), fl) →
        (s.r, c', fl) = ((callEach f args c).1.map (fun p => (p.1.key, p.2)), (callEach f args c).2)) ∧
    ∃ args, InOrder (fun x => x.1) (InnerOffer a b) args ∧ ∀ evs, Legal (fun x y => compare x.1 y.1) a b evs →
      ∀ s c' fl, runEvs (innerJoinWithOpE g) ({ tgt := [], src := a, b := b }, c) evs = ((s, c'), fl) →
        (s.tgt, c', fl) = ((callEach g args c).1.map (fun p => (p.1.1, p.2)), (callEach g args c).2) := by
  refine ⟨⟨_, inOrder_outer ha hb, ?_⟩, ⟨_, inOrder_inner ha hb, ?_⟩⟩
  · intro evs h1 s c' fl hr
    have o := run_legal_e (outerJoinOpE_impl f) (fun _ _ => rfl) h1 ({ a := a, b := b, r := [] }, c) [] [] (List.append_nil a).symm (List.append_nil b).symm
    rw [hr] at o
    exact Prod.ext (o.out.trans (List.nil_append _)) (Prod.ext o.st o.flow)
  · intro evs h1 s c' fl hr
    have i := run_legal_e (innerJoinWithOpE_impl g) (fun _ _ => rfl) h1 ({ tgt := [], src := a, b := b }, c) [] [] (List.append_nil a).symm (List.append_nil b).symm
    rw [hr] at i
    have e := callEach_skipping innerSel g OuterJoinArg.key (fun x => x.1) innerSel_key (joinArgs a b) c
    exact Prod.ext ((i.out.trans (List.nil_append _)).trans e.1) ((Prod.ext i.st i.flow : (c', fl) = _).trans e.2)

/-- **C80 (closures without side effects).** For a closure without state these operations are those of `Verif/Model/VecMap.lean`, for any
two maps whatsoever, so everything proved there holds of both. -/
theorem C80_pure_closures (a : VecMap K V) (b : VecMap K W) (c : S) :
    (∀ f : OuterJoinArg K V W → Call (Option R), a.outerJoinE b (fun x s => (f x, s)) c = ((a.outerJoin b f).1, c, (a.outerJoin b f).2)) ∧
    (∀ f : K → V → Option W → Call (Option R),
      a.leftJoinE b (fun x s => (f x.1 x.2.1 x.2.2, s)) c = ((a.leftJoin b f).1, c, (a.leftJoin b f).2)) ∧
    (∀ f : K → Option V → W → Call (Option R),
      a.rightJoinE b (fun x s => (f x.1 x.2.1 x.2.2, s)) c = ((a.rightJoin b f).1, c, (a.rightJoin b f).2)) ∧
    (∀ f : K → V → W → Call (Option R),
      a.innerJoinE b (fun x s => (f x.1 x.2.1 x.2.2, s)) c = ((a.innerJoin b f).1, c, (a.innerJoin b f).2)) ∧
    (∀ f : OuterJoinArg K V W → Call (Option V),
      a.outerJoinWithE b (fun x s => (f x, s)) c = ((a.outerJoinWith b f).1, c, (a.outerJoinWith b f).2)) ∧
    (∀ f : K → V → Option W → Call (Option V),
      a.leftJoinWithE b (fun x s => (f x.1 x.2.1 x.2.2, s)) c = ((a.leftJoinWith b f).1, c, (a.leftJoinWith b f).2)) ∧
    (∀ f : K → Option V → W → Call (Option V),
      a.rightJoinWithE b (fun x s => (f x.1 x.2.1 x.2.2, s)) c = ((a.rightJoinWith b f).1, c, (a.rightJoinWith b f).2)) ∧
    (∀ f : K → V → W → Call (Option V),
      a.innerJoinWithE b (fun x s => (f x.1 x.2.1 x.2.2, s)) c = ((a.innerJoinWith b f).1, c, (a.innerJoinWith b f).2)) := by
  refine ⟨fun f => ?_, fun f => ?_, fun f => ?_, fun f => ?_, fun f => ?_, fun f => ?_, fun f => ?_, fun f => ?_⟩
  · simp only [VecMap.outerJoinE, SliceMS.mergeE_pure (outerJoinOpE_pure f)]; rfl
  · simp only [VecMap.leftJoinE, SliceMS.mergeE_pure (leftJoinOpE_pure f)]; rfl
  · simp only [VecMap.rightJoinE, SliceMS.mergeE_pure (rightJoinOpE_pure f)]; rfl
  · simp only [VecMap.innerJoinE, SliceMS.mergeE_pure (innerJoinOpE_pure f)]; rfl
  · simp only [VecMap.outerJoinWithE, InPlaceMS.mergeE_pure (outerJoinWithOpE_pure f)]; rfl
  · simp only [VecMap.leftJoinWithE, InPlaceMS.mergeE_pure (leftJoinWithOpE_pure f)]; rfl
  · simp only [VecMap.rightJoinWithE, InPlaceMS.mergeE_pure (rightJoinWithOpE_pure f)]; rfl
  · simp only [VecMap.innerJoinWithE, InPlaceMS.mergeE_pure (innerJoinWithOpE_pure f)]; rfl

/-- **C80 (what is left is a map).** Whatever the closure does, also when it panics, the answers collected from calls in ascending key
order form a map: the keys are strictly ascending. So every map returned or left behind above is a valid one. -/
theorem C80_results_ascending {X : Type} (key : X → K) (offer : X → Prop) (args : List X) (h : InOrder key offer args)
    (f : Closure S X (Option R)) (c : S) : BuiltMap (⟨(callEach f args c).1.map fun p => (key p.1, p.2)⟩ : VecMap K R) := by
  refine BuiltMap.fromBTreeMap _ ?_
  have := callEach_sublist f args c
  have h1 := h.1.sublist this
  unfold AscendingBy at *
  rw [List.pairwise_map] at h1 ⊢
  exact h1

/-- a closure that numbers its calls, keeps the values it sees in a log and panics on the third call -/
def tired : Closure (List (Nat × Nat)) (OuterJoinArg Nat Nat Nat) (Option Nat) := fun x log =>
  let seen := log ++ [(log.length, x.key)]
  if log.length = 2 then (.panic, seen) else (.ret (some log.length), seen)

/-- the in-place outer join calls it on the keys 1, 2, 3 in this order; the third call panics; keys 1 and 2 are left in the map, the
key 5 is lost. -/
example : (⟨[(1, 10), (3, 30), (5, 50)]⟩ : VecMap Nat Nat).outerJoinWithE ⟨[(2, 20), (3, 31)]⟩ tired [] =
    (⟨[(1, 0), (2, 1)]⟩, [(0, 1), (1, 2), (2, 3)], .panic) :=
  Prod.ext (congrArg VecMap.mk (by decide +kernel)) (by decide +kernel)

/-- `combine_ref` on total maps numbers the defaults first -/
example : ∃ r, (⟨⟨[(1, 10), (3, 30)]⟩, 0⟩ : TotalVecMap Nat Nat).combineRefE ⟨⟨[(2, 20)]⟩, 7⟩ (fun p n => (.ret (p.1 * 100 + p.2 + n), n + 1)) 0 =
    (.ret r, 4) ∧ r.map.entries = [(1, 1008), (2, 22), (3, 3010)] ∧ r.default = 7 := by
  refine ⟨⟨⟨[(1, 1008), (2, 22), (3, 3010)]⟩, 7⟩, ?_, rfl, rfl⟩
  have h : SliceMS.mergeE [(1, 10), (3, 30)] [(2, 20)] (outerJoinOpE (TotalVecMap.combineArgE (K := Nat) 0 7 7
      (fun (p : Nat × Nat) n => (Call.ret (p.1 * 100 + p.2 + n), n + 1)))) 1 = ([(1, 1008), (2, 22), (3, 3010)], 4, .cont) := by
    decide +kernel
  simp only [TotalVecMap.combineRefE, VecMap.outerJoinE, Nat.zero_mul, Nat.zero_add, Nat.add_zero, h]

end Verif
