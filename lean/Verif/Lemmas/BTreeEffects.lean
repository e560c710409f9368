import Verif.Model.BTreeEffects
import Verif.Spec.BTreeEffects
import Verif.Lemmas.BTreeMap
import Verif.Lemmas.Effects
/-! Lemmas about joins of `BTreeMap`s with stateful closures. -/
namespace Verif
namespace BTreeMap
open Std

section loops
variable {M X Y S : Type _}

theorem forEachE_filterMap (body : M → X → S → M × Bool × S) (sel : Y → Option X) (l : List Y) (m : M) (s : S) :
    forEachE body (l.filterMap sel) m s = forEachE (fun m e s => match sel e with
      | some x => body m x s
      | none => (m, false, s)) l m s := by
  induction l generalizing m s with
  | nil => rfl
  | cons e l ih =>
    cases he : sel e with
    | none => simp only [List.filterMap_cons, he, forEachE, ih]
    | some x =>
      simp only [List.filterMap_cons, he, forEachE]
      obtain ⟨m', p, s', hb⟩ : ∃ m' p s', body m x s = (m', p, s') := ⟨_, _, _, rfl⟩
      simp only [hb]
      cases p with
      | true => rfl
      | false => exact ih m' s'

theorem forEachE_map (body : M → X → S → M × Bool × S) (g : Y → X) (l : List Y) (m : M) (s : S) :
    forEachE body (l.map g) m s = forEachE (fun m e s => body m (g e) s) l m s := by
  induction l generalizing m s with
  | nil => rfl
  | cons e l ih =>
    simp only [List.map_cons, forEachE]
    obtain ⟨m', p, s', hb⟩ : ∃ m' p s', body m (g e) s = (m', p, s') := ⟨_, _, _, rfl⟩
    simp only [hb]
    cases p with
    | true => rfl
    | false => exact ih m' s'

theorem forEachE_congr {body body' : M → X → S → M × Bool × S} (l : List X) (h : ∀ m, ∀ x ∈ l, ∀ s, body m x s = body' m x s) (m : M) (s : S) :
    forEachE body l m s = forEachE body' l m s := by
  induction l generalizing m s with
  | nil => rfl
  | cons e l ih =>
    simp only [forEachE, h m e (by simp)]
    obtain ⟨m', p, s', hb⟩ : ∃ m' p s', body' m e s = (m', p, s') := ⟨_, _, _, rfl⟩
    simp only [hb]
    cases p with
    | true => rfl
    | false => exact ih (fun m x hx s => h m x (List.mem_cons_of_mem _ hx) s) m' s'
end loops

section byRef
variable {K V W R S X : Type _} [Ord K] [TransOrd K]

omit [TransOrd K] in
theorem insLoop (key : X → K) (f : Closure S X (Option R)) (xs : List X) (m : BTreeMap K R) (s : S) :
    forEachE (fun res x s => insertAnswer res (key x) (f x s)) xs m s =
      (insAll m ((callEach f xs s).1.map fun p => (key p.1, some p.2)), (callEach f xs s).2.2 == .panic, (callEach f xs s).2.1) := by
  induction xs generalizing m s with
  | nil => rfl
  | cons x xs ih =>
    obtain ⟨o, c, hc⟩ : ∃ o c, f x s = (o, c) := ⟨_, _, rfl⟩
    cases o with
    | panic => simp only [forEachE, callEach, hc, insertAnswer]; rfl
    | ret o =>
      cases o with
      | none =>
        rw [show forEachE (fun res x s => insertAnswer res (key x) (f x s)) (x :: xs) m s =
          forEachE (fun res x s => insertAnswer res (key x) (f x s)) xs m c by simp only [forEachE, hc]; rfl, ih]
        simp only [callEach, hc]
      | some r =>
        rw [show forEachE (fun res x s => insertAnswer res (key x) (f x s)) (x :: xs) m s =
          forEachE (fun res x s => insertAnswer res (key x) (f x s)) xs (m.insert (key x) r) c by simp only [forEachE, hc]; rfl, ih]
        simp only [callEach, hc]; rfl

theorem ext_of_mem {l m : List (K × R)} (hl : AscendingBy Prod.fst l) (hm : AscendingBy Prod.fst m) (h : ∀ e, e ∈ l ↔ e ∈ m) : l = m := by
  refine (InOrder.unique (key := Prod.fst) (offer := fun e => e ∈ m) ⟨hl, fun e => h e⟩ ⟨hm, fun e => Iff.rfl⟩)

theorem insAll_new (l : List (K × R)) (h : AscendingBy Prod.fst l) : (insAll new (l.map fun p => (p.1, some p.2))).entries = l := by
  have w := walk_spec l h (fun e => some e.2)
  refine ext_of_mem w.1 h (fun e => ?_)
  rw [show e = (e.1, e.2) from rfl, w.2]
  simp

theorem callEach_ascending (key : X → K) (f : Closure S X (Option R)) (xs : List X) (h : AscendingBy key xs) (s : S) :
    AscendingBy Prod.fst ((callEach f xs s).1.map fun p => (key p.1, p.2)) := by
  have h1 := h.sublist (callEach_sublist f xs s)
  unfold AscendingBy at *
  rw [List.pairwise_map] at h1 ⊢
  exact h1

/-- joining by walking over ascending arguments -/
theorem insLoop_new (key : X → K) (f : Closure S X (Option R)) (xs : List X) (h : AscendingBy key xs) (s : S) :
    returned (forEachE (fun res x s => insertAnswer res (key x) (f x s)) xs new s) =
      (if (callEach f xs s).2.2 = .panic then .panic else .ret ⟨(callEach f xs s).1.map fun p => (key p.1, p.2)⟩, (callEach f xs s).2.1) := by
  rw [insLoop]
  have e := insAll_new _ (callEach_ascending key f xs h s)
  simp only [List.map_map, Function.comp_def] at e
  obtain ⟨rs, c, fl, hc⟩ : ∃ rs c fl, callEach f xs s = (rs, c, fl) := ⟨_, _, _, rfl⟩
  simp only [hc] at e ⊢
  cases fl <;> simp [← e] <;> rfl

variable {a : BTreeMap K V} {b : BTreeMap K W}

theorem inOrder_b_left (ha : a.Asc) (hb : b.Asc) :
    InOrder (fun x => x.1) (LeftOffer a.entries b.entries) (a.entries.map fun e => (e.1, e.2, b.get e.1)) := by
  refine ⟨?_, fun x => ?_⟩
  · have := ha
    unfold Asc AscendingBy at *
    rwa [List.pairwise_map]
  · obtain ⟨k, v, o⟩ := x
    simp only [List.mem_map, Prod.mk.injEq, Prod.exists]
    constructor
    · rintro ⟨k', v', hm, rfl, rfl, rfl⟩
      cases hg : b.get k' with
      | none => exact ⟨hm, get_none_iff.1 hg⟩
      | some w => exact ⟨hm, (get_iff hb).1 hg⟩
    · intro h
      cases o with
      | none => exact ⟨k, v, h.1, rfl, rfl, get_none_iff.2 h.2⟩
      | some w => exact ⟨k, v, h.1, rfl, rfl, (get_iff hb).2 h.2⟩

theorem inOrder_b_right (ha : a.Asc) (hb : b.Asc) :
    InOrder (fun x => x.1) (BRightOffer a.entries b.entries) (b.entries.map fun e => (e.1, a.get e.1, e.2)) := by
  refine ⟨?_, fun x => ?_⟩
  · have := hb
    unfold Asc AscendingBy at *
    rwa [List.pairwise_map]
  · obtain ⟨k, o, w⟩ := x
    simp only [List.mem_map, Prod.mk.injEq, Prod.exists]
    constructor
    · rintro ⟨k', w', hm, rfl, rfl, rfl⟩
      cases hg : a.get k' with
      | none => exact ⟨hm, get_none_iff.1 hg⟩
      | some v => exact ⟨hm, (get_iff ha).1 hg⟩
    · intro h
      cases o with
      | none => exact ⟨k, w, h.1, rfl, get_none_iff.2 h.2, rfl⟩
      | some v => exact ⟨k, w, h.1, rfl, (get_iff ha).2 h.2, rfl⟩

theorem inOrder_b_inner (ha : a.Asc) (hb : b.Asc) :
    InOrder (fun x => x.1) (BInnerOffer a.entries b.entries) (b.entries.filterMap fun e => (a.get e.1).map fun v => (e.1, v, e.2)) := by
  refine ⟨?_, fun x => ?_⟩
  · refine ascendingBy_filterMap (ka := Prod.fst) hb ?_
    intro e _ x hx
    rw [Option.map_eq_some_iff] at hx
    obtain ⟨v, _, rfl⟩ := hx
    exact cmp_self _
  · obtain ⟨k, v, w⟩ := x
    simp only [List.mem_filterMap, Option.map_eq_some_iff, Prod.mk.injEq, Prod.exists]
    constructor
    · rintro ⟨k', w', hm, v', hg, rfl, rfl, rfl⟩
      exact ⟨hm, (get_iff ha).1 hg⟩
    · rintro ⟨hm, hg⟩
      exact ⟨k, w, hm, v, (get_iff ha).2 hg, rfl, rfl, rfl⟩

/-- the arguments of the second loop of `outer_join` -/
def outerArgB (a : BTreeMap K V) (e : K × W) : Option (OuterJoinArg K V W) :=
  if (a.get e.1).isNone then some (.right e.1 e.2) else none

omit [TransOrd K] in
theorem outerArgA_key (b : BTreeMap K W) (e : K × V) : (outerArgA b e).key = e.1 := by
  unfold outerArgA; split <;> rfl

theorem inOrder_outer_a (ha : a.Asc) (hb : b.Asc) :
    InOrder OuterJoinArg.key (fun x => Offers a.entries b.entries x ∧ x.isRight = false) (a.entries.map (outerArgA b)) := by
  refine ⟨?_, fun x => ?_⟩
  · have := ha
    unfold Asc AscendingBy at *
    rw [List.pairwise_map]
    exact this.imp (fun h => by rw [outerArgA_key, outerArgA_key]; exact h)
  · simp only [List.mem_map, Prod.exists]
    constructor
    · rintro ⟨k, v, hm, rfl⟩
      unfold outerArgA
      cases hg : b.get k with
      | none => exact ⟨⟨hm, get_none_iff.1 hg⟩, rfl⟩
      | some w => exact ⟨⟨hm, (get_iff hb).1 hg⟩, rfl⟩
    · rintro ⟨h, hr⟩
      cases x with
      | right k w => cases hr
      | left k v => exact ⟨k, v, h.1, by simp only [outerArgA, get_none_iff.2 h.2]⟩
      | both k v w => exact ⟨k, v, h.1, by simp only [outerArgA, (get_iff hb).2 h.2]⟩

theorem inOrder_outer_b (hb : b.Asc) :
    InOrder OuterJoinArg.key (fun x => Offers a.entries b.entries x ∧ x.isRight = true) (b.entries.filterMap (outerArgB a)) := by
  refine ⟨?_, fun x => ?_⟩
  · refine ascendingBy_filterMap (ka := Prod.fst) hb ?_
    intro e _ x hx
    unfold outerArgB at hx
    split at hx <;> cases hx
    exact cmp_self _
  · simp only [List.mem_filterMap, Prod.exists]
    constructor
    · rintro ⟨k, w, hm, hx⟩
      unfold outerArgB at hx
      split at hx <;> cases hx
      rename_i h
      exact ⟨⟨hm, get_none_iff.1 (Option.isNone_iff_eq_none.1 h)⟩, rfl⟩
    · rintro ⟨h, hr⟩
      cases x with
      | left k v => cases hr
      | both k v w => cases hr
      | right k w => exact ⟨k, w, h.1, by simp only [outerArgB, get_none_iff.2 h.2]; rfl⟩
end byRef

/-! ### in place -/
section inPlace
variable {K V W S X Y : Type _} [Ord K] [TransOrd K]

omit [Ord K] [TransOrd K] in
theorem fillEach_append (g : X → S → Option V × Bool × S) (xs ys : List X) (s : S) : fillEach g (xs ++ ys) s =
    (if (fillEach g xs s).2.2 then fillEach g xs s
     else ((fillEach g xs s).1 ++ (fillEach g ys (fillEach g xs s).2.1).1, (fillEach g ys (fillEach g xs s).2.1).2)) := by
  induction xs generalizing s with
  | nil => simp [fillEach]
  | cons x xs ih =>
    obtain ⟨o, p, c, hc⟩ : ∃ o p c, g x s = (o, p, c) := ⟨_, _, _, rfl⟩
    cases p with
    | true => simp [fillEach, hc]
    | false =>
      simp only [List.cons_append, fillEach, hc, ih]
      split <;> simp

omit [Ord K] [TransOrd K] in
/-- the log is about an initial segment of the arguments, all of them if nothing panicked -/
theorem fillEach_prefix (g : X → S → Option V × Bool × S) (xs : List X) (s : S) :
    ((fillEach g xs s).1.map (·.1)) = xs.take (fillEach g xs s).1.length ∧
      ((fillEach g xs s).2.2 = false → (fillEach g xs s).1.length = xs.length) := by
  induction xs generalizing s with
  | nil => exact ⟨rfl, fun _ => rfl⟩
  | cons x xs ih =>
    obtain ⟨o, p, c, hc⟩ : ∃ o p c, g x s = (o, p, c) := ⟨_, _, _, rfl⟩
    cases p with
    | true => simp [fillEach, hc]
    | false =>
      have := ih c
      simp only [fillEach, hc, List.map_cons, List.length_cons, List.take_succ_cons, this.1, true_and]
      exact fun h => by rw [this.2 h]

omit [Ord K] [TransOrd K] in
/-- arguments that do not reach the closure -/
theorem fillEach_skip (sel : X → Option Y) (f : Y → S → Option V × Bool × S) (q : X → Option V) (g : X → S → Option V × Bool × S)
    (hg : ∀ x y s, sel x = some y → g x s = f y s) (hg' : ∀ x s, sel x = none → g x s = (q x, false, s)) (xs : List X) (s : S) :
    (fillEach g xs s).2 = (fillEach f (xs.filterMap sel) s).2 ∧
    (fillEach f (xs.filterMap sel) s).1 = (fillEach g xs s).1.filterMap (fun p => (sel p.1).map fun y => (y, p.2)) ∧
    ∀ x o, (x, o) ∈ (fillEach g xs s).1 → sel x = none → o = q x := by
  induction xs generalizing s with
  | nil => simp [fillEach]
  | cons x xs ih =>
    cases hs : sel x with
    | none =>
      have := ih s
      simp only [List.filterMap_cons, hs, fillEach, hg' x s hs, List.mem_cons, Prod.mk.injEq]
      refine ⟨this.1, this.2.1, ?_⟩
      rintro x' o (⟨rfl, rfl⟩ | h) hn
      · rfl
      · exact this.2.2 x' o h hn
    | some y =>
      obtain ⟨o, p, c, hc⟩ : ∃ o p c, f y s = (o, p, c) := ⟨_, _, _, rfl⟩
      have := ih c
      cases p with
      | true =>
        simp only [List.filterMap_cons, hs, fillEach, hg x y s hs, hc, List.mem_cons, Prod.mk.injEq]
        refine ⟨trivial, by simp, ?_⟩
        rintro x' o' (⟨rfl, rfl⟩ | h) hn
        · rw [hs] at hn; cases hn
        · cases h
      | false =>
        simp only [List.filterMap_cons, hs, fillEach, hg x y s hs, hc, List.mem_cons, Prod.mk.injEq]
        refine ⟨this.1, by simp [this.2.1], ?_⟩
        rintro x' o' (⟨rfl, rfl⟩ | h) hn
        · rw [hs] at hn; cases hn
        · exact this.2.2 x' o' h hn

/-- what `retain` leaves: the settled values, then what was not visited -/
theorem retainListE_spec (f : K → V → S → V × Call Bool × S) (l : List (K × V)) (s : S) :
    (retainListE f l s).2 = ((fillEach (fun (e : K × V) s => keptSlot (f e.1 e.2 s)) l s).2.2, (fillEach (fun (e : K × V) s => keptSlot (f e.1 e.2 s)) l s).2.1) ∧
    (retainListE f l s).1 = (fillEach (fun (e : K × V) s => keptSlot (f e.1 e.2 s)) l s).1.filterMap (fun p => p.2.map fun v => (p.1.1, v)) ++
      l.drop (fillEach (fun (e : K × V) s => keptSlot (f e.1 e.2 s)) l s).1.length := by
  induction l generalizing s with
  | nil => exact ⟨rfl, rfl⟩
  | cons e l ih =>
    obtain ⟨v, o, c, hc⟩ : ∃ v o c, f e.1 e.2 s = (v, o, c) := ⟨_, _, _, rfl⟩
    rcases o with r | _
    · have := ih c
      cases r with
      | true => simp [retainListE, hc, fillEach, keptSlot, this.1, this.2]
      | false => simp [retainListE, hc, fillEach, keptSlot, this.1, this.2]
    · simp [retainListE, hc, fillEach, keptSlot]

theorem retainE_spec {m : BTreeMap K V} (hm : m.Asc) (f : K → V → S → V × Call Bool × S) (s : S) :
    (m.retainE f s).2 = ((fillEach (fun (e : K × V) s => keptSlot (f e.1 e.2 s)) m.entries s).2.2, (fillEach (fun (e : K × V) s => keptSlot (f e.1 e.2 s)) m.entries s).2.1) ∧
    (m.retainE f s).1.Asc ∧
    (∀ k o, Settled Prod.fst (fillEach (fun (e : K × V) s => keptSlot (f e.1 e.2 s)) m.entries s).1 k o → (m.retainE f s).1.get k = o) ∧
    (∀ k, (∀ o, ¬ Settled Prod.fst (fillEach (fun (e : K × V) s => keptSlot (f e.1 e.2 s)) m.entries s).1 k o) → (m.retainE f s).1.get k = m.get k) ∧
    (∀ k v, (k, v) ∈ (m.retainE f s).1.entries → ∃ v0, (k, v0) ∈ m.entries) := by
  have h := retainListE_spec f m.entries s
  have hp := fillEach_prefix (fun (e : K × V) s => keptSlot (f e.1 e.2 s)) m.entries s
  obtain ⟨log, c, p, hl⟩ : ∃ log c p, fillEach (fun (e : K × V) s => keptSlot (f e.1 e.2 s)) m.entries s = (log, c, p) := ⟨_, _, _, rfl⟩
  rw [hl] at h hp
  simp only [hl]
  have hr : m.retainE f s = (⟨log.filterMap (fun p => p.2.map fun v => (p.1.1, v)) ++ m.entries.drop log.length⟩, p, c) := by
    unfold retainE
    obtain ⟨l', p', c', hl'⟩ : ∃ l' p' c', retainListE f m.entries s = (l', p', c') := ⟨_, _, _, rfl⟩
    rw [hl'] at h
    simp only [hl']
    obtain ⟨h1, h2⟩ := h
    cases h1
    simp only at h2
    rw [h2]
  rw [hr]
  simp only at hp
  have hm' : AscendingBy Prod.fst (log.map (·.1) ++ m.entries.drop log.length) := by
    rw [hp.1, List.take_append_drop]; exact hm
  have hsub : log.map (·.1) ++ m.entries.drop log.length = m.entries := by rw [hp.1, List.take_append_drop]
  have hlog : AscendingBy (fun q : (K × V) × Option V => q.1.1) log := by
    have := hm'.sublist (List.sublist_append_left _ _)
    unfold AscendingBy at this ⊢
    rwa [List.pairwise_map] at this
  have hasc : (⟨log.filterMap (fun p => p.2.map fun v => (p.1.1, v)) ++ m.entries.drop log.length⟩ : BTreeMap K V).Asc := by
    have hm2 := hm'
    unfold Asc AscendingBy at hm2 ⊢
    rw [List.pairwise_append] at hm2 ⊢
    refine ⟨?_, hm2.2.1, ?_⟩
    · refine ascendingBy_filterMap (ka := fun q : (K × V) × Option V => q.1.1) hlog ?_
      intro q _ r hr
      rw [Option.map_eq_some_iff] at hr
      obtain ⟨v, _, rfl⟩ := hr
      exact cmp_self _
    · intro x hx y hy
      rw [List.mem_filterMap] at hx
      obtain ⟨q, hq, hr⟩ := hx
      rw [Option.map_eq_some_iff] at hr
      obtain ⟨v, _, rfl⟩ := hr
      exact hm2.2.2 q.1 (List.mem_map_of_mem hq) y hy
  refine ⟨rfl, hasc, ?_, ?_, ?_⟩
  · rintro k o ⟨x, hx, hc⟩
    have hx0 : x ∈ m.entries := by rw [← hsub]; exact List.mem_append_left _ (List.mem_map.2 ⟨_, hx, rfl⟩)
    cases o with
    | some v =>
      rw [get_iff hasc]
      exact ⟨x.1, List.mem_append_left _ (List.mem_filterMap.2 ⟨(x, some v), hx, rfl⟩), hc⟩
    | none =>
      rw [get_none_iff]
      rintro ⟨v, k', hk', hc'⟩
      rcases List.mem_append.1 hk' with h1 | h1
      · obtain ⟨q, hq, hr⟩ := List.mem_filterMap.1 h1
        rw [Option.map_eq_some_iff] at hr
        obtain ⟨v', hv', he⟩ := hr
        cases he
        have : q = (x, none) := AscendingBy.eq_of_mem hlog hq hx (cmp_eq_trans hc' (cmp_symm hc))
        rw [this] at hv'; cases hv'
      · have h2 := (List.pairwise_append.1 hm').2.2 x (List.mem_map.2 ⟨_, hx, rfl⟩) _ h1
        rw [cmp_eq_trans hc (cmp_symm hc')] at h2
        cases h2
  · intro k hk
    apply Option.ext
    intro v
    rw [get_iff hasc, get_iff hm]
    constructor
    · rintro ⟨k', hk', hc'⟩
      rcases List.mem_append.1 hk' with h1 | h1
      · obtain ⟨q, hq, hr⟩ := List.mem_filterMap.1 h1
        rw [Option.map_eq_some_iff] at hr
        obtain ⟨v', hv', he⟩ := hr
        cases he
        exact absurd ⟨q.1, hq, hc'⟩ (hk q.2)
      · exact ⟨k', List.mem_of_mem_drop h1, hc'⟩
    · rintro ⟨k', hk', hc'⟩
      rw [← hsub] at hk'
      rcases List.mem_append.1 hk' with h1 | h1
      · obtain ⟨q, hq, he⟩ := List.mem_map.1 h1
        exact absurd ⟨q.1, hq, by rw [he]; exact hc'⟩ (hk q.2)
      · exact ⟨k', List.mem_append_right _ h1, hc'⟩
  · intro k v hkv
    rcases List.mem_append.1 hkv with h1 | h1
    · obtain ⟨q, hq, hr⟩ := List.mem_filterMap.1 h1
      rw [Option.map_eq_some_iff] at hr
      obtain ⟨v', hv', he⟩ := hr
      cases he
      exact ⟨q.1.2, by rw [← hsub]; exact List.mem_append_left _ (List.mem_map.2 ⟨q, hq, rfl⟩)⟩
    · exact ⟨v, List.mem_of_mem_drop h1⟩

/-- A walk over `b` whose steps each settle the visited key. -/
theorem forEach_fill (step : BTreeMap K V → K × W → S → BTreeMap K V × Bool × S) (arg : Option V → K × W → X)
    (key : X → K) (hkey : ∀ o e, key (arg o e) = e.1) (g : X → S → Option V × Bool × S)
    (hstep : ∀ m e s, m.Asc → (step m e s).2 = (g (arg (m.get e.1) e) s).2 ∧ (step m e s).1.Asc ∧
      (∀ k, (step m e s).1.get k = if compare e.1 k = .eq then (g (arg (m.get e.1) e) s).1 else m.get k) ∧
      ∀ k v, (k, v) ∈ (step m e s).1.entries → (∃ v0, (k, v0) ∈ m.entries) ∨ k = e.1 ∧ ¬ HasKey m.entries k)
    (l : List (K × W)) : ∀ (m : BTreeMap K V) (s : S), AscendingBy Prod.fst l → m.Asc →
    (forEachE step l m s).2 = ((fillEach g (l.map fun e => arg (m.get e.1) e) s).2.2, (fillEach g (l.map fun e => arg (m.get e.1) e) s).2.1) ∧
    (forEachE step l m s).1.Asc ∧
    (∀ k o, Settled key (fillEach g (l.map fun e => arg (m.get e.1) e) s).1 k o → (forEachE step l m s).1.get k = o) ∧
    (∀ k, (∀ o, ¬ Settled key (fillEach g (l.map fun e => arg (m.get e.1) e) s).1 k o) → (forEachE step l m s).1.get k = m.get k) ∧
    (∀ k v, (k, v) ∈ (forEachE step l m s).1.entries → (∃ v0, (k, v0) ∈ m.entries) ∨ (∃ w, (k, w) ∈ l) ∧ ¬ HasKey m.entries k) := by
  induction l with
  | nil =>
    intro m s _ hm
    refine ⟨rfl, hm, ?_, fun _ _ => rfl, fun k v h => .inl ⟨v, h⟩⟩
    rintro k o ⟨x, hx, _⟩; cases hx
  | cons e l ih =>
    intro m s hl hm
    rw [ascendingBy_cons] at hl
    obtain ⟨h1, h2, h3, h4⟩ := hstep m e s hm
    obtain ⟨m', p, s', hs⟩ : ∃ m' p s', step m e s = (m', p, s') := ⟨_, _, _, rfl⟩
    obtain ⟨o, p', s'', hg⟩ : ∃ o p s', g (arg (m.get e.1) e) s = (o, p, s') := ⟨_, _, _, rfl⟩
    rw [hs, hg] at h1 h3
    rw [hs] at h2 h4
    simp only at h2 h3 h4
    cases h1
    simp only [List.map_cons, fillEach, forEachE, hs, hg]
    cases p with
    | true =>
      refine ⟨rfl, h2, ?_, ?_, ?_⟩
      · rintro k o' ⟨x, hx, hc⟩
        simp only [List.mem_singleton, Prod.mk.injEq] at hx
        obtain ⟨rfl, rfl⟩ := hx
        rw [hkey] at hc
        simp only [h3, hc, ↓reduceIte]
      · intro k hk
        have : compare e.1 k ≠ .eq := fun hc => hk o ⟨_, List.mem_cons_self, by rw [hkey]; exact hc⟩
        simp only [h3, this, ↓reduceIte]
      · intro k v hkv
        rcases h4 k v hkv with h | ⟨rfl, h⟩
        · exact .inl h
        · exact .inr ⟨⟨e.2, by simp⟩, h⟩
    | false =>
      simp only
      have hargs : (l.map fun e => arg (m.get e.1) e) = l.map fun e => arg (m'.get e.1) e := by
        refine List.map_congr_left (fun y hy => ?_)
        have : compare e.1 y.1 ≠ .eq := by rw [hl.1 y hy]; simp
        rw [h3, if_neg this]
      obtain ⟨i1, i2, i3, i4, i5⟩ := ih m' s' hl.2 h2
      rw [hargs]
      have hpre := (fillEach_prefix g (l.map fun e => arg (m'.get e.1) e) s').1
      have hrest : ∀ k o, Settled key (fillEach g (l.map fun e => arg (m'.get e.1) e) s').1 k o → compare e.1 k = .lt := by
        rintro k o ⟨x, hx, hc⟩
        have hx1 : x ∈ l.map fun e => arg (m'.get e.1) e := by
          refine List.mem_of_mem_take (i := (fillEach g (l.map fun e => arg (m'.get e.1) e) s').1.length) ?_
          rw [← hpre]; exact List.mem_map.2 ⟨_, hx, rfl⟩
        obtain ⟨y, hy, rfl⟩ := List.mem_map.1 hx1
        rw [hkey] at hc
        exact cmp_lt_of_lt_of_eq (hl.1 y hy) hc
      refine ⟨i1, i2, ?_, ?_, ?_⟩
      · rintro k o' ⟨x, hx, hc⟩
        rcases List.mem_cons.1 hx with hx | hx
        · cases hx
          rw [hkey] at hc
          rw [i4 k (fun o hs => by have := hrest k o hs; rw [hc] at this; cases this), h3, if_pos hc]
        · exact i3 k o' ⟨x, hx, hc⟩
      · intro k hk
        have hne : compare e.1 k ≠ .eq := fun hc => hk o ⟨_, List.mem_cons_self, by rw [hkey]; exact hc⟩
        rw [i4 k (fun o ⟨x, hx, hc⟩ => hk o ⟨x, List.mem_cons_of_mem _ hx, hc⟩), h3, if_neg hne]
      · intro k v hkv
        have hk' : HasKey m.entries k → HasKey m'.entries k ∨ compare e.1 k = .eq := by
          rintro ⟨v, hv⟩
          by_cases hc : compare e.1 k = .eq
          · exact .inr hc
          · left
            refine ⟨v, (get_iff h2).1 ?_⟩
            rw [h3, if_neg hc]; exact (get_iff hm).2 hv
        rcases i5 k v hkv with ⟨v0, h0⟩ | ⟨⟨w, hw⟩, hn⟩
        · rcases h4 k v0 h0 with h | ⟨rfl, h⟩
          · exact .inl h
          · exact .inr ⟨⟨e.2, by simp⟩, h⟩
        · refine .inr ⟨⟨w, List.mem_cons_of_mem _ hw⟩, fun hk => ?_⟩
          rcases hk' hk with h | h
          · exact hn h
          · have := hl.1 _ hw; simp only at this; rw [h] at this; cases this

theorem asSettled_of {a m : BTreeMap K V} {key : X → K} {log : List (X × Option V)} (ha : a.Asc) (hm : m.Asc)
    (h1 : ∀ k o, Settled key log k o → m.get k = o) (h2 : ∀ k, (∀ o, ¬ Settled key log k o) → m.get k = a.get k) :
    AsSettled key log a.entries m.entries := by
  intro k v
  rw [← get_iff hm, ← get_iff ha]
  constructor
  · intro h
    by_cases hs : ∃ o, Settled key log k o
    · obtain ⟨o, ho⟩ := hs
      have := h1 k o ho
      rw [h] at this
      exact .inl (this ▸ ho)
    · have hs' : ∀ o, ¬ Settled key log k o := fun o ho => hs ⟨o, ho⟩
      exact .inr ⟨hs', (h2 k hs').symm.trans h⟩
  · rintro (h | ⟨h, h'⟩)
    · exact h1 k _ h
    · exact (h2 k h).trans h'

omit [TransOrd K] in
/-- the log of the calls that reach the closure, seen in the log of all visits -/
theorem settled_sel {key : X → K} {ky : Y → K} {sel : X → Option Y} (hk : ∀ x y, sel x = some y → ky y = key x)
    (log : List (X × Option V)) (k : K) (o : Option V) :
    Settled ky (log.filterMap (fun p => (sel p.1).map fun y => (y, p.2))) k o ↔
      ∃ x y, (x, o) ∈ log ∧ sel x = some y ∧ compare (key x) k = .eq := by
  constructor
  · rintro ⟨y, hy, hc⟩
    obtain ⟨q, hq, hr⟩ := List.mem_filterMap.1 hy
    rw [Option.map_eq_some_iff] at hr
    obtain ⟨y', hy', he⟩ := hr
    cases he
    exact ⟨q.1, y, hq, hy', by rw [← hk _ _ hy']; exact hc⟩
  · rintro ⟨x, y, hx, hs, hc⟩
    exact ⟨y, List.mem_filterMap.2 ⟨(x, o), hx, by simp [hs]⟩, by rw [hk _ _ hs]; exact hc⟩

/-- the arguments of the first loop of `outer_join_with` -/
def outerArgOfB (o : Option V) (e : K × W) : OuterJoinArg K V W :=
  match o with
  | some v => .both e.1 v e.2
  | none => .right e.1 e.2

theorem inOrder_outer_ofB {a : BTreeMap K V} {b : BTreeMap K W} (ha : a.Asc) (hb : b.Asc) :
    InOrder OuterJoinArg.key (BOuterOfB a.entries b.entries) (b.entries.map fun e => outerArgOfB (a.get e.1) e) := by
  have hk : ∀ e : K × W, (outerArgOfB (a.get e.1) e).key = e.1 := fun e => by unfold outerArgOfB; split <;> rfl
  refine ⟨?_, fun x => ?_⟩
  · have := hb
    unfold Asc AscendingBy at *
    rw [List.pairwise_map]
    exact this.imp (fun h => by rw [hk, hk]; exact h)
  · simp only [List.mem_map, Prod.exists]
    constructor
    · rintro ⟨k, w, hm, rfl⟩
      unfold outerArgOfB
      cases hg : a.get k with
      | none => exact ⟨hm, get_none_iff.1 hg⟩
      | some v => exact ⟨hm, (get_iff ha).1 hg⟩
    · intro h
      cases x with
      | left => cases h
      | right k w => exact ⟨k, w, h.1, by simp only [outerArgOfB, get_none_iff.2 h.2]⟩
      | both k v w => exact ⟨k, w, h.1, by simp only [outerArgOfB, (get_iff ha).2 h.2]⟩

/-- the arguments of the `retain` in `outer_join_with` -/
def leftOnly (b : BTreeMap K W) (e : K × V) : Option (OuterJoinArg K V W) :=
  match b.get e.1 with
  | some _ => none
  | none => some (.left e.1 e.2)

theorem inOrder_leftOnly {a : BTreeMap K V} {b : BTreeMap K W} (ha : a.Asc) :
    InOrder OuterJoinArg.key (fun x => Offers a.entries b.entries x ∧ x.isLeft = true) (a.entries.filterMap (leftOnly b)) := by
  refine ⟨?_, fun x => ?_⟩
  · refine ascendingBy_filterMap (ka := Prod.fst) ha ?_
    intro e _ x hx
    unfold leftOnly at hx
    split at hx <;> cases hx
    exact cmp_self _
  · simp only [List.mem_filterMap, Prod.exists]
    constructor
    · rintro ⟨k, w, hm, hx⟩
      unfold leftOnly at hx
      split at hx <;> cases hx
      rename_i h
      exact ⟨⟨hm, get_none_iff.1 h⟩, rfl⟩
    · rintro ⟨h, hr⟩
      cases x with
      | right k v => cases hr
      | both k v w => cases hr
      | left k v => exact ⟨k, v, h.1, by simp only [leftOnly, get_none_iff.2 h.2]⟩

theorem updateAnswer_spec {m : BTreeMap K V} (hm : m.Asc) (k0 : K) (v0 : V) (hg : m.get k0 = some v0) (r : V × Call Bool × S) :
    (updateAnswer m k0 r).2 = (keptSlot r).2 ∧ (updateAnswer m k0 r).1.Asc ∧
      (∀ k, (updateAnswer m k0 r).1.get k = if compare k0 k = .eq then (keptSlot r).1 else m.get k) ∧
      ∀ k v, (k, v) ∈ (updateAnswer m k0 r).1.entries → ∃ v0, (k, v0) ∈ m.entries := by
  obtain ⟨v, o, s⟩ := r
  have hset : ∀ k, (m.setMut k0 v).get k = if compare k0 k = .eq then some v else m.get k := by
    intro k
    rw [get_setMut hm]
    by_cases hc : compare k0 k = .eq
    · simp [hc, ← get_congr m hc, hg]
    · simp [hc]
  have hmem : ∀ k v', (k, v') ∈ (m.setMut k0 v).entries → ∃ v0, (k, v0) ∈ m.entries := by
    intro k v' h
    rcases (mem_setMut m k0 v _).1 h with ⟨h1, _⟩ | ⟨_, _, w, h1⟩
    · exact ⟨_, h1⟩
    · exact ⟨w, h1⟩
  rcases o with o | _
  · cases o with
    | true => exact ⟨rfl, setMut_asc hm _ _, hset, hmem⟩
    | false =>
      refine ⟨rfl, remove_asc (setMut_asc hm _ _) _, fun k => ?_, fun k v' h => hmem k v' ((mem_remove _ _ _).1 h).1⟩
      show ((m.setMut k0 v).remove k0).get k = _
      rw [get_remove (setMut_asc hm _ _), hset]
      by_cases hc : compare k0 k = .eq <;> simp [hc, keptSlot]
  · exact ⟨rfl, setMut_asc hm _ _, hset, hmem⟩

theorem rightStep_spec (fSome : K × V × W → S → V × Call Bool × S) (fNone : K × W → S → Call Bool × S) (m : BTreeMap K V) (e : K × W) (s : S)
    (hm : m.Asc) :
    (rightJoinWithStepE fSome fNone m e s).2 = (rightSlot fSome fNone (e.1, m.get e.1, e.2) s).2 ∧ (rightJoinWithStepE fSome fNone m e s).1.Asc ∧
      (∀ k, (rightJoinWithStepE fSome fNone m e s).1.get k = if compare e.1 k = .eq then (rightSlot fSome fNone (e.1, m.get e.1, e.2) s).1 else m.get k) ∧
      ∀ k v, (k, v) ∈ (rightJoinWithStepE fSome fNone m e s).1.entries → (∃ v0, (k, v0) ∈ m.entries) ∨ k = e.1 ∧ ¬ HasKey m.entries k := by
  unfold rightJoinWithStepE
  cases hg : m.get e.1 with
  | some v =>
    obtain ⟨h1, h2, h3, h4⟩ := updateAnswer_spec hm e.1 v hg (fSome (e.1, v, e.2) s)
    exact ⟨h1, h2, h3, fun k v h => .inl (h4 k v h)⟩
  | none =>
    have hno : ∀ k, m.get k = if compare e.1 k = .eq then none else m.get k := by
      intro k
      by_cases hc : compare e.1 k = .eq
      · rw [if_pos hc, ← get_congr m hc, hg]
      · rw [if_neg hc]
    obtain ⟨o, c, hc⟩ : ∃ o c, fNone (e.1, e.2) s = (o, c) := ⟨_, _, rfl⟩
    simp only [rightSlot, hc]
    rcases o with o | _
    · cases o with
      | true => exact ⟨rfl, hm, hno, fun k v h => .inl ⟨v, h⟩⟩
      | false =>
        refine ⟨rfl, remove_asc hm _, fun k => get_remove hm _ _, fun k v h => .inl ⟨v, ((mem_remove _ _ _).1 h).1⟩⟩
    · exact ⟨rfl, hm, hno, fun k v h => .inl ⟨v, h⟩⟩

theorem outerStep_spec (l : K × V × Option W → S → V × Call Bool × S) (r : K × W → S → Call (Option V) × S) (m : BTreeMap K V) (e : K × W) (s : S)
    (hm : m.Asc) :
    (outerJoinWithStepE l r m e s).2 = (outerSlot l r (outerArgOfB (m.get e.1) e) s).2 ∧ (outerJoinWithStepE l r m e s).1.Asc ∧
      (∀ k, (outerJoinWithStepE l r m e s).1.get k = if compare e.1 k = .eq then (outerSlot l r (outerArgOfB (m.get e.1) e) s).1 else m.get k) ∧
      ∀ k v, (k, v) ∈ (outerJoinWithStepE l r m e s).1.entries → (∃ v0, (k, v0) ∈ m.entries) ∨ k = e.1 ∧ ¬ HasKey m.entries k := by
  unfold outerJoinWithStepE
  cases hg : m.get e.1 with
  | some v =>
    obtain ⟨h1, h2, h3, h4⟩ := updateAnswer_spec hm e.1 v hg (l (e.1, v, some e.2) s)
    exact ⟨h1, h2, h3, fun k v h => .inl (h4 k v h)⟩
  | none =>
    have hno : ∀ k, m.get k = if compare e.1 k = .eq then none else m.get k := by
      intro k
      by_cases hc : compare e.1 k = .eq
      · rw [if_pos hc, ← get_congr m hc, hg]
      · rw [if_neg hc]
    obtain ⟨o, c, hc⟩ : ∃ o c, r (e.1, e.2) s = (o, c) := ⟨_, _, rfl⟩
    simp only [outerArgOfB, outerSlot, hc]
    rcases o with o | _
    · cases o with
      | none => exact ⟨rfl, hm, hno, fun k v h => .inl ⟨v, h⟩⟩
      | some v =>
        refine ⟨rfl, insert_asc hm _ _, fun k => get_insert hm _ _ _, fun k v' h => ?_⟩
        rcases (mem_stdInsert hm e.1 v _).1 h with ⟨h1, _⟩ | ⟨h1, _, (⟨w, h2⟩ | ⟨h2, h3⟩)⟩
        · exact .inl ⟨_, h1⟩
        · exact .inl ⟨w, h2⟩
        · refine .inr ⟨h2, ?_⟩
          simp only at h2
          rw [h2]; exact h3
    · exact ⟨rfl, hm, hno, fun k v h => .inl ⟨v, h⟩⟩

omit [Ord K] [TransOrd K] in
/-- the last logged call is the one that panicked -/
theorem fillEach_last (g : X → S → Option V × Bool × S) (xs : List X) (s : S) (h : (fillEach g xs s).2.2 = true) :
    ∃ init x o s', (fillEach g xs s).1 = init ++ [(x, o)] ∧ (g x s').2.1 = true := by
  induction xs generalizing s with
  | nil => cases h
  | cons x xs ih =>
    obtain ⟨o, p, c, hc⟩ : ∃ o p c, g x s = (o, p, c) := ⟨_, _, _, rfl⟩
    cases p with
    | true => exact ⟨[], x, o, s, by simp [fillEach, hc], by rw [hc]⟩
    | false =>
      simp only [fillEach, hc] at h ⊢
      obtain ⟨init, x', o', s', h1, h2⟩ := ih c h
      exact ⟨(x, o) :: init, x', o', s', by rw [h1]; rfl, h2⟩

theorem inOrder_inner_a {a : BTreeMap K V} {b : BTreeMap K W} (ha : a.Asc) (hb : b.Asc) :
    InOrder (fun x => x.1) (InnerOffer a.entries b.entries) (a.entries.filterMap fun e => (b.get e.1).map fun w => (e.1, e.2, w)) := by
  refine ⟨?_, fun x => ?_⟩
  · refine ascendingBy_filterMap (ka := Prod.fst) ha ?_
    intro e _ x hx
    rw [Option.map_eq_some_iff] at hx
    obtain ⟨v, _, rfl⟩ := hx
    exact cmp_self _
  · obtain ⟨k, v, w⟩ := x
    simp only [List.mem_filterMap, Option.map_eq_some_iff, Prod.mk.injEq, Prod.exists]
    constructor
    · rintro ⟨k', v', hm, w', hg, rfl, rfl, rfl⟩
      exact ⟨hm, (get_iff hb).1 hg⟩
    · rintro ⟨hm, hg⟩
      exact ⟨k, v, hm, w, (get_iff hb).2 hg, rfl, rfl, rfl⟩

omit [Ord K] [TransOrd K] in
theorem forEachE_pure {M : Type _} {body : M → X → S → M × Bool × S} {step : M → X → M} (h : ∀ m x s, body m x s = (step m x, false, s))
    (l : List X) (m : M) (s : S) : forEachE body l m s = (l.foldl step m, false, s) := by
  induction l generalizing m with
  | nil => rfl
  | cons x l ih => simp only [forEachE, h, List.foldl_cons, ih]

omit [TransOrd K] in
theorem retainE_pure (m : BTreeMap K V) {g : K → V → S → V × Call Bool × S} {f : K → V → V × Bool}
    (h : ∀ k v s, g k v s = ((f k v).1, .ret (f k v).2, s)) (s : S) : m.retainE g s = (m.retain f, false, s) := by
  have : ∀ l : List (K × V), retainListE g l s = (((⟨l⟩ : BTreeMap K V).retain f).entries, false, s) := by
    intro l
    induction l with
    | nil => rfl
    | cons e l ih =>
      obtain ⟨v, o, hf⟩ : ∃ v o, f e.1 e.2 = (v, o) := ⟨_, _, rfl⟩
      simp only [retain] at ih
      simp only [retainListE, h, hf, retain, List.filterMap_cons]
      cases o with
      | true => simp only [ih]
      | false => simp only [ih]
  unfold retainE
  rw [this]
end inPlace
end BTreeMap
end Verif
