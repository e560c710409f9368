import Verif.Lemmas.BTreeEffects
/-!
# C81: on what, in which order and how often the joins of `BTreeMap`s call their closure, and what a panic leaves behind
-/
namespace Verif
namespace BTreeMap
open Std

variable {K V W R S : Type} [Ord K] [TransOrd K]

/-- **C81 (outer_join).** First every entry of `a`, by ascending key, then the entries of `b` whose key is not in `a`, by ascending key; no
call after a panic. The result has exactly the answers, under the keys they were given for; there is none after a panic. -/
theorem C81_outer_join (a : BTreeMap K V) (b : BTreeMap K W) (ha : AscendingBy Prod.fst a.entries) (hb : AscendingBy Prod.fst b.entries)
    (f : Closure S (OuterJoinArg K V W) (Option R)) (c : S) :
    ∃ as bs, InOrder OuterJoinArg.key (fun x => Offers a.entries b.entries x ∧ x.isRight = false) as ∧
      InOrder OuterJoinArg.key (fun x => Offers a.entries b.entries x ∧ x.isRight = true) bs ∧
      ∀ rs c' fl, callEach f (as ++ bs) c = (rs, c', fl) →
        (fl = .panic → a.outerJoinE b f c = (.panic, c')) ∧
        (fl ≠ .panic → ∃ m : BTreeMap K R, a.outerJoinE b f c = (.ret m, c') ∧ AscendingBy Prod.fst m.entries ∧
          ∀ k r, (k, r) ∈ m.entries ↔ ∃ x, (x, r) ∈ rs ∧ x.key = k) := by
  refine ⟨_, _, inOrder_outer_a ha hb, inOrder_outer_b hb, ?_⟩
  intro rs c' fl hr
  have hkey : ∀ (e : K × V), (outerArgA b e : OuterJoinArg K V W).key = e.1 := outerArgA_key b
  have e1 : ∀ c, forEachE (fun (res : BTreeMap K R) (e : K × V) s => insertAnswer res e.1 (f (outerArgA b e) s)) a.entries new c =
      forEachE (fun res x s => insertAnswer res x.key (f x s)) (a.entries.map (outerArgA b)) new c := by
    intro c
    rw [forEachE_map]
    refine forEachE_congr _ (fun m x _ s => ?_) _ _
    rw [hkey]
  have e2 : ∀ m c, forEachE (fun (res : BTreeMap K R) (e : K × W) s =>
      if (a.get e.1).isNone then insertAnswer res e.1 (f (.right e.1 e.2) s) else (res, false, s)) b.entries m c =
      forEachE (fun res x s => insertAnswer res x.key (f x s)) (b.entries.filterMap (outerArgB a)) m c := by
    intro m c
    rw [forEachE_filterMap]
    refine forEachE_congr _ (fun m x _ s => ?_) _ _
    unfold outerArgB
    cases (a.get x.1).isNone <;> rfl
  rw [callEach_append] at hr
  unfold outerJoinE
  rw [e1, insLoop]
  have hfl := callEach_flow f (a.entries.map (outerArgA b)) c
  have hfl2 := callEach_flow f (b.entries.filterMap (outerArgB a)) (callEach f (a.entries.map (outerArgA b)) c).2.1
  have hasc1 := callEach_ascending OuterJoinArg.key f _ (inOrder_outer_a ha hb).1 c
  have hasc2 := callEach_ascending OuterJoinArg.key f _ (inOrder_outer_b (a := a) hb).1 (callEach f (a.entries.map (outerArgA b)) c).2.1
  have hs1 := callEach_sublist f (a.entries.map (outerArgA b)) c
  have hs2 := callEach_sublist f (b.entries.filterMap (outerArgB a)) (callEach f (a.entries.map (outerArgA b)) c).2.1
  obtain ⟨rs1, c1, fl1, h1⟩ : ∃ rs1 c1 fl1, callEach f (a.entries.map (outerArgA b)) c = (rs1, c1, fl1) := ⟨_, _, _, rfl⟩
  simp only [h1] at hr hfl hfl2 hasc1 hasc2 hs1 hs2 ⊢
  obtain ⟨rs2, c2, fl2, h2⟩ : ∃ rs2 c2 fl2, callEach f (b.entries.filterMap (outerArgB a)) c1 = (rs2, c2, fl2) := ⟨_, _, _, rfl⟩
  simp only [h2] at hr hfl2 hasc2 hs2
  cases fl1 with
  | panic =>
    simp at hr
    obtain ⟨rfl, rfl, rfl⟩ := hr
    exact ⟨fun _ => rfl, fun h => absurd rfl h⟩
  | stop => simp at hfl
  | cont =>
    simp at hr
    obtain ⟨rfl, rfl, rfl⟩ := hr
    rw [show (Flow.cont == Flow.panic) = false from rfl]
    simp only
    rw [e2, insLoop]
    simp only [h2]
    refine ⟨?_, ?_⟩
    · rintro rfl; rfl
    · intro hne
      have hf : (fl2 == Flow.panic) = false := by cases fl2 <;> first | rfl | exact absurd rfl hne
      rw [hf]
      refine ⟨_, rfl, ?_⟩
      have w := insAll_spec (K := K) (R := R) (rs1.map fun p => (p.1.key, some p.2)) (by
        have := hasc1
        unfold AscendingBy at this
        rw [Distinct, List.pairwise_map]
        rw [List.pairwise_map] at this
        exact this.imp (fun h => by simp only at h ⊢; rw [h]; simp)) new new_asc (by rintro e _ ⟨v, k', hm, _⟩; simp [new] at hm)
      have w2 := insAll_spec (K := K) (R := R) (rs2.map fun p => (p.1.key, some p.2)) (by
        have := hasc2
        unfold AscendingBy at this
        rw [Distinct, List.pairwise_map]
        rw [List.pairwise_map] at this
        exact this.imp (fun h => by simp only at h ⊢; rw [h]; simp)) _ w.1 (by
          rintro e he ⟨r, k', hm, hc⟩
          rw [w.2] at hm
          simp only [new, List.not_mem_nil, false_or, List.mem_map, Prod.mk.injEq] at hm
          obtain ⟨q, hq, rfl, _⟩ := hm
          obtain ⟨q', hq', rfl⟩ := List.mem_map.1 he
          have m1 := ((inOrder_outer_a ha hb).2 q.1).1 (hs1.mem (List.mem_map_of_mem hq))
          have m2 := ((inOrder_outer_b (a := a) hb).2 q'.1).1 (hs2.mem (List.mem_map_of_mem hq'))
          obtain ⟨q1, q2⟩ := q
          obtain ⟨q1', q2'⟩ := q'
          cases q1' with
          | left => cases m2.2
          | both => cases m2.2
          | right k w =>
            cases q1 with
            | right => cases m1.2
            | left k0 v0 => exact m2.1.2 ⟨v0, k0, m1.1.1, hc⟩
            | both k0 v0 w0 => exact m2.1.2 ⟨v0, k0, m1.1.1, hc⟩)
      refine ⟨w2.1, fun k r => ?_⟩
      rw [w2.2, w.2]
      simp only [new, List.not_mem_nil, false_or, List.mem_map, Prod.mk.injEq, Option.some.injEq, List.mem_append, Prod.exists]
      constructor
      · rintro (⟨x, r', h, rfl, rfl⟩ | ⟨x, r', h, rfl, rfl⟩)
        · exact ⟨x, .inl h, rfl⟩
        · exact ⟨x, .inr h, rfl⟩
      · rintro ⟨x, (h | h), rfl⟩
        · exact .inl ⟨x, r, h, rfl, rfl⟩
        · exact .inr ⟨x, r, h, rfl, rfl⟩

/-- **C81 (left_join).** Every entry of `a`, by ascending key. -/
theorem C81_left_join (a : BTreeMap K V) (b : BTreeMap K W) (ha : AscendingBy Prod.fst a.entries) (hb : AscendingBy Prod.fst b.entries)
    (f : Closure S (K × V × Option W) (Option R)) (c : S) :
    ∃ args, InOrder (fun x => x.1) (LeftOffer a.entries b.entries) args ∧
      a.leftJoinE b f c = (if (callEach f args c).2.2 = .panic then .panic else .ret ⟨(callEach f args c).1.map fun p => (p.1.1, p.2)⟩,
        (callEach f args c).2.1) := by
  refine ⟨_, inOrder_b_left ha hb, ?_⟩
  rw [← insLoop_new _ _ _ (inOrder_b_left ha hb).1, forEachE_map]
  rfl

/-- **C81 (right_join).** Every entry of `b`, by ascending key, with the key as stored in `b`. -/
theorem C81_right_join (a : BTreeMap K V) (b : BTreeMap K W) (ha : AscendingBy Prod.fst a.entries) (hb : AscendingBy Prod.fst b.entries)
    (f : Closure S (K × Option V × W) (Option R)) (c : S) :
    ∃ args, InOrder (fun x => x.1) (BRightOffer a.entries b.entries) args ∧
      a.rightJoinE b f c = (if (callEach f args c).2.2 = .panic then .panic else .ret ⟨(callEach f args c).1.map fun p => (p.1.1, p.2)⟩,
        (callEach f args c).2.1) := by
  refine ⟨_, inOrder_b_right ha hb, ?_⟩
  rw [← insLoop_new _ _ _ (inOrder_b_right ha hb).1, forEachE_map]
  rfl

/-- **C81 (inner_join).** The common keys, by ascending order, as stored in `b`. -/
theorem C81_inner_join (a : BTreeMap K V) (b : BTreeMap K W) (ha : AscendingBy Prod.fst a.entries) (hb : AscendingBy Prod.fst b.entries)
    (f : Closure S (K × V × W) (Option R)) (c : S) :
    ∃ args, InOrder (fun x => x.1) (BInnerOffer a.entries b.entries) args ∧
      a.innerJoinE b f c = (if (callEach f args c).2.2 = .panic then .panic else .ret ⟨(callEach f args c).1.map fun p => (p.1.1, p.2)⟩,
        (callEach f args c).2.1) := by
  refine ⟨_, inOrder_b_inner ha hb, ?_⟩
  rw [← insLoop_new _ _ _ (inOrder_b_inner ha hb).1, forEachE_filterMap]
  unfold innerJoinE
  rw [if_neg (by simp [sizeHint])]
  refine congrArg returned (forEachE_congr _ (fun m x _ s => ?_) _ _)
  cases a.get x.1 <;> rfl

/-- **C81 (left_join_with).** Every entry of `a`, by ascending key. Afterwards, also after a panic, the map has what the calls settled and
otherwise what it had, under its own keys. -/
theorem C81_left_join_with (a : BTreeMap K V) (b : BTreeMap K W) (ha : AscendingBy Prod.fst a.entries) (hb : AscendingBy Prod.fst b.entries)
    (f : K × V × Option W → S → V × Call Bool × S) (c : S) :
    ∃ args, InOrder (fun x => x.1) (LeftOffer a.entries b.entries) args ∧
      ∀ log c' p, fillEach (fun x s => keptSlot (f x s)) args c = (log, c', p) →
        ∃ m, a.leftJoinWithE b f c = (m, p, c') ∧ AscendingBy Prod.fst m.entries ∧ AsSettled (fun x => x.1) log a.entries m.entries ∧
          ∀ k v, (k, v) ∈ m.entries → ∃ v0, (k, v0) ∈ a.entries := by
  refine ⟨_, inOrder_b_left ha hb, ?_⟩
  intro log c' p hl
  obtain ⟨r1, r2, r3, r4, r5⟩ := retainE_spec ha (fun k v s => f (k, v, b.get k) s) c
  obtain ⟨s1, s2, s3⟩ := fillEach_skip (fun e : K × V => some (e.1, e.2, b.get e.1)) (fun x s => keptSlot (f x s)) (fun _ => none)
    (fun e s => keptSlot (f (e.1, e.2, b.get e.1) s)) (fun _ _ _ h => by cases h; rfl) (fun _ _ h => by cases h) a.entries c
  rw [filterMap_some_map, hl] at s1 s2
  have hs := settled_sel (key := Prod.fst) (ky := fun x : K × V × Option W => x.1) (sel := fun e : K × V => some (e.1, e.2, b.get e.1))
    (fun x y h => by cases h; rfl) (fillEach (fun e s => keptSlot (f (e.1, e.2, b.get e.1) s)) a.entries c).1
  rw [← s2] at hs
  have hs' : ∀ k o, Settled (fun x => x.1) log k o ↔ Settled Prod.fst (fillEach (fun e s => keptSlot (f (e.1, e.2, b.get e.1) s)) a.entries c).1 k o := by
    intro k o
    rw [hs]
    exact ⟨fun ⟨x, _, h, _, hc⟩ => ⟨x, h, hc⟩, fun ⟨x, h, hc⟩ => ⟨x, _, h, rfl, hc⟩⟩
  refine ⟨_, Prod.ext rfl ?_, r2, asSettled_of ha r2 (fun k o h => r3 k o ((hs' k o).1 h)) (fun k h => r4 k fun o ho => h o ((hs' k o).2 ho)), r5⟩
  refine r1.trans ?_
  rw [s1]

/-- **C81 (inner_join_with).** The common keys, by ascending order (as stored in `a`). Entries of `a` without partner disappear without a
call, up to the entry whose call panicked, if any. -/
theorem C81_inner_join_with (a : BTreeMap K V) (b : BTreeMap K W) (ha : AscendingBy Prod.fst a.entries) (hb : AscendingBy Prod.fst b.entries)
    (f : K × V × W → S → V × Call Bool × S) (c : S) :
    ∃ args, InOrder (fun x => x.1) (InnerOffer a.entries b.entries) args ∧
      ∀ log c' p, fillEach (fun x s => keptSlot (f x s)) args c = (log, c', p) →
        ∃ m, a.innerJoinWithE b f c = (m, p, c') ∧ AscendingBy Prod.fst m.entries ∧
          AsSettledUpTo (fun x => x.1) log p a.entries m.entries ∧
          ∀ k v, (k, v) ∈ m.entries → ∃ v0, (k, v0) ∈ a.entries := by
  refine ⟨_, inOrder_inner_a ha hb, ?_⟩
  intro log c' p hl
  obtain ⟨r1, r2, r3, r4, r5⟩ := retainE_spec ha (innerAsk b f) c
  have hg : ∀ (e : K × V) (y : K × V × W) (s : S), ((b.get e.1).map fun w => (e.1, e.2, w)) = some y →
      keptSlot (innerAsk b f e.1 e.2 s) = keptSlot (f y s) := by
    intro e y s h
    rw [Option.map_eq_some_iff] at h
    obtain ⟨w, h, rfl⟩ := h
    simp only [innerAsk, h]
  have hg' : ∀ (e : K × V) (s : S), ((b.get e.1).map fun w => (e.1, e.2, w)) = none →
      keptSlot (innerAsk b f e.1 e.2 s) = (none, false, s) := by
    intro e s h
    rw [Option.map_eq_none_iff] at h
    simp only [innerAsk, h, keptSlot]
  obtain ⟨s1, s2, s3⟩ := fillEach_skip (fun e : K × V => (b.get e.1).map fun w => (e.1, e.2, w)) (fun x s => keptSlot (f x s)) (fun _ => none)
    (fun e s => keptSlot (innerAsk b f e.1 e.2 s)) hg hg' a.entries c
  have hpre := fillEach_prefix (fun (e : K × V) s => keptSlot (innerAsk b f e.1 e.2 s)) a.entries c
  have hlast := fillEach_last (fun (e : K × V) s => keptSlot (innerAsk b f e.1 e.2 s)) a.entries c
  rw [hl] at s1 s2
  obtain ⟨log', c1, p1, hl'⟩ : ∃ log' c1 p1, fillEach (fun (e : K × V) s => keptSlot (innerAsk b f e.1 e.2 s)) a.entries c = (log', c1, p1) := ⟨_, _, _, rfl⟩
  rw [hl'] at r1 r3 r4 s1 s2 s3 hpre hlast
  simp only at r1 r3 r4 s1 s2 s3 hpre hlast
  cases s1
  have hs := settled_sel (key := Prod.fst) (ky := fun x : K × V × W => x.1) (sel := fun e : K × V => (b.get e.1).map fun w => (e.1, e.2, w))
    (fun x y h => by
      rw [Option.map_eq_some_iff] at h
      obtain ⟨w, _, rfl⟩ := h
      rfl) log'
  rw [← s2] at hs
  have hmem : ∀ y o, (y, o) ∈ log → ∃ x, (x, o) ∈ log' ∧ y.1 = x.1 := by
    intro y o h
    rw [s2] at h
    obtain ⟨q, hq, hr⟩ := List.mem_filterMap.1 h
    rw [Option.map_eq_some_iff] at hr
    obtain ⟨y', hy', he⟩ := hr
    cases he
    rw [Option.map_eq_some_iff] at hy'
    obtain ⟨w, _, rfl⟩ := hy'
    exact ⟨q.1, hq, rfl⟩
  have hsplit : log'.map (·.1) ++ a.entries.drop log'.length = a.entries := by rw [hpre.1, List.take_append_drop]
  have hasc : AscendingBy Prod.fst (log'.map (·.1) ++ a.entries.drop log'.length) := by rw [hsplit]; exact ha
  have hlt := (List.pairwise_append.1 hasc).2.2
  refine ⟨(a.retainE (innerAsk b f) c).1, Prod.ext rfl r1, r2, ?_, r5⟩
  intro k v
  rw [← get_iff r2]
  constructor
  · intro hv
    by_cases hset : ∃ o, Settled Prod.fst log' k o
    · obtain ⟨o, ho⟩ := hset
      have h1 := r3 k o ho
      rw [h1] at hv
      subst hv
      left
      obtain ⟨x, hx, hc⟩ := ho
      rw [hs]
      cases hsel : (b.get x.1).map fun w => (x.1, x.2, w) with
      | none => have := s3 x _ hx hsel; cases this
      | some y => exact ⟨x, y, hx, hsel, hc⟩
    · have hset' : ∀ o, ¬ Settled Prod.fst log' k o := fun o ho => hset ⟨o, ho⟩
      have h1 := r4 k hset'
      have h2 : a.get k = some v := h1.symm.trans hv
      right
      obtain ⟨k', hk', hc⟩ := (get_iff ha).1 h2
      have hk2 := hk'
      rw [← hsplit] at hk2
      rcases List.mem_append.1 hk2 with h3 | h3
      · obtain ⟨q, hq, he⟩ := List.mem_map.1 h3
        exact absurd ⟨q.1, hq, by rw [he]; exact hc⟩ (hset' q.2)
      · refine ⟨⟨?_, ?_⟩, ⟨k', hk', hc⟩⟩
        · cases p with
          | true => rfl
          | false => rw [hpre.2 rfl, List.drop_length] at h3; cases h3
        · intro y o hy
          obtain ⟨x, hx, he⟩ := hmem y o hy
          show compare y.1 k = .lt
          rw [he]
          exact cmp_lt_of_lt_of_eq (hlt x (List.mem_map.2 ⟨_, hx, rfl⟩) _ h3) hc
  · rintro (h | ⟨⟨hp, h⟩, hv⟩)
    · rw [hs] at h
      obtain ⟨x, y, hx, _, hc⟩ := h
      exact r3 k _ ⟨x, hx, hc⟩
    · refine (r4 k ?_).trans ((get_iff ha).2 hv)
      rintro o ⟨x, hx, hc⟩
      obtain ⟨init, z, oz, s', hz, hpz⟩ := hlast hp
      have hselz : ∃ y, ((b.get z.1).map fun w => (z.1, z.2, w)) = some y := by
        cases hsel : (b.get z.1).map fun w => (z.1, z.2, w) with
        | some y => exact ⟨y, rfl⟩
        | none => rw [hg' z s' hsel] at hpz; cases hpz
      obtain ⟨y, hy⟩ := hselz
      have hyk : y.1 = z.1 := by
        rw [Option.map_eq_some_iff] at hy
        obtain ⟨w, _, rfl⟩ := hy
        rfl
      have hzl : (y, oz) ∈ log := by
        rw [s2]
        exact List.mem_filterMap.2 ⟨(z, oz), by rw [hz]; simp, by simp [hy]⟩
      have hzk := h y oz hzl
      simp only [hyk] at hzk
      have hxz : x = z ∨ compare x.1 z.1 = .lt := by
        rw [hz] at hx
        rcases List.mem_append.1 hx with h1 | h1
        · right
          have := (List.pairwise_append.1 hasc).1
          rw [hz, List.map_append, List.pairwise_append] at this
          exact this.2.2 x (List.mem_map.2 ⟨_, h1, rfl⟩) z (by simp)
        · left
          simp only [List.mem_singleton, Prod.mk.injEq] at h1
          exact h1.1
      rcases hxz with rfl | hxz
      · rw [hc] at hzk; cases hzk
      · have := cmp_lt_trans hxz hzk
        rw [hc] at this; cases this

/-- **C81 (right_join_with).** Every entry of `b`, by ascending key. What the closure answers for a key that is only in `b` does not matter
(see C40), and entries of `a` without partner stay. -/
theorem C81_right_join_with (a : BTreeMap K V) (b : BTreeMap K W) (ha : AscendingBy Prod.fst a.entries) (hb : AscendingBy Prod.fst b.entries)
    (fSome : K × V × W → S → V × Call Bool × S) (fNone : K × W → S → Call Bool × S) (c : S) :
    ∃ args, InOrder (fun x => x.1) (BRightOffer a.entries b.entries) args ∧
      ∀ log c' p, fillEach (rightSlot fSome fNone) args c = (log, c', p) →
        ∃ m, a.rightJoinWithE b fSome fNone c = (m, p, c') ∧ AscendingBy Prod.fst m.entries ∧ AsSettled (fun x => x.1) log a.entries m.entries := by
  refine ⟨_, inOrder_b_right ha hb, ?_⟩
  intro log c' p hl
  obtain ⟨h1, h2, h3, h4, _⟩ := forEach_fill (rightJoinWithStepE fSome fNone) (fun o e => (e.1, o, e.2)) (fun x => x.1) (fun _ _ => rfl)
    (rightSlot fSome fNone) (rightStep_spec fSome fNone) b.entries a c hb ha
  rw [hl] at h1 h3 h4
  exact ⟨_, Prod.ext rfl h1, h2, asSettled_of ha h2 h3 h4⟩

/-- **C81 (outer_join_with).** First every entry of `b` by ascending key (`l` on the common keys, `r` on the others), then `l` on the
entries of `a` without partner, by ascending key. A key that was in the map is stored as it was, a new one as in `b`. -/
theorem C81_outer_join_with (a : BTreeMap K V) (b : BTreeMap K W) (ha : AscendingBy Prod.fst a.entries) (hb : AscendingBy Prod.fst b.entries)
    (l : K × V × Option W → S → V × Call Bool × S) (r : K × W → S → Call (Option V) × S) (c : S) :
    ∃ bs as, InOrder OuterJoinArg.key (BOuterOfB a.entries b.entries) bs ∧
      InOrder OuterJoinArg.key (fun x => Offers a.entries b.entries x ∧ x.isLeft = true) as ∧
      ∀ log c' p, fillEach (outerSlot l r) (bs ++ as) c = (log, c', p) →
        ∃ m, a.outerJoinWithE b l r c = (m, p, c') ∧ AscendingBy Prod.fst m.entries ∧ AsSettled OuterJoinArg.key log a.entries m.entries ∧
          ∀ k v, (k, v) ∈ m.entries → (∃ v0, (k, v0) ∈ a.entries) ∨ (∃ w, (k, w) ∈ b.entries) ∧ ¬ HasKey a.entries k := by
  refine ⟨_, _, inOrder_outer_ofB ha hb, inOrder_leftOnly ha, ?_⟩
  intro log c' p hl
  obtain ⟨h1, h2, h3, h4, h5⟩ := forEach_fill (outerJoinWithStepE l r) outerArgOfB OuterJoinArg.key
    (fun o e => by unfold outerArgOfB; split <;> rfl) (outerSlot l r) (outerStep_spec l r) b.entries a c hb ha
  have hpre := fillEach_prefix (outerSlot l r) (b.entries.map fun e => outerArgOfB (a.get e.1) e) c
  rw [fillEach_append] at hl
  obtain ⟨log1, c1, p1, hl1⟩ : ∃ log1 c1 p1, fillEach (outerSlot l r) (b.entries.map fun e => outerArgOfB (a.get e.1) e) c = (log1, c1, p1) :=
    ⟨_, _, _, rfl⟩
  rw [hl1] at h1 h3 h4 hpre
  simp only [hl1] at hl
  obtain ⟨m1, p1', c1', hm1⟩ : ∃ m p c', forEachE (outerJoinWithStepE l r) b.entries a c = (m, p, c') := ⟨_, _, _, rfl⟩
  rw [hm1] at h1 h2 h3 h4 h5
  simp only at h1 h2 h3 h4 h5 hpre
  cases h1
  unfold outerJoinWithE
  simp only [hm1]
  cases p1 with
  | true =>
    simp only [↓reduceIte] at hl
    cases hl
    exact ⟨_, rfl, h2, asSettled_of ha h2 h3 h4, h5⟩
  | false =>
    simp only [Bool.false_eq_true, ↓reduceIte] at hl
    have hkeyB : ∀ k o, Settled OuterJoinArg.key log1 k o → HasKey b.entries k := by
      rintro k o ⟨x, hx, hc⟩
      have : x ∈ b.entries.map fun e => outerArgOfB (a.get e.1) e := by
        refine List.mem_of_mem_take (i := log1.length) ?_
        rw [← hpre.1]; exact List.mem_map.2 ⟨_, hx, rfl⟩
      obtain ⟨e, he, rfl⟩ := List.mem_map.1 this
      rw [show (outerArgOfB (a.get e.1) e).key = e.1 by unfold outerArgOfB; split <;> rfl] at hc
      exact ⟨e.2, e.1, he, hc⟩
    have hsame : ∀ k, ¬ HasKey b.entries k → m1.get k = a.get k := fun k hk => h4 k fun o ho => hk (hkeyB k o ho)
    have hsameE : ∀ k v, ¬ HasKey b.entries k → ((k, v) ∈ m1.entries ↔ (k, v) ∈ a.entries) := by
      intro k v hk
      constructor
      · intro h
        rcases h5 k v h with ⟨v0, h0⟩ | ⟨⟨w, hw⟩, _⟩
        · have := hsame k hk
          rw [get_mem h2 h, get_mem ha h0] at this
          cases this; exact h0
        · exact absurd ⟨w, k, hw, cmp_self _⟩ hk
      · intro h
        have := hsame k hk
        rw [get_mem ha h] at this
        obtain ⟨k', hk', hc⟩ := (get_iff h2).1 this
        rcases h5 k' v hk' with ⟨v0, h0⟩ | ⟨⟨w, hw⟩, _⟩
        · have := AscendingBy.eq_of_mem ha h0 h hc
          cases this; exact hk'
        · exact absurd ⟨w, k', hw, hc⟩ hk
    have hargs : m1.entries.filterMap (leftOnly b) = a.entries.filterMap (leftOnly b) := by
      refine (inOrder_leftOnly h2).unique ⟨(inOrder_leftOnly (b := b) ha).1, fun x => ?_⟩
      rw [(inOrder_leftOnly (b := b) ha).2]
      cases x with
      | right k w => exact ⟨fun h => (by cases h.2), fun h => (by cases h.2)⟩
      | both k v w => exact ⟨fun h => (by cases h.2), fun h => (by cases h.2)⟩
      | left k v => exact ⟨fun h => ⟨⟨(hsameE k v h.1.2).2 h.1.1, h.1.2⟩, rfl⟩, fun h => ⟨⟨(hsameE k v h.1.2).1 h.1.1, h.1.2⟩, rfl⟩⟩
    obtain ⟨r1, r2, r3, r4, r5⟩ := retainE_spec h2 (outerAsk b l) c1
    have hg : ∀ (e : K × V) (y : OuterJoinArg K V W) (s : S), leftOnly b e = some y → keptSlot (outerAsk b l e.1 e.2 s) = outerSlot l r y s := by
      intro e y s h
      unfold leftOnly at h
      split at h <;> cases h
      rename_i h
      simp only [outerAsk, h, outerSlot]
    have hg' : ∀ (e : K × V) (s : S), leftOnly b e = none → keptSlot (outerAsk b l e.1 e.2 s) = (some e.2, false, s) := by
      intro e s h
      unfold leftOnly at h
      split at h <;> cases h
      rename_i h
      simp only [outerAsk, h, keptSlot]
    obtain ⟨s1, s2, s3⟩ := fillEach_skip (leftOnly b) (outerSlot l r) (fun e => some e.2) (fun e s => keptSlot (outerAsk b l e.1 e.2 s)) hg hg' m1.entries c1
    rw [hargs] at s1 s2
    obtain ⟨log2, c2, p2, hl2⟩ : ∃ log2 c2 p2, fillEach (outerSlot l r) (a.entries.filterMap (leftOnly b)) c1 = (log2, c2, p2) := ⟨_, _, _, rfl⟩
    rw [hl2] at s1 s2 hl
    simp only at hl
    cases hl
    have hlk : ∀ (x : K × V) (y : OuterJoinArg K V W), leftOnly b x = some y → y.key = x.1 := by
      intro x y h
      unfold leftOnly at h
      split at h <;> cases h
      rfl
    have hs := settled_sel (key := Prod.fst) hlk (fillEach (fun (e : K × V) s => keptSlot (outerAsk b l e.1 e.2 s)) m1.entries c1).1
    rw [← s2] at hs
    have hpre2 := fillEach_prefix (fun (e : K × V) s => keptSlot (outerAsk b l e.1 e.2 s)) m1.entries c1
    obtain ⟨log', c3, p3, hl'⟩ : ∃ log' c3 p3, fillEach (fun (e : K × V) s => keptSlot (outerAsk b l e.1 e.2 s)) m1.entries c1 = (log', c3, p3) := ⟨_, _, _, rfl⟩
    rw [hl'] at r1 r3 r4 s1 s2 s3 hs hpre2
    simp only at r1 r3 r4 s1 s2 s3 hs hpre2
    cases s1
    have hno2 : ∀ k o, Settled OuterJoinArg.key log2 k o → ¬ HasKey b.entries k := by
      intro k o h
      rw [hs] at h
      obtain ⟨x, y, hx, hsel, hc⟩ := h
      unfold leftOnly at hsel
      split at hsel <;> cases hsel
      rename_i hb0
      rw [get_congr b hc] at hb0
      exact get_none_iff.1 hb0
    have hmem' : ∀ x o, (x, o) ∈ log' → x ∈ m1.entries := by
      intro x o h
      refine List.mem_of_mem_take (i := log'.length) ?_
      rw [← hpre2.1]; exact List.mem_map.2 ⟨_, h, rfl⟩
    have happ : ∀ k o, Settled OuterJoinArg.key (log1 ++ log2) k o ↔ Settled OuterJoinArg.key log1 k o ∨ Settled OuterJoinArg.key log2 k o := by
      intro k o
      constructor
      · rintro ⟨x, hx, hc⟩
        rcases List.mem_append.1 hx with h | h
        · exact .inl ⟨x, h, hc⟩
        · exact .inr ⟨x, h, hc⟩
      · rintro (⟨x, hx, hc⟩ | ⟨x, hx, hc⟩)
        · exact ⟨x, List.mem_append_left _ hx, hc⟩
        · exact ⟨x, List.mem_append_right _ hx, hc⟩
    -- a key of `b` is left alone by the second phase
    have hquiet : ∀ k, HasKey b.entries k → (m1.retainE (outerAsk b l) c1).1.get k = m1.get k := by
      intro k hk
      by_cases hset : ∃ o, Settled Prod.fst log' k o
      · obtain ⟨o, ho⟩ := hset
        rw [r3 k o ho]
        obtain ⟨x, hx, hc⟩ := ho
        have hsel : leftOnly b x = none := by
          unfold leftOnly
          cases hgb : b.get x.1 with
          | some w => rfl
          | none => rw [get_congr b hc] at hgb; exact absurd hk (get_none_iff.1 hgb)
        rw [s3 x o hx hsel, ← get_congr m1 hc]
        exact (get_mem h2 (hmem' x o hx)).symm
      · exact r4 k fun o ho => hset ⟨o, ho⟩
    refine ⟨_, Prod.ext rfl r1, r2, asSettled_of ha r2 ?_ ?_, ?_⟩
    · intro k o h
      rcases (happ k o).1 h with h | h
      · rw [hquiet k (hkeyB k o h)]; exact h3 k o h
      · obtain ⟨x, y, hx, _, hc⟩ := (hs k o).1 h
        exact r3 k o ⟨x, hx, hc⟩
    · intro k h
      have hn1 : ∀ o, ¬ Settled OuterJoinArg.key log1 k o := fun o ho => h o ((happ k o).2 (.inl ho))
      have hn2 : ∀ o, ¬ Settled OuterJoinArg.key log2 k o := fun o ho => h o ((happ k o).2 (.inr ho))
      rw [← h4 k hn1]
      by_cases hk : HasKey b.entries k
      · exact hquiet k hk
      · refine r4 k ?_
        rintro o ⟨x, hx, hc⟩
        refine hn2 o ((hs k o).2 ⟨x, .left x.1 x.2, hx, ?_, hc⟩)
        unfold leftOnly
        rw [get_congr b hc, get_none_iff.2 hk]
    · intro k v h
      obtain ⟨v0, h0⟩ := r5 k v h
      exact h5 k v0 h0

omit [TransOrd K] in
/-- **C81 (link to C39/C40).** For closures that never panic and neither read nor change a state these are the joins of C39 and C40. -/
theorem C81_pure_closures (a : BTreeMap K V) (b : BTreeMap K W) (c : S) :
    (∀ f : OuterJoinArg K V W → Option R, a.outerJoinE b (fun x s => (.ret (f x), s)) c = (.ret (a.outerJoin b f), c)) ∧
    (∀ f : K → V → Option W → Option R, a.leftJoinE b (fun x s => (.ret (f x.1 x.2.1 x.2.2), s)) c = (.ret (a.leftJoin b f), c)) ∧
    (∀ f : K → Option V → W → Option R, a.rightJoinE b (fun x s => (.ret (f x.1 x.2.1 x.2.2), s)) c = (.ret (a.rightJoin b f), c)) ∧
    (∀ f : K → V → W → Option R, a.innerJoinE b (fun x s => (.ret (f x.1 x.2.1 x.2.2), s)) c = (.ret (a.innerJoin b f), c)) ∧
    (∀ f : K → V → W → V × Bool,
      a.innerJoinWithE b (fun x s => ((f x.1 x.2.1 x.2.2).1, .ret (f x.1 x.2.1 x.2.2).2, s)) c = (a.innerJoinWith b f, false, c)) ∧
    (∀ f : K → V → Option W → V × Bool,
      a.leftJoinWithE b (fun x s => ((f x.1 x.2.1 x.2.2).1, .ret (f x.1 x.2.1 x.2.2).2, s)) c = (a.leftJoinWith b f, false, c)) ∧
    (∀ (f : K → V → W → V × Bool) (g : K → W → Bool),
      a.rightJoinWithE b (fun x s => ((f x.1 x.2.1 x.2.2).1, .ret (f x.1 x.2.1 x.2.2).2, s)) (fun x s => (.ret (g x.1 x.2), s)) c =
        (a.rightJoinWith b f g, false, c)) ∧
    (∀ (l : K → V → Option W → V × Bool) (r : K → W → Option V),
      a.outerJoinWithE b (fun x s => ((l x.1 x.2.1 x.2.2).1, .ret (l x.1 x.2.1 x.2.2).2, s)) (fun x s => (.ret (r x.1 x.2), s)) c =
        (a.outerJoinWith b l r, false, c)) := by
  refine ⟨?_, ?_, ?_, ?_, ?_, ?_, ?_, ?_⟩
  · intro f
    unfold outerJoinE
    rw [forEachE_pure (step := fun res (e : K × V) => insertOpt res e.1 (f (outerArgA b e)))]
    · simp only
      rw [forEachE_pure (step := fun res (e : K × W) => if (a.get e.1).isNone then insertOpt res e.1 (f (.right e.1 e.2)) else res)]
      · rfl
      · intro m x s; split <;> rfl
    · intros; rfl
  · intro f
    unfold leftJoinE
    rw [forEachE_pure (step := fun res (e : K × V) => insertOpt res e.1 (f e.1 e.2 (b.get e.1)))]
    · rfl
    · intros; rfl
  · intro f
    unfold rightJoinE
    rw [forEachE_pure (step := fun res (e : K × W) => insertOpt res e.1 (f e.1 (a.get e.1) e.2))]
    · rfl
    · intros; rfl
  · intro f
    unfold innerJoinE innerJoin
    rw [if_neg (by simp [sizeHint]), if_neg (by simp [sizeHint]), forEachE_pure (step := fun res (e : K × W) => match a.get e.1 with
      | some v => insertOpt res e.1 (f e.1 v e.2)
      | none => res)]
    · rfl
    · intro m x s; cases a.get x.1 <;> rfl
  · intro f
    refine retainE_pure a (fun k v s => ?_) c
    unfold innerAsk
    cases b.get k <;> rfl
  · intro f
    exact retainE_pure a (fun k v s => rfl) c
  · intro f g
    refine forEachE_pure (fun m x s => ?_) _ _ _
    unfold rightJoinWithStepE rightJoinWithStep
    cases m.get x.1 with
    | some v =>
      obtain ⟨v', o, hf⟩ : ∃ v' o, f x.1 v x.2 = (v', o) := ⟨_, _, rfl⟩
      simp only [hf]
      cases o <;> rfl
    | none => simp only; cases g x.1 x.2 <;> rfl
  · intro l r
    unfold outerJoinWithE
    rw [forEachE_pure (step := outerJoinWithStep l r)]
    · simp only
      refine retainE_pure _ (fun k v s => ?_) c
      unfold outerAsk
      cases b.get k <;> rfl
    · intro m x s
      unfold outerJoinWithStepE outerJoinWithStep
      cases m.get x.1 with
      | some v =>
        obtain ⟨v', o, hf⟩ : ∃ v' o, l x.1 v (some x.2) = (v', o) := ⟨_, _, rfl⟩
        simp only [hf]
        cases o <;> rfl
      | none => rfl

/-- doubles the value, logs the key, keeps odd keys; on its third call it panics, having already written to the value -/
def grump : Nat × Nat × Option Nat → List Nat → Nat × Call Bool × List Nat := fun x log =>
  (2 * x.2.1, if log.length = 2 then .panic else .ret (x.1 % 2 == 1), log ++ [x.1])

/-- `left_join_with` on `{1:10, 2:20, 3:30, 4:40}`: key 1 is kept and doubled, 2 removed, 3 doubled although its call panicked, 4 untouched -/
example : ((leftJoinWithE ⟨[(1, 10), (2, 20), (3, 30), (4, 40)]⟩ ⟨[(2, 0)]⟩ grump []).1.entries,
      (leftJoinWithE ⟨[(1, 10), (2, 20), (3, 30), (4, 40)]⟩ (⟨[(2, 0)]⟩ : BTreeMap Nat Nat) grump []).2) =
    ([(1, 20), (3, 60), (4, 40)], true, [1, 2, 3]) := by decide +kernel

/-- `outer_join_with` visits the keys of `b` first: 2 and 5, then 1, where it panics -/
example : ((outerJoinWithE ⟨[(1, 10), (2, 20), (3, 30)]⟩ ⟨[(2, 0), (5, 7)]⟩ grump fun x log => (.ret (some x.2), log ++ [x.1])) []).1.entries =
      [(1, 20), (3, 30), (5, 7)] ∧
    ((outerJoinWithE ⟨[(1, 10), (2, 20), (3, 30)]⟩ ⟨[(2, 0), (5, 7)]⟩ grump fun x log => (.ret (some x.2), log ++ [x.1])) []).2 =
      (true, [2, 5, 1]) := by decide +kernel

/-- `inner_join_with` interrupted: keys below the panicking one without partner are gone, those above are still there -/
example : ((innerJoinWithE ⟨[(1, 10), (2, 20), (3, 30), (4, 40), (5, 50)]⟩ ⟨[(1, 0), (3, 0), (4, 0)]⟩
      fun x log => grump (x.1, x.2.1, none) log) []).1.entries = [(1, 20), (3, 60), (4, 80), (5, 50)] := by decide +kernel

end BTreeMap
end Verif
