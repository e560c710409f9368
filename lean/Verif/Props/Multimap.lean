import Verif.Model.Multimap
import Verif.Props.VecMap
import Verif.Props.VecSet
/-!
# The multimaps of the examples (C67)

A multimap stands for a relation between keys and values: `Related index k v` — looking up `k` gives a set that contains `v`.
-/
namespace Verif
open Std
variable {K V : Type} [Ord K] [TransOrd K] [Ord V] [TransOrd V]

/-- looking up `k` gives a set that contains `v` -/
def Related (index : VecMap K (VecSet V)) (k : K) (v : V) : Prop := ∃ s, index.get k = some s ∧ s.contains v = true

/-- the pair occurs in the list (up to the orders) -/
def Listed (l : List (K × V)) (k : K) (v : V) : Prop := ∃ e ∈ l, compare e.1 k = .eq ∧ compare e.2 v = .eq

/-- a multimap index in good order: keys ascending, sets ascending and non-empty -/
structure GoodIndex (index : VecMap K (VecSet V)) : Prop where
  asc : AscendingBy Prod.fst index.asSlice
  sets : ∀ k s, (k, s) ∈ index.asSlice → Ascending s.asSlice ∧ s.asSlice ≠ []

theorem unionClosure_eq {a b : VecSet V} (ha : Ascending a.elems) (hb : Ascending b.elems) : unionClosure a b = .ret (a.union b).1 := by
  unfold unionClosure
  rw [VecSet.union_eq ha hb]

theorem combine_good {a b : VecMap K (VecSet V)} (ha : GoodIndex a) (hb : GoodIndex b) :
    a.combineWith b unionClosure = ((a.combineWith b (fun v w => .ret (v.union w).1)).1, .cont) ∧
    GoodIndex (a.combineWith b unionClosure).1 ∧
    ∀ k v, Related (a.combineWith b unionClosure).1 k v ↔ Related a k v ∨ Related b k v := by
  have e1 : a.combineWith b unionClosure = a.combineWith b (fun v w => .ret (v.union w).1) := by
    rw [VecMap.combineWith_pure ha.asc hb.asc, VecMap.combineWith_def, VecMap.outerJoinWith_eq ha.asc hb.asc, VecMap.outerJoin_eq ha.asc hb.asc]
    have hg : ∀ (x : OuterJoinArg K (VecSet V) (VecSet V)) r, VecMap.combineArg unionClosure x = .ret r →
        pureCombine (fun v w => (v.union w).1) x = r := by
      intro x r h
      cases x with
      | left k v => cases h; rfl
      | right k w => cases h; rfl
      | both k v w =>
        simp only [VecMap.combineArg] at h
        have hu : ∀ c, unionClosure v w = .ret c → c = (v.union w).1 := by
          intro c hc
          unfold unionClosure at hc
          split at hc
          · cases hc
          · rename_i q _ _ e; cases hc; rw [e]
        cases hf : unionClosure v w with
        | panic => rw [hf] at h; cases h
        | ret x => rw [hf] at h; cases h; exact congrArg some (hu x hf).symm
    have hn : ∀ x ∈ joinArgs a.entries b.entries, VecMap.combineArg unionClosure x ≠ .panic := by
      intro x hx
      have hx := (mem_joinArgs (a := a.entries) (b := b.entries) ha.asc hb.asc x).1 hx
      cases x with
      | left k v => simp [VecMap.combineArg]
      | right k w => simp [VecMap.combineArg]
      | both k v w =>
        obtain ⟨h1, k', h2, _⟩ := hx
        simp [VecMap.combineArg, unionClosure_eq (ha.sets _ _ h1).1 (hb.sets _ _ h2).1]
    rw [(collect_call hg _).1 hn]
  have e2 := VecMap.combineWith_pure ha.asc hb.asc (fun v w => (v.union w).1)
  have hba : BuiltMap a := C18_every_ascending_is_built a.entries ha.asc
  have hbb : BuiltMap b := C18_every_ascending_is_built b.entries hb.asc
  have hget := fun k => (C26_combine_with a b hba hbb (fun v w => (v.union w).1) k).2
  have hent := C26_combine_entries a b hba hbb (fun v w => (v.union w).1)
  have hasc := (BuiltMap.combineWith hba hbb (fun v w => .ret (v.union w).1)).ascending
  have hu : ∀ {v w : VecSet V}, Ascending v.elems → Ascending w.elems → Ascending (v.union w).1.elems ∧
      (∀ x, Has (v.union w).1.elems x ↔ Has v.elems x ∨ Has w.elems x) := fun hv hw => by
    rw [VecSet.union_eq hv hw]; exact ⟨VecSet.unionList_asc hv hw, VecSet.unionList_has hv hw⟩
  refine ⟨?_, ⟨?_, ?_⟩, ?_⟩
  · rw [e1]; exact Prod.ext rfl (by rw [e2])
  · rw [e1]; exact hasc
  · rw [e1]
    intro k s hs
    rcases (hent k s).1 hs with ⟨h, _⟩ | ⟨h, _⟩ | ⟨v, w, h1, ⟨k', h2, _⟩, rfl⟩
    · exact ha.sets k s h
    · exact hb.sets k s h
    · have hv := ha.sets _ _ h1
      have hw := hb.sets _ _ h2
      refine ⟨(hu hv.1 hw.1).1, fun he => ?_⟩
      match hx : v.elems, hv.2 with
      | [], h => exact h hx
      | x :: l, _ =>
        have := ((hu hv.1 hw.1).2 x).2 (.inl ⟨x, by rw [hx]; simp, cmp_self x⟩)
        obtain ⟨y, hy, _⟩ := this
        have he : (v.union w).1.elems = [] := he
        rw [he] at hy; cases hy
  · rw [e1]
    intro k v
    unfold Related
    rw [hget k]
    have hset : ∀ {m : VecMap K (VecSet V)}, GoodIndex m → ∀ {s}, m.get k = some s → Ascending s.elems := by
      intro m hm s hs
      obtain ⟨k', h, _⟩ := (VecMap.get_iff hm.asc k s).1 hs
      exact (hm.sets _ _ h).1
    cases hga : a.get k with
    | none => cases hgb : b.get k <;> simp
    | some s =>
      cases hgb : b.get k with
      | none => simp
      | some t =>
        have hs := hset ha hga
        have ht := hset hb hgb
        simp only [Option.some.injEq, exists_eq_left']
        rw [VecSet.contains_iff (hu hs ht).1, VecSet.contains_iff hs, VecSet.contains_iff ht, (hu hs ht).2]

theorem single_good (k : K) (v : V) : GoodIndex (VecMap.fromIter [(k, VecSet.single v)]) ∧
    ∀ k' v', Related (VecMap.fromIter [(k, VecSet.single v)]) k' v' ↔ compare k k' = .eq ∧ compare v v' = .eq := by
  have e : VecMap.fromIter [(k, VecSet.single v)] = ⟨[(k, VecSet.single v)]⟩ := by
    have h := AscendingBy.ext (key := Prod.fst) (VecMap.fromIter_asc [(k, VecSet.single v)]) (List.pairwise_singleton _ (k, VecSet.single v))
      (fun k' => (sortDedupByKey_spec (key := Prod.fst) .last [(k, VecSet.single v)]).2 k')
    exact congrArg VecMap.mk h
  have hg : GoodIndex (VecMap.fromIter [(k, VecSet.single v)]) := by
    rw [e]
    refine ⟨List.pairwise_singleton _ _, ?_⟩
    intro k' s h
    simp only [VecMap.asSlice, List.mem_singleton, Prod.mk.injEq] at h
    obtain ⟨rfl, rfl⟩ := h
    exact ⟨List.pairwise_singleton _ _, by simp [VecSet.single, VecSet.asSlice]⟩
  refine ⟨hg, fun k' v' => ?_⟩
  unfold Related
  have : ∀ s, (VecMap.fromIter [(k, VecSet.single v)]).get k' = some s ↔ compare k k' = .eq ∧ s = VecSet.single v := by
    intro s
    rw [VecMap.get_iff hg.asc, e]
    simp [Maps]
    exact ⟨by rintro ⟨_, ⟨rfl, h⟩, h'⟩; exact ⟨h', h⟩, by rintro ⟨h', h⟩; exact ⟨_, ⟨rfl, h⟩, h'⟩⟩
  simp only [this]
  constructor
  · rintro ⟨s, ⟨h1, rfl⟩, h2⟩
    rw [VecSet.contains_iff (a := VecSet.single v) (List.pairwise_singleton _ _)] at h2
    obtain ⟨y, hy, h2⟩ := h2
    simp only [VecSet.single, List.mem_singleton] at hy
    subst hy; exact ⟨h1, h2⟩
  · rintro ⟨h1, h2⟩
    refine ⟨_, ⟨h1, rfl⟩, ?_⟩
    rw [VecSet.contains_iff (a := VecSet.single v) (List.pairwise_singleton _ _)]
    exact ⟨v, by simp [VecSet.single], h2⟩

theorem empty_good : GoodIndex (VecMap.empty : VecMap K (VecSet V)) ∧ ∀ k v, ¬ Related (VecMap.empty : VecMap K (VecSet V)) k v := by
  refine ⟨⟨List.Pairwise.nil, fun k s h => by cases h⟩, fun k v ⟨s, h, _⟩ => ?_⟩
  rw [VecMap.get_iff (a := VecMap.empty) List.Pairwise.nil] at h
  obtain ⟨_, h, _⟩ := h
  cases h

/-- everything the API of `Multimap` can produce -/
inductive BuiltMulti : Multimap K V → Prop
  | empty : BuiltMulti Multimap.empty
  | single (k : K) (v : V) : BuiltMulti (Multimap.single k v)
  | combineWith {a b : Multimap K V} : BuiltMulti a → BuiltMulti b → BuiltMulti (a.combineWith b).1
  | fromIter (l : List (K × V)) : BuiltMulti (Multimap.fromIter l).1

/-- everything the API of `BiMultimap` can produce -/
inductive BuiltBi : BiMultimap K V → Prop
  | empty : BuiltBi BiMultimap.empty
  | single (k : K) (v : V) : BuiltBi (BiMultimap.single k v)
  | combineWith {a b : BiMultimap K V} : BuiltBi a → BuiltBi b → BuiltBi (a.combineWith b).1
  | fromIter (l : List (K × V)) : BuiltBi (BiMultimap.fromIter l).1

theorem listed_cons (e : K × V) (l : List (K × V)) (k : K) (v : V) :
    Listed (e :: l) k v ↔ (compare e.1 k = .eq ∧ compare e.2 v = .eq) ∨ Listed l k v := by simp [Listed]

theorem multi_fromIterGo (l : List (K × V)) : ∀ m : Multimap K V, GoodIndex m.index →
    (m.fromIterGo l).2 = .cont ∧ GoodIndex (m.fromIterGo l).1.index ∧
    ∀ k v, Related (m.fromIterGo l).1.index k v ↔ Related m.index k v ∨ Listed l k v := by
  induction l with
  | nil => intro m hm; exact ⟨rfl, hm, fun k v => by simp [Multimap.fromIterGo, Listed]⟩
  | cons e l ih =>
    intro m hm
    obtain ⟨hs, hr⟩ := single_good e.1 e.2
    obtain ⟨h1, h2, h3⟩ := combine_good hm hs
    have hc : m.combineWith (Multimap.single e.1 e.2) = (⟨(m.index.combineWith (VecMap.fromIter [(e.1, VecSet.single e.2)]) unionClosure).1⟩, .cont) := by
      unfold Multimap.combineWith Multimap.single
      simp only
      rw [h1]
    simp only [Multimap.fromIterGo, hc]
    obtain ⟨i1, i2, i3⟩ := ih ⟨_⟩ h2
    refine ⟨i1, i2, fun k v => ?_⟩
    rw [i3, h3, hr, listed_cons, or_assoc]

theorem bi_combine {a b : BiMultimap K V} (ha : GoodIndex a.fwd) (ha' : GoodIndex a.bwd) (hb : GoodIndex b.fwd) (hb' : GoodIndex b.bwd) :
    a.combineWith b = (⟨(a.fwd.combineWith b.fwd unionClosure).1, (a.bwd.combineWith b.bwd unionClosure).1⟩, .cont) := by
  unfold BiMultimap.combineWith
  rw [(combine_good ha hb).1, (combine_good ha' hb').1]

theorem bi_fromIterGo (l : List (K × V)) : ∀ m : BiMultimap K V, GoodIndex m.fwd → GoodIndex m.bwd →
    (m.fromIterGo l).2 = .cont ∧ GoodIndex (m.fromIterGo l).1.fwd ∧ GoodIndex (m.fromIterGo l).1.bwd ∧
    (∀ k v, Related (m.fromIterGo l).1.fwd k v ↔ Related m.fwd k v ∨ Listed l k v) ∧
    (∀ k v, Related (m.fromIterGo l).1.bwd v k ↔ Related m.bwd v k ∨ Listed l k v) := by
  induction l with
  | nil => intro m hm hm'; exact ⟨rfl, hm, hm', fun k v => by simp [BiMultimap.fromIterGo, Listed], fun k v => by simp [BiMultimap.fromIterGo, Listed]⟩
  | cons e l ih =>
    intro m hm hm'
    obtain ⟨hs, hr⟩ := single_good e.1 e.2
    obtain ⟨hs', hr'⟩ := single_good e.2 e.1
    obtain ⟨-, h2, h3⟩ := combine_good hm hs
    obtain ⟨-, h2', h3'⟩ := combine_good hm' hs'
    have hc := bi_combine (b := BiMultimap.single e.1 e.2) hm hm' hs hs'
    simp only [BiMultimap.fromIterGo, hc]
    obtain ⟨i1, i2, i2', i3, i3'⟩ := ih ⟨(m.fwd.combineWith (BiMultimap.single e.1 e.2).fwd unionClosure).1, (m.bwd.combineWith (BiMultimap.single e.1 e.2).bwd unionClosure).1⟩ h2 h2'
    refine ⟨i1, i2, i2', fun k v => ?_, fun k v => ?_⟩
    · rw [i3]
      show Related (m.fwd.combineWith (VecMap.fromIter [(e.1, VecSet.single e.2)]) unionClosure).1 k v ∨ _ ↔ _
      rw [h3, hr, listed_cons, or_assoc]
    · rw [i3']
      show Related (m.bwd.combineWith (VecMap.fromIter [(e.2, VecSet.single e.1)]) unionClosure).1 v k ∨ _ ↔ _
      rw [h3', hr', listed_cons, or_assoc, and_comm (a := compare e.2 v = .eq)]

theorem multi_good {m : Multimap K V} (h : BuiltMulti m) : GoodIndex m.index := by
  induction h with
  | empty => exact empty_good.1
  | single k v => exact (single_good k v).1
  | combineWith _ _ iha ihb => exact (combine_good iha ihb).2.1
  | fromIter l => exact (multi_fromIterGo l _ empty_good.1).2.1

theorem bi_good {m : BiMultimap K V} (h : BuiltBi m) : (GoodIndex m.fwd ∧ GoodIndex m.bwd) ∧ ∀ k v, Related m.fwd k v ↔ Related m.bwd v k := by
  induction h with
  | empty => exact ⟨⟨empty_good.1, empty_good.1⟩, fun k v => ⟨fun h => absurd h (empty_good.2 _ _), fun h => absurd h (empty_good.2 _ _)⟩⟩
  | single k v =>
    refine ⟨⟨(single_good k v).1, (single_good v k).1⟩, fun k' v' => ?_⟩
    show Related (VecMap.fromIter [(k, VecSet.single v)]) k' v' ↔ Related (VecMap.fromIter [(v, VecSet.single k)]) v' k'
    rw [(single_good k v).2, (single_good v k).2, and_comm]
  | combineWith _ _ iha ihb =>
    obtain ⟨⟨a1, a2⟩, a3⟩ := iha
    obtain ⟨⟨b1, b2⟩, b3⟩ := ihb
    rw [bi_combine a1 a2 b1 b2]
    refine ⟨⟨(combine_good a1 b1).2.1, (combine_good a2 b2).2.1⟩, fun k v => ?_⟩
    simp only
    rw [(combine_good a1 b1).2.2, (combine_good a2 b2).2.2, a3, b3]
  | fromIter l =>
    obtain ⟨-, h2, h3, h4, h5⟩ := bi_fromIterGo l BiMultimap.empty empty_good.1 empty_good.1
    refine ⟨⟨h2, h3⟩, fun k v => ?_⟩
    unfold BiMultimap.fromIter
    rw [h4, h5]
    simp only [BiMultimap.empty, iff_false_intro (empty_good.2 _ _)]

/-! ## C67 -/

/-- **C67.** Collecting pairs into a multimap never panics and relates exactly the listed pairs; no key has an empty set. -/
theorem C67_multimap_collect (l : List (K × V)) :
    (Multimap.fromIter l).2 = .cont ∧
    (∀ k v, Related (Multimap.fromIter l).1.index k v ↔ Listed l k v) ∧
    (∀ k, (Multimap.fromIter l).1.index.get k = none ↔ ∀ v, ¬ Listed l k v) := by
  obtain ⟨h1, h2, h3⟩ := multi_fromIterGo l Multimap.empty empty_good.1
  have h3 : ∀ k v, Related (Multimap.fromIter l).1.index k v ↔ Listed l k v := by
    intro k v
    unfold Multimap.fromIter
    rw [h3]
    simp [Multimap.empty, iff_false_intro (empty_good.2 _ _)]
  refine ⟨h1, h3, fun k => ?_⟩
  simp only [← h3]
  constructor
  · rintro h v ⟨s, hs, _⟩; rw [h] at hs; cases hs
  · intro h
    cases hg : (Multimap.fromIter l).1.index.get k with
    | none => rfl
    | some s =>
      obtain ⟨k', hm, _⟩ := (VecMap.get_iff h2.asc k s).1 hg
      have hs := h2.sets _ _ hm
      match hx : s.elems, hs.2 with
      | [], hn => exact absurd hx hn
      | x :: xs, _ =>
        refine absurd ⟨s, hg, ?_⟩ (h x)
        rw [VecSet.contains_iff hs.1, hx]
        exact ⟨x, by simp, cmp_self x⟩

/-- **C67.** Combining any two multimaps never panics and gives the union of the relations. -/
theorem C67_multimap_combine (a b : Multimap K V) (ha : BuiltMulti a) (hb : BuiltMulti b) :
    (a.combineWith b).2 = .cont ∧ ∀ k v, Related (a.combineWith b).1.index k v ↔ Related a.index k v ∨ Related b.index k v := by
  obtain ⟨h1, _, h3⟩ := combine_good (multi_good ha) (multi_good hb)
  exact ⟨by unfold Multimap.combineWith; rw [h1], h3⟩

/-- **C67.** In every bidirectional multimap, however it was built, the two indices describe the same relation. -/
theorem C67_bimultimap_inverse (m : BiMultimap K V) (h : BuiltBi m) (k : K) (v : V) : Related m.fwd k v ↔ Related m.bwd v k :=
  (bi_good h).2 k v

/-- **C67.** Collecting and combining bidirectional multimaps never panics, and relates what it should. -/
theorem C67_bimultimap_ops (l : List (K × V)) (a b : BiMultimap K V) (ha : BuiltBi a) (hb : BuiltBi b) :
    (BiMultimap.fromIter l).2 = .cont ∧ (a.combineWith b).2 = .cont ∧
    (∀ k v, Related (BiMultimap.fromIter l).1.fwd k v ↔ Listed l k v) ∧
    (∀ k v, Related (a.combineWith b).1.fwd k v ↔ Related a.fwd k v ∨ Related b.fwd k v) := by
  obtain ⟨h1, _, _, h4, _⟩ := bi_fromIterGo l BiMultimap.empty empty_good.1 empty_good.1
  obtain ⟨⟨a1, a2⟩, _⟩ := bi_good ha
  obtain ⟨⟨b1, b2⟩, _⟩ := bi_good hb
  refine ⟨h1, by rw [bi_combine a1 a2 b1 b2], fun k v => ?_, fun k v => ?_⟩
  · unfold BiMultimap.fromIter
    rw [h4]
    simp [BiMultimap.empty, iff_false_intro (empty_good.2 _ _)]
  · rw [bi_combine a1 a2 b1 b2]; exact (combine_good a1 b1).2.2 k v

/-- the multimap of the example: 0 is related to 0 and 1, and 1 to 0 -/
example : Related (Multimap.fromIter [(0, 0), (0, 1), (1, 0)]).1.index 0 1 ∧ ¬ Related (Multimap.fromIter [(0, 0), (0, 1), (1, 0)]).1.index 1 1 ∧
    Related (BiMultimap.fromIter [(0, 0), (0, 1), (1, 0)]).1.bwd 0 1 := by
  refine ⟨?_, ?_, ?_⟩
  · rw [(C67_multimap_collect _).2.1]; exact ⟨(0, 1), by simp, rfl, rfl⟩
  · rw [(C67_multimap_collect _).2.1]
    rintro ⟨e, he, h1, h2⟩
    simp only [List.mem_cons, List.not_mem_nil, or_false] at he
    rcases he with rfl | rfl | rfl <;> revert h1 h2 <;> decide
  · rw [← C67_bimultimap_inverse _ (.fromIter _), (C67_bimultimap_ops _ _ _ .empty .empty).2.2.1]
    exact ⟨(1, 0), by simp, rfl, rfl⟩

end Verif
