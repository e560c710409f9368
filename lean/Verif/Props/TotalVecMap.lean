import Verif.Props.VecMap
import Verif.Props.TotalVecSet
import Verif.Lemmas.TotalMap
/-!
# Properties of `TotalVecMap` (C35–C38)

`==` of values is only assumed to be an equivalence; where `==` is identity (`LawfulBEq`) the pointwise statements become equations.
-/
namespace Verif
open Std VecMap TotalVecMap
variable {K : Type} [Ord K] [TransOrd K] {V W : Type}

/-! ## C36 -/

/-- **C36.** Whatever operations produced it, the stored keys are strictly ascending and no stored value equals the default; so the
stored keys are exactly those whose value differs from the default. -/
theorem C36_no_default_stored [BEq V] [ReflBEq V] (m : TotalVecMap K V) (h : BuiltTotalMap m) :
    AscendingBy Prod.fst m.nonDefaultMappings.asSlice ∧
    (∀ k v, (k, v) ∈ m.nonDefaultMappings.asSlice → (v == m.default) = false) ∧
    (∀ k, HasKey m.nonDefaultMappings.asSlice k ↔ (m.index k == m.default) = false) ∧
    (∀ k v, Maps m.nonDefaultMappings.asSlice k v → m.index k = v) := by
  obtain ⟨h1, h2⟩ := h.inv
  refine ⟨h1, fun k v hv => h2 (k, v) hv, fun k => ?_, fun k v hv => index_of_maps h1 hv⟩
  by_cases hk : HasKey m.map.entries k
  · obtain ⟨v, hv⟩ := hk
    rw [index_of_maps h1 hv]
    obtain ⟨k', hm, _⟩ := id hv
    exact ⟨fun _ => h2 _ hm, fun _ => ⟨v, hv⟩⟩
  · rw [index_of_not h1 hk]
    exact ⟨fun h => absurd h hk, fun h => by simp at h⟩

/-- a reachable map with a stored entry, built by operations that had to drop a default -/
example : ∃ m : TotalVecMap Nat Nat, BuiltTotalMap m ∧ m.map.entries = [(1, 5)] ∧ m.default = 7 :=
  ⟨TotalVecMap.new (VecMap.fromBTreeMap [(1, 5), (2, 7)]) 7,
    .new (.fromBTreeMap _ (by simp [AscendingBy]; decide)) 7, by rw [new_entries]; rfl, rfl⟩

/-! ## C35 -/

/-- **C35.** `combine_ref`: if it returns, every key (stored or not) maps to (a value `==` to) the combination of the two values, and the
default is the combination of the defaults. It fails to return exactly when the function panics on the defaults or on the values of
some stored key. -/
theorem C35_combine_ref [BEq V] [EquivBEq V] (a b : TotalVecMap K V) (ha : BuiltTotalMap a) (hb : BuiltTotalMap b)
    (f : V → V → Call V) :
    (∀ r, a.combineRef b f = .ret r → f a.default b.default = .ret r.default ∧
      ∀ k, ∃ v, f (a.index k) (b.index k) = .ret v ∧ (r.index k == v) = true) ∧
    (a.combineRef b f = .panic ↔ f a.default b.default = .panic ∨
      ∃ k, (HasKey a.nonDefaultMappings.asSlice k ∨ HasKey b.nonDefaultMappings.asSlice k) ∧ f (a.index k) (b.index k) = .panic) := by
  have hA := ha.inv.1
  have hB := hb.inv.1
  constructor
  · intro r hr
    rcases combineRef_spec hA hB f with ⟨h1, -⟩ | ⟨r', h1, h2, h3, h4⟩
    · rw [h1] at hr; cases hr
    · rw [h1] at hr; cases hr
      refine ⟨h2, fun k => ?_⟩
      obtain ⟨v, hv, h5⟩ := h4 k
      refine ⟨v, hv, ?_⟩
      by_cases hk : HasKey r.map.entries k
      · obtain ⟨x, hx⟩ := hk
        rw [index_of_maps h3 hx, ((h5 x).1 hx).2.1]; exact BEq.rfl
      · rw [index_of_not h3 hk]
        cases hd : v == r.default
        · by_cases hab : HasKey a.map.entries k ∨ HasKey b.map.entries k
          · exact absurd ⟨v, (h5 v).2 ⟨hab, rfl, hd⟩⟩ hk
          · rw [not_or] at hab
            rw [index_of_not hA hab.1, index_of_not hB hab.2, h2] at hv
            cases hv; simp at hd
        · exact BEq.symm hd
  · rcases combineRef_spec hA hB f with ⟨h1, h2⟩ | ⟨r', h1, h2, h3, h4⟩
    · simp only [h1, true_iff]; exact h2
    · constructor
      · intro h; rw [h1] at h; cases h
      · rintro (h | ⟨k, -, h⟩)
        · rw [h2] at h; cases h
        · obtain ⟨v, hv, -⟩ := h4 k; rw [hv] at h; cases h

/-- **C35.** `map_values` -/
theorem C35_map_values [BEq V] [BEq W] [EquivBEq W] (m : TotalVecMap K V) (hm : BuiltTotalMap m) (f : V → Call W) :
    (∀ r, m.mapValues f = .ret r → f m.default = .ret r.default ∧
      ∀ k, ∃ w, f (m.index k) = .ret w ∧ (r.index k == w) = true) ∧
    (m.mapValues f = .panic ↔ f m.default = .panic ∨ ∃ k, HasKey m.nonDefaultMappings.asSlice k ∧ f (m.index k) = .panic) := by
  have hM := hm.inv.1
  constructor
  · intro r hr
    rcases totalMapValues_spec hM f with ⟨h1, -⟩ | ⟨r', h1, h2, h3, h4⟩
    · rw [h1] at hr; cases hr
    · rw [h1] at hr; cases hr
      refine ⟨h2, fun k => ?_⟩
      obtain ⟨v, hv, h5⟩ := h4 k
      refine ⟨v, hv, ?_⟩
      by_cases hk : HasKey r.map.entries k
      · obtain ⟨x, hx⟩ := hk
        rw [index_of_maps h3 hx, ((h5 x).1 hx).2.1]; exact BEq.rfl
      · rw [index_of_not h3 hk]
        cases hd : v == r.default
        · by_cases hab : HasKey m.map.entries k
          · exact absurd ⟨v, (h5 v).2 ⟨hab, rfl, hd⟩⟩ hk
          · rw [index_of_not hM hab, h2] at hv
            cases hv; simp at hd
        · exact BEq.symm hd
  · rcases totalMapValues_spec hM f with ⟨h1, h2⟩ | ⟨r', h1, h2, h3, h4⟩
    · simp only [h1, true_iff]; exact h2
    · constructor
      · intro h; rw [h1] at h; cases h
      · rintro (h | ⟨k, -, h⟩)
        · rw [h2] at h; cases h
        · obtain ⟨v, hv, -⟩ := h4 k; rw [hv] at h; cases h

/-- **C35.** the arithmetic operators and `supremum`/`infimum` are pointwise (with `==` on values being identity) -/
theorem C35_operators [BEq V] [LawfulBEq V] [RustOps V] [Ord V] (a b r : TotalVecMap K V) (ha : BuiltTotalMap a) (hb : BuiltTotalMap b)
    (k : K) :
    (a.add b = .ret r → RustOps.add (a.index k) (b.index k) = .ret (r.index k)) ∧
    (a.sub b = .ret r → RustOps.sub (a.index k) (b.index k) = .ret (r.index k)) ∧
    (a.mul b = .ret r → RustOps.mul (a.index k) (b.index k) = .ret (r.index k)) ∧
    (a.div b = .ret r → RustOps.div (a.index k) (b.index k) = .ret (r.index k)) ∧
    (a.neg = .ret r → RustOps.neg (a.index k) = .ret (r.index k)) ∧
    (a.supremum b = .ret r → r.index k = (if compare (a.index k) (b.index k) = .gt then a.index k else b.index k)) ∧
    (a.infimum b = .ret r → r.index k = (if compare (a.index k) (b.index k) = .gt then b.index k else a.index k)) := by
  have key : ∀ f : V → V → Call V, a.combineRef b f = .ret r → f (a.index k) (b.index k) = .ret (r.index k) := by
    intro f h
    obtain ⟨v, h1, h2⟩ := ((C35_combine_ref a b ha hb f).1 r h).2 k
    rw [h1, eq_of_beq h2]
  refine ⟨key _, key _, key _, key _, ?_, ?_, ?_⟩
  · intro h
    obtain ⟨v, h1, h2⟩ := ((C35_map_values a ha _).1 r h).2 k
    rw [h1, eq_of_beq h2]
  · intro h; have := key _ h; injection this with h; exact h.symm
  · intro h; have := key _ h; injection this with h; exact h.symm

/-- **C35.** `Index` on freshly made maps: `new` is the given map with the default elsewhere; `constant` is constant. -/
theorem C35_new_constant [BEq V] [EquivBEq V] (m : VecMap K V) (hm : BuiltMap m) (d : V) (k : K) :
    ((TotalVecMap.new m d).index k == (m.get k).getD d) = true ∧ (TotalVecMap.constant d : TotalVecMap K V).index k = d := by
  refine ⟨?_, rfl⟩
  have hi := (BuiltTotalMap.new hm d).inv
  have hm := hm.ascending
  cases hg : m.get k with
  | none =>
    rw [get_none_iff hm] at hg
    rw [index_of_not hi.1]
    · exact BEq.rfl
    · rintro ⟨v, k', h, e⟩
      rw [new_entries] at h
      exact hg ⟨v, k', (List.mem_filter.1 h).1, e⟩
  | some v =>
    rw [get_iff hm] at hg
    obtain ⟨k', h, e⟩ := hg
    cases hd : v == d
    · rw [index_of_maps hi.1 (v := v) ⟨k', by rw [new_entries]; exact List.mem_filter.2 ⟨h, by simp [bne, hd]⟩, e⟩]
      exact BEq.rfl
    · rw [index_of_not hi.1]
      · exact BEq.symm hd
      · rintro ⟨v2, k2, h2, e2⟩
        rw [new_entries] at h2
        have h3 := List.mem_filter.1 h2
        have := Maps.unique hm ⟨k', h, e⟩ ⟨k2, h3.1, e2⟩
        subst this
        simp [bne, hd] at h3

/-- division really can panic: integer division by a zero default -/
example : ∃ (a b : TotalVecMap Nat Nat) (f : Nat → Nat → Call Nat), BuiltTotalMap a ∧ BuiltTotalMap b ∧ a.combineRef b f = .panic ∧
    ∃ c, BuiltTotalMap c ∧ ∃ r, a.combineRef c f = .ret r := by
  refine ⟨.constant 6, .constant 0, fun x y => if y = 0 then .panic else .ret (x / y), .constant _, .constant _, rfl,
    .constant 2, .constant _, ?_⟩
  rcases hr : (TotalVecMap.constant 6 : TotalVecMap Nat Nat).combineRef (.constant 2)
    (fun x y => if y = 0 then .panic else .ret (x / y)) with r | _
  · exact ⟨_, rfl⟩
  · have := ((C35_combine_ref (K := Nat) (.constant 6) (.constant 2) (.constant _) (.constant _) _).2.1 hr)
    simp [TotalVecMap.constant, TotalVecMap.nonDefaultMappings, VecMap.empty, VecMap.asSlice, HasKey, Maps] at this

/-! ## C37

Full claim: over an infinite key type, `a.eq b = true ↔ ∀ k, (a.index k == b.index k) = true`. FALSE of the code: `PartialEq` (and `Hash`)
look at the stored mappings only and ignore the default. -/

/-- **C37 (partial).** if the defaults are equal, `==` is extensional — over every key type. Missing: maps with different defaults, for
which `==` is wrong (`C37_counterexample`). -/
theorem C37_eq_extensional_partial [BEq V] [EquivBEq V] (a b : TotalVecMap K V) (ha : BuiltTotalMap a) (hb : BuiltTotalMap b)
    (hd : (a.default == b.default) = true) : a.eq b = true ↔ ∀ k, (a.index k == b.index k) = true := by
  obtain ⟨hA, nA⟩ := ha.inv
  obtain ⟨hB, nB⟩ := hb.inv
  have cA := C36_no_default_stored a ha
  have cB := C36_no_default_stored b hb
  unfold TotalVecMap.eq
  have bm : ∀ m : VecMap K V, AscendingBy Prod.fst m.entries → BuiltMap m := fun m h => .fromBTreeMap m.entries h
  rw [C58_eq_iff_same_bindings a.map b.map (bm _ hA) (bm _ hB)]
  constructor
  · rintro ⟨h1, h2⟩ k
    by_cases hk : HasKey a.map.entries k
    · obtain ⟨w, hw⟩ := (h1 k).1 hk
      obtain ⟨v, hv⟩ := hk
      rw [index_of_maps hA hv, index_of_maps hB hw]
      exact h2 k v w hv hw
    · have hk' : ¬ HasKey b.map.entries k := fun h => hk ((h1 k).2 h)
      rw [index_of_not hA hk, index_of_not hB hk']; exact hd
  · intro h
    refine ⟨fun k => ?_, fun k v w hv hw => ?_⟩
    · refine (cA.2.2.1 k).trans (Iff.trans ?_ (cB.2.2.1 k).symm)
      rw [BEq.congr_left (h k), BEq.congr_right hd]
    · have := h k
      rwa [index_of_maps hA hv, index_of_maps hB hw] at this

/-- **C37.** at least `Hash` agrees with `==`: maps that are `==` have equal hashes (if equal keys with equal values have) -/
theorem C37_hash [BEq V] {H : Type _} (h : K × V → H) (hh : ∀ k v k' v', compare k k' = .eq → (v == v') = true → h (k, v) = h (k', v'))
    (a b : TotalVecMap K V) (e : a.eq b = true) : a.hashFeed h = b.hashFeed h := C58_hash h hh a.map b.map e

/-- **C37.** the order, in contrast, is exact: over an infinite key type `cmp` answers Equal iff all values are equal; it is a total order
inconsistent with `==` -/
theorem C37_cmp_extensional [Ord V] [TransOrd V] [BEq V] [LawfulBEqOrd V] [EquivBEq V] (hK : InfiniteOrd K) (a b : TotalVecMap K V)
    (ha : BuiltTotalMap a) (hb : BuiltTotalMap b) : a.cmp b = .eq ↔ ∀ k, compare (a.index k) (b.index k) = .eq := by
  have hsame : a.map.cmp b.map = .eq ↔ a.map.eq b.map = true := by
    rw [C58_cmp_total_order.2.2.2]
    simp only [VecMap.eq, VecMap.asSlice, Bool.and_eq_true, beq_iff_eq, List.all_eq_true, LawfulBEqOrd.compare_eq_iff_beq (α := V)]
  unfold TotalVecMap.cmp
  rw [Ordering.then_eq_eq, hsame]
  constructor
  · rintro ⟨h1, h2⟩ k
    rw [LawfulBEqOrd.compare_eq_iff_beq] at h2 ⊢
    exact (C37_eq_extensional_partial a b ha hb h2).1 h1 k
  · intro h
    have hd : compare a.default b.default = .eq := by
      obtain ⟨k, hk⟩ := hK (a.map.entries.map Prod.fst ++ b.map.entries.map Prod.fst)
      have n1 : ¬ HasKey a.map.entries k := by
        rw [hasKey_iff_has]; rintro ⟨y, hy, e⟩; exact hk ⟨y, by simp only [List.mem_append]; exact .inl hy, e⟩
      have n2 : ¬ HasKey b.map.entries k := by
        rw [hasKey_iff_has]; rintro ⟨y, hy, e⟩; exact hk ⟨y, by simp only [List.mem_append]; exact .inr hy, e⟩
      have := h k
      rwa [index_of_not ha.inv.1 n1, index_of_not hb.inv.1 n2] at this
    refine ⟨?_, hd⟩
    rw [LawfulBEqOrd.compare_eq_iff_beq] at hd
    refine (C37_eq_extensional_partial a b ha hb hd).2 fun k => ?_
    rw [← LawfulBEqOrd.compare_eq_iff_beq]; exact h k

/-- **C37.** `==` calls all constant maps equal, although they differ everywhere and compare as different -/
theorem C37_counterexample : ∃ a b : TotalVecMap Nat Nat, BuiltTotalMap a ∧ BuiltTotalMap b ∧ a.eq b = true ∧
    (∀ k, a.index k ≠ b.index k) ∧ a.cmp b ≠ .eq :=
  ⟨.constant 1, .constant 2, .constant 1, .constant 2, rfl, fun _ => by show (1 : Nat) ≠ 2; decide, by decide⟩

/-- **C37.** serialising and reading back gives the identical map -/
theorem C37_serde_roundtrip [BEq V] {E : Type} (m : TotalVecMap K V) (hm : BuiltTotalMap m) :
    TotalVecMap.deserialize (E := E) (m.serialize.1.map .ok) (.ok m.serialize.2) = .ok m := by
  obtain ⟨h1, h2⟩ := hm.inv
  unfold TotalVecMap.deserialize
  rw [show m.serialize.1 = m.map.serialize from rfl, C28_roundtrip m.map (.fromBTreeMap m.map.entries h1)]
  simp only [Except.ok.injEq]
  have : (TotalVecMap.new m.map m.default).map.entries = m.map.entries := by
    rw [new_entries, List.filter_eq_self]
    intro e he; simp [bne, h2 e he]
  obtain ⟨⟨l⟩, d⟩ := m
  simp only [TotalVecMap.serialize, TotalVecMap.new] at this ⊢
  rw [TotalVecMap.mk.injEq]
  refine ⟨?_, rfl⟩
  cases hh : ((⟨l⟩ : VecMap K V).retain (fun _ e => .ret ((), e.2 != d)) ()).1 with
  | mk l' => rw [hh] at this; simp only at this; rw [this]

/-- **C37.** reading a total map: a sequence of entries and a default give the map whose values are those of the entries (the first of a repeated
key) and elsewhere the default; the first error among the entries, or else that of the default, is reported -/
theorem C37_deserialize [BEq V] [EquivBEq V] {E : Type} (l : List (K × V)) (d : V) (e : E) :
    (∃ m, TotalVecMap.deserialize (E := E) (l.map .ok) (.ok d) = .ok m ∧ BuiltTotalMap m ∧ m.default = d ∧
      (∀ before k v after, l = before ++ (k, v) :: after → ¬ HasKey before k → (m.index k == v) = true) ∧
      ∀ k, ¬ HasKey l k → (m.index k == d) = true) ∧
    (∀ rest flag, TotalVecMap.deserialize (l.map .ok ++ .error e :: rest) flag = .error e) ∧
    TotalVecMap.deserialize (l.map .ok) (.error e) = .error e := by
  obtain ⟨⟨m, h1, h2, h3⟩, h4⟩ := C28_any_sequence (E := E) l
  refine ⟨⟨.new m d, ?_, .new h2 d, rfl, ?_, ?_⟩, ?_, ?_⟩
  · simp only [TotalVecMap.deserialize, h1]
  · intro before k v after hl hk
    have := (h3 k v).2 ⟨before, k, after, hl, compare_self, hk⟩
    have h := (C35_new_constant m h2 d k).1
    rwa [this] at h
  · intro k hk
    have h := (C35_new_constant m h2 d k).1
    cases hg : m.get k with
    | none => rwa [hg] at h
    | some v =>
      obtain ⟨before, k', after, rfl, hc, _⟩ := (h3 k v).1 hg
      exact absurd ⟨v, k', by simp, hc⟩ hk
  · intro rest flag
    simp only [TotalVecMap.deserialize, h4]
  · simp only [TotalVecMap.deserialize, h1]

/-! ## C38 -/

section lattice
variable [Ord V] [TransOrd V] [BEq V] [LawfulBEqOrd V] [EquivBEq V]

/-- `supremum`/`infimum` always return -/
theorem sup_inf_total (a b : TotalVecMap K V) (ha : BuiltTotalMap a) (hb : BuiltTotalMap b) :
    (∃ r, a.supremum b = .ret r) ∧ ∃ r, a.infimum b = .ret r := by
  constructor
  · cases h : a.supremum b with
    | ret r => exact ⟨r, rfl⟩
    | panic => rcases (C35_combine_ref a b ha hb _).2.1 h with h | ⟨_, _, h⟩ <;> cases h
  · cases h : a.infimum b with
    | ret r => exact ⟨r, rfl⟩
    | panic => rcases (C35_combine_ref a b ha hb _).2.1 h with h | ⟨_, _, h⟩ <;> cases h

/-- what the two operations store: values equal (in the order) to the pointwise maximum and minimum, and likewise for the default -/
theorem sup_inf_index {a b r : TotalVecMap K V} (ha : BuiltTotalMap a) (hb : BuiltTotalMap b) :
    (a.supremum b = .ret r → BuiltTotalMap r ∧ compare r.default (rustMax a.default b.default) = .eq ∧
      ∀ k, compare (r.index k) (rustMax (a.index k) (b.index k)) = .eq) ∧
    (a.infimum b = .ret r → BuiltTotalMap r ∧ compare r.default (rustMin a.default b.default) = .eq ∧
      ∀ k, compare (r.index k) (rustMin (a.index k) (b.index k)) = .eq) := by
  have key : ∀ g : V → V → V, a.combineRef b (fun x y => .ret (g x y)) = .ret r →
      BuiltTotalMap r ∧ compare r.default (g a.default b.default) = .eq ∧
        ∀ k, compare (r.index k) (g (a.index k) (b.index k)) = .eq := by
    intro g h
    obtain ⟨h1, h2⟩ := (C35_combine_ref a b ha hb _).1 r h
    refine ⟨.combineRef ha hb _ h, ?_, fun k => ?_⟩
    · rw [Call.ret.inj h1]; exact cmp_self _
    · obtain ⟨v, e, h3⟩ := h2 k
      cases e
      exact LawfulBEqOrd.compare_eq_iff_beq.2 h3
  exact ⟨key _, key _⟩

/-- two total maps with equal defaults and equal values everywhere compare as Equal -/
theorem cmp_of_pointwise {a b : TotalVecMap K V} (ha : BuiltTotalMap a) (hb : BuiltTotalMap b)
    (hd : compare a.default b.default = .eq) (h : ∀ k, compare (a.index k) (b.index k) = .eq) : a.cmp b = .eq ∧ a.eq b = true := by
  have he : a.eq b = true := by
    refine (C37_eq_extensional_partial a b ha hb (LawfulBEqOrd.compare_eq_iff_beq.1 hd)).2 fun k => ?_
    rw [← LawfulBEqOrd.compare_eq_iff_beq]; exact h k
  refine ⟨?_, he⟩
  unfold TotalVecMap.cmp
  rw [Ordering.then_eq_eq]
  refine ⟨?_, hd⟩
  rw [C58_cmp_total_order.2.2.2]
  simpa only [TotalVecMap.eq, VecMap.eq, VecMap.asSlice, Bool.and_eq_true, beq_iff_eq, List.all_eq_true,
    ← LawfulBEqOrd.compare_eq_iff_beq (α := V)] using he

omit [BEq V] [LawfulBEqOrd V] [EquivBEq V] in
/-- `max`/`min` of values respect equality in the order and satisfy the lattice laws up to it -/
theorem rust_max_min_laws (x y z : V) :
    compare (rustMax x y) (rustMax y x) = .eq ∧ compare (rustMin x y) (rustMin y x) = .eq ∧
    compare (rustMax (rustMax x y) z) (rustMax x (rustMax y z)) = .eq ∧
    compare (rustMin (rustMin x y) z) (rustMin x (rustMin y z)) = .eq ∧
    compare (rustMax x x) x = .eq ∧ compare (rustMin x x) x = .eq ∧
    compare (rustMax x (rustMin x y)) x = .eq ∧ compare (rustMin x (rustMax x y)) x = .eq := by
  have lle : ∀ {p q r : V}, compare p q ≠ .gt → compare q r ≠ .gt → compare p r ≠ .gt := by
    intro p q r h1 h2 h3
    cases h : compare p q with
    | gt => exact h1 h
    | eq => rw [cmp_congr_left h] at h3; exact h2 h3
    | lt =>
      cases h' : compare q r with
      | gt => exact h2 h'
      | eq => rw [← cmp_congr_right h', h] at h3; cases h3
      | lt => rw [cmp_lt_trans h h'] at h3; cases h3
  have refl : ∀ p : V, compare p p ≠ .gt := fun p => by rw [cmp_self]; simp
  have anti : ∀ {p q : V}, compare p q ≠ .gt → compare q p ≠ .gt → compare p q = .eq := by
    intro p q h1 h2
    cases h : compare p q with
    | gt => exact absurd h h1
    | eq => rfl
    | lt => exact absurd (cmp_gt_iff.2 h) h2
  have u1 : ∀ p q : V, compare p (rustMax p q) ≠ .gt := by
    intro p q; unfold rustMax; split
    · exact refl p
    · assumption
  have u2 : ∀ p q : V, compare q (rustMax p q) ≠ .gt := by
    intro p q; unfold rustMax; split
    · rename_i h; rw [cmp_gt_iff.1 h]; simp
    · exact refl q
  have u3 : ∀ {p q c : V}, compare p c ≠ .gt → compare q c ≠ .gt → compare (rustMax p q) c ≠ .gt := by
    intro p q c h1 h2; unfold rustMax; split <;> assumption
  have l1 : ∀ p q : V, compare (rustMin p q) p ≠ .gt := by
    intro p q; unfold rustMin; split
    · rename_i h; rw [cmp_gt_iff.1 h]; simp
    · exact refl p
  have l2 : ∀ p q : V, compare (rustMin p q) q ≠ .gt := by
    intro p q; unfold rustMin; split
    · exact refl q
    · assumption
  have l3 : ∀ {p q c : V}, compare c p ≠ .gt → compare c q ≠ .gt → compare c (rustMin p q) ≠ .gt := by
    intro p q c h1 h2; unfold rustMin; split <;> assumption
  refine ⟨anti (u3 (u2 _ _) (u1 _ _)) (u3 (u2 _ _) (u1 _ _)), anti (l3 (l2 _ _) (l1 _ _)) (l3 (l2 _ _) (l1 _ _)), ?_, ?_,
    anti (u3 (refl _) (refl _)) (u1 _ _), anti (l1 _ _) (l3 (refl _) (refl _)),
    anti (u3 (refl _) (l1 _ _)) (u1 _ _), anti (l1 _ _) (l3 (refl _) (u1 _ _))⟩
  · exact anti (u3 (u3 (u1 _ _) (lle (u1 _ _) (u2 _ _))) (lle (u2 _ _) (u2 _ _)))
      (u3 (lle (u1 _ _) (u1 _ _)) (u3 (lle (u2 _ _) (u1 _ _)) (u2 _ _)))
  · exact anti (l3 (lle (l1 _ _) (l1 _ _)) (l3 (lle (l1 _ _) (l2 _ _)) (l2 _ _)))
      (l3 (l3 (l1 _ _) (lle (l2 _ _) (l1 _ _))) (lle (l2 _ _) (l2 _ _)))

omit [BEq V] [LawfulBEqOrd V] [EquivBEq V] in
theorem rustMax_congr {x x' y y' : V} (hx : compare x x' = .eq) (hy : compare y y' = .eq) :
    compare (rustMax x y) (rustMax x' y') = .eq := by
  unfold rustMax
  rw [cmp_congr_left hx, cmp_congr_right hy]
  split <;> assumption
omit [BEq V] [LawfulBEqOrd V] [EquivBEq V] in
theorem rustMin_congr {x x' y y' : V} (hx : compare x x' = .eq) (hy : compare y y' = .eq) :
    compare (rustMin x y) (rustMin x' y') = .eq := by
  unfold rustMin
  rw [cmp_congr_left hx, cmp_congr_right hy]
  split <;> assumption

/-- **C38.** `supremum` and `infimum` return, and are commutative, associative, idempotent and absorptive, as equalities of total maps
(`cmp` answers Equal and `==` holds) -/
theorem C38_lattice (a b c : TotalVecMap K V) (ha : BuiltTotalMap a) (hb : BuiltTotalMap b) (hc : BuiltTotalMap c) :
    ∃ sab sba sbc iab iba ibc, a.supremum b = .ret sab ∧ b.supremum a = .ret sba ∧ b.supremum c = .ret sbc ∧
      a.infimum b = .ret iab ∧ b.infimum a = .ret iba ∧ b.infimum c = .ret ibc ∧
      (sab.cmp sba = .eq ∧ sab.eq sba = true) ∧ (iab.cmp iba = .eq ∧ iab.eq iba = true) ∧
      (∃ l r, sab.supremum c = .ret l ∧ a.supremum sbc = .ret r ∧ l.cmp r = .eq ∧ l.eq r = true) ∧
      (∃ l r, iab.infimum c = .ret l ∧ a.infimum ibc = .ret r ∧ l.cmp r = .eq ∧ l.eq r = true) ∧
      (∃ r, a.supremum a = .ret r ∧ r.cmp a = .eq ∧ r.eq a = true) ∧
      (∃ r, a.infimum a = .ret r ∧ r.cmp a = .eq ∧ r.eq a = true) ∧
      (∃ r, a.supremum iab = .ret r ∧ r.cmp a = .eq ∧ r.eq a = true) ∧
      (∃ r, a.infimum sab = .ret r ∧ r.cmp a = .eq ∧ r.eq a = true) := by
  obtain ⟨⟨sab, h1⟩, iab, h4⟩ := sup_inf_total a b ha hb
  obtain ⟨⟨sba, h2⟩, iba, h5⟩ := sup_inf_total b a hb ha
  obtain ⟨⟨sbc, h3⟩, ibc, h6⟩ := sup_inf_total b c hb hc
  obtain ⟨b1, d1, e1⟩ := (sup_inf_index ha hb).1 h1
  obtain ⟨b2, d2, e2⟩ := (sup_inf_index hb ha).1 h2
  obtain ⟨b3, d3, e3⟩ := (sup_inf_index hb hc).1 h3
  obtain ⟨b4, d4, e4⟩ := (sup_inf_index ha hb).2 h4
  obtain ⟨b5, d5, e5⟩ := (sup_inf_index hb ha).2 h5
  obtain ⟨b6, d6, e6⟩ := (sup_inf_index hb hc).2 h6
  have L := fun x y z : V => rust_max_min_laws x y z
  have tr := fun {p q r s : V} (h1 : compare p q = .eq) (h2 : compare q r = .eq) (h3 : compare s r = .eq) =>
    cmp_eq_trans (cmp_eq_trans h1 h2) (cmp_symm h3)
  refine ⟨sab, sba, sbc, iab, iba, ibc, h1, h2, h3, h4, h5, h6, ?_, ?_, ?_, ?_, ?_, ?_, ?_, ?_⟩
  · exact cmp_of_pointwise b1 b2 (tr d1 (L _ _ c.default).1 d2) (fun k => tr (e1 k) (L _ _ (c.index k)).1 (e2 k))
  · exact cmp_of_pointwise b4 b5 (tr d4 (L _ _ c.default).2.1 d5) (fun k => tr (e4 k) (L _ _ (c.index k)).2.1 (e5 k))
  · obtain ⟨⟨l, hl⟩, -⟩ := sup_inf_total sab c b1 hc
    obtain ⟨⟨r, hr⟩, -⟩ := sup_inf_total a sbc ha b3
    obtain ⟨bl, dl, el⟩ := (sup_inf_index b1 hc).1 hl
    obtain ⟨br, dr, er⟩ := (sup_inf_index ha b3).1 hr
    refine ⟨l, r, hl, hr, cmp_of_pointwise bl br ?_ fun k => ?_⟩
    · exact tr (cmp_eq_trans dl (rustMax_congr d1 (cmp_self _))) (L _ _ _).2.2.1 (cmp_eq_trans dr (rustMax_congr (cmp_self _) d3))
    · exact tr (cmp_eq_trans (el k) (rustMax_congr (e1 k) (cmp_self _))) (L _ _ _).2.2.1
        (cmp_eq_trans (er k) (rustMax_congr (cmp_self _) (e3 k)))
  · obtain ⟨-, l, hl⟩ := sup_inf_total iab c b4 hc
    obtain ⟨-, r, hr⟩ := sup_inf_total a ibc ha b6
    obtain ⟨bl, dl, el⟩ := (sup_inf_index b4 hc).2 hl
    obtain ⟨br, dr, er⟩ := (sup_inf_index ha b6).2 hr
    refine ⟨l, r, hl, hr, cmp_of_pointwise bl br ?_ fun k => ?_⟩
    · exact tr (cmp_eq_trans dl (rustMin_congr d4 (cmp_self _))) (L _ _ _).2.2.2.1 (cmp_eq_trans dr (rustMin_congr (cmp_self _) d6))
    · exact tr (cmp_eq_trans (el k) (rustMin_congr (e4 k) (cmp_self _))) (L _ _ _).2.2.2.1
        (cmp_eq_trans (er k) (rustMin_congr (cmp_self _) (e6 k)))
  · obtain ⟨⟨r, hr⟩, -⟩ := sup_inf_total a a ha ha
    obtain ⟨br, dr, er⟩ := (sup_inf_index ha ha).1 hr
    exact ⟨r, hr, cmp_of_pointwise br ha (cmp_eq_trans dr (L _ b.default c.default).2.2.2.2.1)
      fun k => cmp_eq_trans (er k) (L _ b.default c.default).2.2.2.2.1⟩
  · obtain ⟨-, r, hr⟩ := sup_inf_total a a ha ha
    obtain ⟨br, dr, er⟩ := (sup_inf_index ha ha).2 hr
    exact ⟨r, hr, cmp_of_pointwise br ha (cmp_eq_trans dr (L _ b.default c.default).2.2.2.2.2.1)
      fun k => cmp_eq_trans (er k) (L _ b.default c.default).2.2.2.2.2.1⟩
  · obtain ⟨⟨r, hr⟩, -⟩ := sup_inf_total a iab ha b4
    obtain ⟨br, dr, er⟩ := (sup_inf_index ha b4).1 hr
    exact ⟨r, hr, cmp_of_pointwise br ha
      (cmp_eq_trans (cmp_eq_trans dr (rustMax_congr (cmp_self _) d4)) (L _ _ c.default).2.2.2.2.2.2.1)
      fun k => cmp_eq_trans (cmp_eq_trans (er k) (rustMax_congr (cmp_self _) (e4 k))) (L _ _ c.default).2.2.2.2.2.2.1⟩
  · obtain ⟨-, r, hr⟩ := sup_inf_total a sab ha b1
    obtain ⟨br, dr, er⟩ := (sup_inf_index ha b1).2 hr
    exact ⟨r, hr, cmp_of_pointwise br ha
      (cmp_eq_trans (cmp_eq_trans dr (rustMin_congr (cmp_self _) d1)) (L _ _ c.default).2.2.2.2.2.2.2)
      fun k => cmp_eq_trans (cmp_eq_trans (er k) (rustMin_congr (cmp_self _) (e1 k))) (L _ _ c.default).2.2.2.2.2.2.2⟩

end lattice

/-- **C38.** `zero()`/`one()` are neutral: if `op z v` returns something `==` to `v` (resp. `op v z`), combining with the constant map `z`
returns a map with the same values everywhere, `==` to the original -/
theorem C38_neutral [BEq V] [EquivBEq V] (op : V → V → Call V) (z : V) (hz : ∀ v, ∃ w, op z v = .ret w ∧ (w == v) = true)
    (hz' : ∀ v, ∃ w, op v z = .ret w ∧ (w == v) = true) (a : TotalVecMap K V) (ha : BuiltTotalMap a) :
    (∃ r, (TotalVecMap.constant z).combineRef a op = .ret r ∧ r.eq a = true ∧ (r.default == a.default) = true ∧
      ∀ k, (r.index k == a.index k) = true) ∧
    (∃ r, a.combineRef (TotalVecMap.constant z) op = .ret r ∧ r.eq a = true ∧ (r.default == a.default) = true ∧
      ∀ k, (r.index k == a.index k) = true) := by
  have hzB : BuiltTotalMap (TotalVecMap.constant z : TotalVecMap K V) := .constant z
  constructor
  · cases h : (TotalVecMap.constant z).combineRef a op with
    | panic =>
      rcases (C35_combine_ref _ a hzB ha op).2.1 h with h | ⟨_, _, h⟩
      · obtain ⟨w, hw, -⟩ := hz a.default; rw [show (TotalVecMap.constant z : TotalVecMap K V).default = z from rfl, hw] at h; cases h
      · rename_i k _; obtain ⟨w, hw, -⟩ := hz (a.index k)
        rw [show (TotalVecMap.constant z : TotalVecMap K V).index k = z from rfl, hw] at h; cases h
    | ret r =>
      obtain ⟨h1, h2⟩ := (C35_combine_ref _ a hzB ha op).1 r h
      have hd : (r.default == a.default) = true := by
        obtain ⟨w, hw, e⟩ := hz a.default
        rw [show (TotalVecMap.constant z : TotalVecMap K V).default = z from rfl, hw] at h1
        rw [← Call.ret.inj h1]; exact e
      have hi : ∀ k, (r.index k == a.index k) = true := by
        intro k
        obtain ⟨v, hv, e⟩ := h2 k
        obtain ⟨w, hw, e'⟩ := hz (a.index k)
        rw [show (TotalVecMap.constant z : TotalVecMap K V).index k = z from rfl, hw] at hv
        rw [← Call.ret.inj hv] at e
        exact BEq.trans e e'
      exact ⟨r, rfl, (C37_eq_extensional_partial r a (.combineRef hzB ha op h) ha hd).2 hi, hd, hi⟩
  · cases h : a.combineRef (TotalVecMap.constant z) op with
    | panic =>
      rcases (C35_combine_ref a _ ha hzB op).2.1 h with h | ⟨_, _, h⟩
      · obtain ⟨w, hw, -⟩ := hz' a.default; rw [show (TotalVecMap.constant z : TotalVecMap K V).default = z from rfl, hw] at h; cases h
      · rename_i k _; obtain ⟨w, hw, -⟩ := hz' (a.index k)
        rw [show (TotalVecMap.constant z : TotalVecMap K V).index k = z from rfl, hw] at h; cases h
    | ret r =>
      obtain ⟨h1, h2⟩ := (C35_combine_ref a _ ha hzB op).1 r h
      have hd : (r.default == a.default) = true := by
        obtain ⟨w, hw, e⟩ := hz' a.default
        rw [show (TotalVecMap.constant z : TotalVecMap K V).default = z from rfl, hw] at h1
        rw [← Call.ret.inj h1]; exact e
      have hi : ∀ k, (r.index k == a.index k) = true := by
        intro k
        obtain ⟨v, hv, e⟩ := h2 k
        obtain ⟨w, hw, e'⟩ := hz' (a.index k)
        rw [show (TotalVecMap.constant z : TotalVecMap K V).index k = z from rfl, hw] at hv
        rw [← Call.ret.inj hv] at e
        exact BEq.trans e e'
      exact ⟨r, rfl, (C37_eq_extensional_partial r a (.combineRef ha hzB op h) ha hd).2 hi, hd, hi⟩

/-- `+` on the naturals (no overflow) with `0`, and `*` with `1`, satisfy the hypotheses -/
example : (∀ v : Nat, ∃ w, (Call.ret (0 + v) : Call Nat) = .ret w ∧ (w == v) = true) ∧
    ∀ v : Nat, ∃ w, (Call.ret (v * 1) : Call Nat) = .ret w ∧ (w == v) = true :=
  ⟨fun v => ⟨_, rfl, by simp⟩, fun v => ⟨_, rfl, by simp⟩⟩

/-- **C38.** `is_zero`/`is_one` recognise exactly the constant map, over an infinite key type; `test` is the corresponding test on values
(true exactly for values `==` to `z`) -/
theorem C38_is_const [BEq V] [EquivBEq V] (hK : InfiniteOrd K) (test : V → Bool) (z : V) (ht : ∀ v, test v = (v == z))
    (a : TotalVecMap K V) (ha : BuiltTotalMap a) :
    a.isConst test = true ↔ ∀ k, (a.index k == z) = true := by
  obtain ⟨hA, nA⟩ := ha.inv
  unfold TotalVecMap.isConst
  rw [Bool.and_eq_true, ht, VecMap.isEmpty, List.isEmpty_iff]
  constructor
  · rintro ⟨h1, h2⟩ k
    rw [index_of_not hA (by simp [h1, HasKey, Maps])]; exact h2
  · intro h
    have hd : (a.default == z) = true := by
      obtain ⟨k, hk⟩ := hK (a.map.entries.map Prod.fst)
      rw [← hasKey_iff_has] at hk
      have := h k
      rwa [index_of_not hA hk] at this
    refine ⟨?_, hd⟩
    cases hl : a.map.entries with
    | nil => rfl
    | cons e l =>
      have he : e ∈ a.map.entries := by rw [hl]; exact List.mem_cons_self
      have h1 := nA e he
      have h2 := h e.1
      rw [index_of_maps hA (maps_of_mem he)] at h2
      rw [BEq.trans h2 (BEq.symm hd)] at h1
      cases h1

end Verif
