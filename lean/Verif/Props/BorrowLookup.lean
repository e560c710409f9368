import Verif.Model.BorrowLookup
import Verif.Lemmas.MapOps
import Verif.Lemmas.TotalMap
import Verif.Lemmas.BinarySearch
import Verif.Spec.TotalMap
/-!
# C93: lookups through a borrowed form of the key

`borrow` and the order of the borrowed type are user code.
-/
namespace Verif
open Std

section search
variable {α : Type _} {f : α → Ordering} {l : List α}

/-- the comparison function never falls along `l` -/
def WeakMono (f : α → Ordering) (l : List α) : Prop := l.Pairwise fun x y => (f x = .gt → f y = .gt) ∧ (f y = .lt → f x = .lt)

theorem bsLoop_weak (h : WeakMono f l) : ∀ (size base : Nat), 1 ≤ size → base + size ≤ l.length → (∀ hb : base < l.length, f l[base] = .gt → base = 0) →
    (∀ j (hj : j < l.length), base + size ≤ j → f l[j] = .gt) →
    ∃ r, bsLoop f l base size = r ∧ ∃ hb : r < l.length, (f l[r] = .gt → r = 0) ∧ ∀ j (hj : j < l.length), r + 1 ≤ j → f l[j] = .gt := by
  intro size
  induction size using Nat.strongRecOn with
  | _ size ih =>
    intro base h1 h2 h3 h4
    rw [bsLoop]
    by_cases hs : size > 1
    · simp only [hs, ↓reduceDIte]
      have hm : base + size / 2 < l.length := by omega
      rw [List.getElem?_eq_getElem hm]
      simp only
      by_cases hg : f l[base + size / 2] = .gt
      · simp only [hg, ↓reduceIte]
        apply ih (size - size / 2) (by omega) base (by omega) (by omega) h3
        intro j hj hle
        by_cases e : j = base + size / 2
        · subst e; exact hg
        · exact ((List.pairwise_iff_getElem.1 h) (base + size / 2) j hm hj (by omega)).1 hg
      · simp only [hg, ↓reduceIte]
        apply ih (size - size / 2) (by omega) _ (by omega) (by omega)
        · intro _ hg'; exact absurd hg' hg
        · intro j hj hle; exact h4 j hj (by omega)
    · simp only [hs, ↓reduceDIte]
      have : size = 1 := by omega
      subst this
      exact ⟨_, rfl, by omega, h3 (by omega), h4⟩

theorem binarySearchBy_found {i : Nat} (h : binarySearchBy f l = .found i) : ∃ x, l[i]? = some x ∧ f x = .eq := by
  unfold binarySearchBy at h
  split at h
  · cases h
  · simp only at h
    split at h
    · cases h
    · rename_i x hx
      split at h
      · rename_i he
        injection h with h
        subst h
        exact ⟨x, hx, he⟩
      all_goals cases h

theorem binarySearchBy_weak (h : WeakMono f l) (hx : ∃ x ∈ l, f x = .eq) : ∃ i, binarySearchBy f l = .found i := by
  obtain ⟨x, hx, he⟩ := hx
  obtain ⟨k, hk, rfl⟩ := List.mem_iff_getElem.1 hx
  unfold binarySearchBy
  rw [if_neg (by omega)]
  obtain ⟨r, hr, hb, hg, hgt⟩ := bsLoop_weak h l.length 0 (by omega) (by omega) (fun _ _ => rfl) (by intro j hj hle; omega)
  simp only [hr]
  rw [List.getElem?_eq_getElem hb]
  simp only
  have hkb : k ≤ r := by
    apply Classical.byContradiction
    intro hc
    have := hgt k hk (by omega)
    rw [he] at this
    cases this
  cases hc : f l[r] with
  | eq => exact ⟨_, rfl⟩
  | gt =>
    have h0 := hg hc
    have : k = r := by omega
    subst this
    rw [he] at hc
    cases hc
  | lt =>
    rcases Nat.lt_or_ge k (r) with hlt | hge
    · have := ((List.pairwise_iff_getElem.1 h) k _ hk hb hlt).2 hc
      rw [he] at this
      cases this
    · have : k = r := by omega
      subst this
      rw [he] at hc
      cases hc

end search

section any
variable {K V Q : Type _} [Ord Q]

/-- **C93 (any `Borrow`, any order).** Whatever `borrow` and the order of the borrowed type do, and even on a map that is not in order: a lookup does not panic, a value it returns is stored under a key whose
borrowed form the order declares equal to the one asked for, and `get_mut` finds the same entry and writes to nothing else. -/
theorem C93_sound (borrow : K → Q) (m : VecMap K V) (q : Q) (w : V → V) :
    (∃ before k v after, m.asSlice = before ++ (k, v) :: after ∧ compare (borrow k) q = .eq ∧ m.getQ borrow q = .ret (some v) ∧
      m.updateMutQ borrow q w = .ret (⟨before ++ (k, w v) :: after⟩, true)) ∨
    (m.getQ borrow q = .ret none ∧ m.updateMutQ borrow q w = .ret (m, false)) := by
  unfold VecMap.getQ VecMap.updateMutQ
  cases hr : binarySearchBy (fun p : K × V => compare (borrow p.1) q) m.entries with
  | notFound i => exact .inr ⟨rfl, rfl⟩
  | found i =>
    obtain ⟨x, hx, he⟩ := binarySearchBy_found hr
    obtain ⟨hi, e⟩ := List.getElem?_eq_some_iff.1 hx
    refine .inl ⟨m.entries.take i, x.1, x.2, m.entries.drop (i + 1), ?_, he, by simp only [hx], ?_⟩
    · show m.entries = _
      have : (x.1, x.2) = m.entries[i] := e.symm
      rw [this, ← List.drop_eq_getElem_cons hi, List.take_append_drop]
    · simp only [hx]
      rw [List.set_eq_take_append_cons_drop, if_pos hi]

end any

section mono
variable {K : Type} {V : Type} {Q : Type _} [Ord K] [TransOrd K] [Ord Q] [TransOrd Q]

/-- **C93 (monotone `Borrow`).** If `borrow` never reverses the order of two keys (it may identify different ones), a lookup finds a value exactly if there is a key whose borrowed form equals the one asked for. -/
theorem C93_monotone (borrow : K → Q) (hb : ∀ k k', compare k k' = .lt → compare (borrow k) (borrow k') ≠ .gt) (m : VecMap K V) (hm : BuiltMap m) (q : Q) :
    ∃ o, m.getQ borrow q = .ret o ∧ (o.isSome = true ↔ ∃ k v, (k, v) ∈ m.asSlice ∧ compare (borrow k) q = .eq) ∧
      ∀ v, o = some v → ∃ k, (k, v) ∈ m.asSlice ∧ compare (borrow k) q = .eq := by
  have hw : WeakMono (fun p : K × V => compare (borrow p.1) q) m.entries := by
    refine hm.ascending.imp fun {x y} hxy => ?_
    have hle := hb _ _ hxy
    show (compare (borrow x.1) q = .gt → compare (borrow y.1) q = .gt) ∧ (compare (borrow y.1) q = .lt → compare (borrow x.1) q = .lt)
    constructor
    · intro h
      cases hc : compare (borrow x.1) (borrow y.1) with
      | gt => exact absurd hc hle
      | eq => rw [← TransCmp.congr_left hc]; exact h
      | lt => exact OrientedCmp.gt_of_lt (TransCmp.lt_trans (OrientedCmp.lt_of_gt h) hc)
    · intro h
      cases hc : compare (borrow x.1) (borrow y.1) with
      | gt => exact absurd hc hle
      | eq => rw [TransCmp.congr_left hc]; exact h
      | lt => exact TransCmp.lt_trans hc h
  rcases C93_sound borrow m q id with ⟨before, k, v, after, h1, h2, h3, -⟩ | ⟨h3, -⟩
  · refine ⟨some v, h3, ?_, ?_⟩
    · simp only [Option.isSome_some, true_iff]
      exact ⟨k, v, by rw [h1]; simp, h2⟩
    · intro v' e
      cases e
      exact ⟨k, by rw [h1]; simp, h2⟩
  · refine ⟨none, h3, ?_, by simp⟩
    simp only [Option.isSome_none, Bool.false_eq_true, false_iff]
    rintro ⟨k, v, hk, he⟩
    obtain ⟨i, hi⟩ := binarySearchBy_weak hw ⟨(k, v), hk, he⟩
    obtain ⟨x, hx, -⟩ := binarySearchBy_found hi
    unfold VecMap.getQ at h3
    rw [hi] at h3
    simp only [hx] at h3
    cases h3

/-- **C93 (order-preserving `Borrow`, as its contract demands).** Then the value found is *the* value stored under that key, and `[]` on a total map yields it or the default. -/
theorem C93_exact (borrow : K → Q) (hb : ∀ k k', compare (borrow k) (borrow k') = compare k k') :
    (∀ (m : VecMap K V), BuiltMap m → ∀ q, ∃ o, m.getQ borrow q = .ret o ∧ ∀ v, o = some v ↔ ∃ k, (k, v) ∈ m.asSlice ∧ compare (borrow k) q = .eq) ∧
    (∀ (m : VecMap K V), BuiltMap m → ∀ k, m.getQ borrow (borrow k) = .ret (m.get k)) ∧
    (∀ [BEq V] (t : TotalVecMap K V), BuiltTotalMap t → ∀ k, t.indexQ borrow (borrow k) = .ret (t.index k)) := by
  have h1 : ∀ (m : VecMap K V), BuiltMap m → ∀ q, ∃ o, m.getQ borrow q = .ret o ∧ ∀ v, o = some v ↔ ∃ k, (k, v) ∈ m.asSlice ∧ compare (borrow k) q = .eq := by
    intro m hm q
    obtain ⟨o, h1, h2, h3⟩ := C93_monotone borrow (fun k k' h => by rw [hb, h]; simp) m hm q
    refine ⟨o, h1, fun v => ⟨h3 v, ?_⟩⟩
    rintro ⟨k, hk, he⟩
    have hs := h2.2 ⟨k, v, hk, he⟩
    cases ho : o with
    | none => rw [ho] at hs; cases hs
    | some v' =>
      obtain ⟨k', hk', he'⟩ := h3 v' ho
      have : compare k k' = .eq := by
        rw [← hb]
        exact TransCmp.eq_trans he (OrientedCmp.eq_symm he')
      have e := (VecMap.get_iff hm.ascending k v).2 ⟨k, hk, ReflCmp.compare_self⟩
      have e' := (VecMap.get_iff hm.ascending k v').2 ⟨k', hk', OrientedCmp.eq_symm this⟩
      rw [e] at e'
      exact e'.symm
  have h2 : ∀ (m : VecMap K V), BuiltMap m → ∀ k, m.getQ borrow (borrow k) = .ret (m.get k) := by
    intro m hm k
    obtain ⟨o, e, h⟩ := h1 m hm (borrow k)
    rw [e]
    refine congrArg Call.ret (Option.ext fun v => ?_)
    rw [h v, VecMap.get_iff hm.ascending]
    constructor
    · rintro ⟨k', hk, he⟩
      rw [hb] at he
      exact ⟨k', hk, he⟩
    · rintro ⟨k', hk, he⟩
      exact ⟨k', hk, by rw [hb]; exact he⟩
  refine ⟨h1, h2, ?_⟩
  intro _ t ht k
  unfold TotalVecMap.indexQ TotalVecMap.index
  rw [h2 t.map (.fromBTreeMap _ ht.inv.1) k]

end mono

/-- tuples keyed by a pair, looked up by the first component: monotone, not order-preserving -/
example : (⟨[((1, 5), "a"), ((2, 0), "b"), ((2, 7), "c"), ((4, 1), "d")]⟩ : VecMap (Nat × Nat) String).getQ Prod.fst 4 = .ret (some "d") ∧
    (⟨[((1, 5), "a"), ((2, 0), "b"), ((2, 7), "c"), ((4, 1), "d")]⟩ : VecMap (Nat × Nat) String).getQ Prod.fst 3 = .ret none := by decide +kernel
/-- a `Borrow` that breaks its contract: the entry is there but is not found (safe, C93_sound) -/
example : (⟨[(1, "a"), (2, "b"), (3, "c")]⟩ : VecMap Nat String).getQ (fun k => 10 - k) 9 = .ret none := by decide +kernel
/-- keys borrowed as keys -/
example : ∀ k k' : Nat, compare (id k) (id k') = compare k k' := fun _ _ => rfl
example : (⟨⟨[(1, "a"), (3, "c")]⟩, "default"⟩ : TotalVecMap Nat String).indexQ id 2 = .ret "default" := by decide +kernel
end Verif
