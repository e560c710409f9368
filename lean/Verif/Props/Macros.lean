import Verif.Model.Macros
import Verif.Props.VecSet
import Verif.Props.VecMap
/-!
# The construction macros (C63)

`vecset!` and `vecmap!` expand to a sequence of `insert`s, not to `collect`. These theorems say what that yields.
-/
namespace Verif
open Std
variable {T K V : Type _} [Ord T] [TransOrd T] [Ord K] [TransOrd K]

/-! ## C63 -/

theorem vecsetMacro_spec (items : List T) : Ascending (vecsetMacro items).elems ∧
    ∀ y, findBy (fun z => z) (vecsetMacro items).elems y = pick (fun z => z) .last items y := by
  suffices h : ∀ (l done : List T) (s : VecSet T), Ascending s.elems →
      (∀ y, findBy (fun z => z) s.elems y = pick (fun z => z) .last done y) →
      Ascending (l.foldl (fun s x => (s.insert x).1) s).elems ∧
      ∀ y, findBy (fun z => z) (l.foldl (fun s x => (s.insert x).1) s).elems y
        = pick (fun z => z) .last (done ++ l) y by
    have := h items [] VecSet.empty List.Pairwise.nil (fun y => by simp [VecSet.empty])
    simpa [vecsetMacro] using this
  intro l
  induction l with
  | nil => intro done s hs hf; simpa using ⟨hs, hf⟩
  | cons x l ih =>
    intro done s hs hf
    obtain ⟨i1, -, i3⟩ := VecSet.insert_spec hs x
    have := ih (done ++ [x]) (s.insert x).1 i1 (fun y => by rw [i3, pick_concat, hf])
    simpa using this

theorem vecmapMacro_spec (items : List (K × V)) : AscendingBy Prod.fst (vecmapMacro items).entries ∧
    ∀ y, findBy Prod.fst (vecmapMacro items).entries y = pick Prod.fst .last items y := by
  suffices h : ∀ (l done : List (K × V)) (s : VecMap K V), AscendingBy Prod.fst s.entries →
      (∀ y, findBy Prod.fst s.entries y = pick Prod.fst .last done y) →
      AscendingBy Prod.fst (l.foldl (fun s x => (s.insert x.1 x.2).1) s).entries ∧
      ∀ y, findBy Prod.fst (l.foldl (fun s x => (s.insert x.1 x.2).1) s).entries y
        = pick Prod.fst .last (done ++ l) y by
    have := h items [] VecMap.empty List.Pairwise.nil (fun y => by simp [VecMap.empty])
    simpa [vecmapMacro] using this
  intro l
  induction l with
  | nil => intro done s hs hf; simpa using ⟨hs, hf⟩
  | cons x l ih =>
    intro done s hs hf
    have i1 := VecMap.insert_asc hs x.1 x.2
    have := ih (done ++ [x]) (s.insert x.1 x.2).1 i1 (fun y => by
      rw [pick_concat]
      simp only [← hf]
      by_cases e : compare x.1 y = .eq
      · simp only [e, ↓reduceIte]
        rw [i1.findBy_eq_some]
        exact ⟨(VecMap.insert_mem hs ..).2 (.inl rfl), e⟩
      · simp only [e, ↓reduceIte]
        cases hb : findBy Prod.fst s.entries y with
        | none =>
          rw [findBy_none] at hb ⊢
          intro z hz
          rcases (VecMap.insert_mem hs ..).1 hz with rfl | ⟨hz, -⟩
          · exact e
          · exact hb z hz
        | some z =>
          rw [i1.findBy_eq_some]
          rw [hs.findBy_eq_some] at hb
          refine ⟨(VecMap.insert_mem hs ..).2 (.inr ⟨hb.1, fun h => e ?_⟩), hb.2⟩
          exact cmp_eq_trans (cmp_symm h) hb.2)
    simpa using this

theorem vecsetMacro_eq (items : List T) : (vecsetMacro items).elems = sortDedup .last items := by
  have h := vecsetMacro_spec items
  refine AscendingBy.ext (key := fun z : T => z) h.1 (sortDedup_spec .last items).1 fun k => ?_
  rw [h.2, (sortDedup_spec .last items).2]

/-- **C63.** `vecset!` yields a strictly ascending set whose elements are the *last* occurrence of each item: writing an
item twice keeps the later one. -/
theorem C63_vecset_keeps_last (items : List T) :
    Ascending (vecsetMacro items).asSlice ∧
    ∀ x, x ∈ (vecsetMacro items).asSlice ↔ ∃ before after, items = before ++ x :: after ∧ ¬ Has after x := by
  refine ⟨(vecsetMacro_spec items).1, fun x => ?_⟩
  have := (C03_sort_dedup .last items).2 x
  rw [show (vecsetMacro items).asSlice = sortDedup .last items from vecsetMacro_eq items, this]
  simp [Has]

/-- **C63.** `vecset!` agrees with `collect` as far as `==` can tell: same elements up to the order, both sets equal. (The
stored representatives differ: `collect` keeps the first of equal items.) -/
theorem C63_vecset_eq_collect (items : List T) (x : T) :
    (vecsetMacro items).eq (VecSet.fromIter items) = true ∧
    ((vecsetMacro items).contains x = true ↔ Has items x) := by
  have hm := (vecsetMacro_spec items).1
  have hh : ∀ y, Has (vecsetMacro items).elems y ↔ Has items y := by
    intro y
    rw [has_iff_findBy, (vecsetMacro_spec items).2]
    simp only [pick, ← has_iff_findBy]
    simp [Has]
  refine ⟨?_, ?_⟩
  · rw [VecSet.eq_iff hm (VecSet.fromIter_asc items)]
    intro y
    rw [hh, VecSet.fromIter_has]
  · rw [VecSet.contains_iff hm, hh]

/-- **C63.** `vecmap!` is exactly `collect`: the same entries, key representatives included, so the last pair of a key wins. -/
theorem C63_vecmap_is_collect (items : List (K × V)) : vecmapMacro items = VecMap.fromIter items := by
  have h := vecmapMacro_spec items
  have e : (vecmapMacro items).entries = (VecMap.fromIter items).entries := by
    refine AscendingBy.ext (key := Prod.fst) h.1 (sortDedupByKey_spec .last items).1 fun k => ?_
    rw [h.2]; exact ((sortDedupByKey_spec (key := Prod.fst) .last items).2 k).symm
  cases hm : vecmapMacro items; cases hc : VecMap.fromIter items
  rw [hm, hc] at e
  exact congrArg VecMap.mk e

/-- **C63.** and it maps each key to the last value written for it -/
theorem C63_vecmap_last_wins {K V : Type} [Ord K] [TransOrd K] (items : List (K × V)) (k : K) (v : V) :
    (vecmapMacro items).get k = some v ↔
      ∃ before k' after, items = before ++ (k', v) :: after ∧ compare k' k = .eq ∧ ¬ HasKey after k := by
  rw [C63_vecmap_is_collect]; exact C19_collect_last_wins items k v

/-- items that are equal in the order but distinguishable: compare by the first component only -/
private def byFst : Ord (Nat × Nat) := ⟨fun a b => compare a.1 b.1⟩

private theorem byFst_trans : @TransOrd (Nat × Nat) byFst :=
  letI := byFst
  { eq_swap := fun {a b} => (OrientedOrd.eq_swap (a := a.1) (b := b.1))
    isLE_trans := fun {a b c} h1 h2 => TransOrd.isLE_trans (a := a.1) (b := b.1) (c := c.1) h1 h2 }

/-- `vecset! { (1,0), (2,0), (1,9) }` stores `(1,9)`; collecting the same items stores `(1,0)` -/
example : letI := byFst
    (1, 9) ∈ (vecsetMacro [(1, 0), (2, 0), (1, 9)]).asSlice ∧
    (1, 0) ∈ (VecSet.fromIter [(1, 0), (2, 0), (1, 9)]).asSlice ∧
    (1, 0) ∉ (vecsetMacro [(1, 0), (2, 0), (1, 9)]).asSlice := by
  letI := byFst
  letI := byFst_trans
  refine ⟨?_, ?_, ?_⟩
  · rw [(C63_vecset_keeps_last _).2]; exact ⟨[(1, 0), (2, 0)], [], rfl, by simp [Has]⟩
  · rw [C14_collect_keeps_first]; exact ⟨[], [(2, 0), (1, 9)], rfl, by simp [Has]⟩
  · intro h0
    have h9 : ((1, 9) : Nat × Nat) ∈ (vecsetMacro [(1, 0), (2, 0), (1, 9)]).asSlice := by
      rw [(C63_vecset_keeps_last _).2]; exact ⟨[(1, 0), (2, 0)], [], rfl, by simp [Has]⟩
    have := (C63_vecset_keeps_last [((1, 0) : Nat × Nat), (2, 0), (1, 9)]).1
    have e := AscendingBy.eq_of_mem (key := fun y : Nat × Nat => y) this h0 h9 (by decide)
    cases e

end Verif
