import Verif.Model.Iterators
import Verif.Props.VecSet
import Verif.Props.VecMap
/-!
# Iterating over sets and maps (C66)

`VecSetIter` carries the marker `SortedByItem`, `VecMapIter` the marker `SortedByKey`; the `sorted_iter` crate relies on them for iterators in
any state, not only fresh ones.
-/
namespace Verif
namespace Iterators
open Std
variable {T K V : Type} [Ord T] [TransOrd T] [Ord K] [TransOrd K]

theorem calls_slice {α : Type} (l : List α) (n : Nat) : calls (wrapped slice) n ⟨l⟩
    = ((List.range n).map (fun i => l[i]?), ⟨l.drop n⟩) := by
  induction n generalizing l with
  | zero => simp [calls]
  | succ n ih =>
    cases l with
    | nil =>
      have e : (wrapped (slice (T := α))).next ⟨[]⟩ = (none, ⟨[]⟩) := rfl
      simp [calls, e, ih, List.range_succ_eq_map, Function.comp_def]
    | cons x l =>
      have e : (wrapped (slice (T := α))).next ⟨x :: l⟩ = (some x, ⟨l⟩) := rfl
      simp [calls, e, ih, List.range_succ_eq_map, Function.comp_def]

theorem pairwise_split {α : Type} {R : α → α → Prop} {l : List α} (h : l.Pairwise R) (i j : Nat) (hij : i < j) {x y : α}
    (hx : l[i]? = some x) (hy : l[j]? = some y) : R x y := by
  obtain ⟨h1, rfl⟩ := List.getElem?_eq_some_iff.1 hx
  obtain ⟨h2, rfl⟩ := List.getElem?_eq_some_iff.1 hy
  exact List.pairwise_iff_getElem.1 h i j h1 h2 hij

/-- **C66.** For every set and every moment of an iteration over it (after `n` calls of `next`, by reference or by value): the calls so far
returned the first `n` elements in order and then only `None`; `size_hint` is exact; and of any two calls that return an element —
before or after this moment — the later one returns the greater element. -/
theorem C66_set_iter (s : VecSet T) (h : Built s) (n : Nat) :
    (calls (wrapped slice) n (setIter s)).1 = (List.range n).map (fun i => s.asSlice[i]?) ∧
    (wrapped slice).sizeHint (calls (wrapped slice) n (setIter s)).2 = (s.len - n, some (s.len - n)) ∧
    ∀ (i j : Nat) (x y : T), i < j → (calls (wrapped slice) n (setIter s)).1[i]? = some (some x) →
      ((calls (wrapped slice) n (setIter s)).1 ++ (calls (wrapped slice) (j + 1) (calls (wrapped slice) n (setIter s)).2).1)[j]? = some (some y) →
      compare x y = .lt := by
  simp only [setIter, calls_slice]
  refine ⟨rfl, by simp [wrapped, slice, VecSet.len], fun i j x y hij hx hy => ?_⟩
  have hasc := h.ascending
  have hx' : s.elems[i]? = some x := by
    simp only [List.getElem?_map] at hx
    cases hr : (List.range n)[i]? with
    | none => rw [hr] at hx; simp at hx
    | some a =>
      rw [hr] at hx
      obtain ⟨hl, rfl⟩ := List.getElem?_eq_some_iff.1 hr
      simpa using hx
  have hy' : s.elems[j]? = some y := by
    by_cases hj : j < n
    · rw [List.getElem?_append_left (by simpa using hj)] at hy
      simpa [hj] using hy
    · rw [List.getElem?_append_right (by simpa using Nat.le_of_not_lt hj)] at hy
      simp only [List.length_map, List.length_range, List.getElem?_map] at hy
      have e : (List.range (j + 1))[j - n]? = some (j - n) := by
        rw [List.getElem?_range (by omega)]
      rw [e] at hy
      simp only [Option.map_some, List.getElem?_drop, Option.some.injEq] at hy
      rwa [show n + (j - n) = j by omega] at hy
  exact pairwise_split hasc i j hij hx' hy'

/-- **C66.** the same for maps: the calls return the entries in strictly ascending key order, `size_hint` is exact -/
theorem C66_map_iter (m : VecMap K V) (h : BuiltMap m) (n : Nat) :
    (calls (wrapped slice) n (mapIter m)).1 = (List.range n).map (fun i => m.asSlice[i]?) ∧
    (wrapped slice).sizeHint (calls (wrapped slice) n (mapIter m)).2 = (m.len - n, some (m.len - n)) ∧
    (∀ (i j : Nat) (x y : K × V), i < j → m.asSlice[i]? = some x → m.asSlice[j]? = some y → compare x.1 y.1 = .lt) := by
  simp only [mapIter, calls_slice]
  exact ⟨rfl, by simp [wrapped, slice, VecMap.len], fun i j x y hij hx hy => pairwise_split h.ascending i j hij hx hy⟩

/-- **C66.** Draining an iterator in any state yields the remaining elements, all of them greater than those already returned, and an
exhausted iterator stays exhausted. -/
theorem C66_resume (s : VecSet T) (h : Built s) (n k : Nat) :
    (calls (wrapped slice) k (calls (wrapped slice) n (setIter s)).2).1 = (List.range k).map (fun i => s.asSlice[n + i]?) ∧
    (s.len ≤ n → ∀ o ∈ (calls (wrapped slice) k (calls (wrapped slice) n (setIter s)).2).1, o = none) ∧
    (∀ x y, some x ∈ (calls (wrapped slice) n (setIter s)).1 →
      some y ∈ (calls (wrapped slice) k (calls (wrapped slice) n (setIter s)).2).1 → compare x y = .lt) := by
  simp only [setIter, calls_slice]
  refine ⟨by simp [VecSet.asSlice], fun hn o ho => ?_, fun x y hx hy => ?_⟩
  · obtain ⟨i, _, rfl⟩ := List.mem_map.1 ho
    have : s.elems.length ≤ n := hn
    simp; omega
  · obtain ⟨i, hi, hx⟩ := List.mem_map.1 hx
    obtain ⟨j, _, hy⟩ := List.mem_map.1 hy
    rw [List.mem_range] at hi
    rw [List.getElem?_drop] at hy
    exact pairwise_split h.ascending i (n + j) (by omega) hx hy

/-- two calls on a set of three, then the rest -/
example : let s : VecSet Nat := ⟨[3, 5, 9]⟩
    (calls (wrapped slice) 2 (setIter s)).1 = [some 3, some 5] ∧
    (wrapped slice).sizeHint (calls (wrapped slice) 2 (setIter s)).2 = (1, some 1) ∧
    (calls (wrapped slice) 3 (calls (wrapped slice) 2 (setIter s)).2).1 = [some 9, none, none] := ⟨rfl, rfl, rfl⟩

example : Built (⟨[3, 5, 9]⟩ : VecSet Nat) := C01_every_ascending_is_built _ (by unfold Ascending; simp; decide)

end Iterators
end Verif
