import Verif.Model.VecSet
import Verif.Model.VecMap
/-!
# The public iterators of `VecSet` and `VecMap` (src/iterators.rs:1-48)

`VecSetIter<I>` and `VecMapIter<I>` wrap an inner iterator; the inner ones are `core::slice::Iter` (for `iter()` and `&set`) and
`smallvec::IntoIter` (for `set.into_iter()`), both modelled by the sequence of items still to come.
-/
namespace Verif
namespace Iterators
variable {T K V : Type _}

/-- an iterator as the client sees it: what `next` returns and becomes, and what `size_hint` says -/
structure Machine (σ α : Type _) where
  next : σ → Option α × σ
  sizeHint : σ → Nat × Option Nat

/-- `core::slice::Iter`, `smallvec::IntoIter` (external code, modelled): the items still to come -/
def slice : Machine (List T) T where
  next
    | [] => (none, [])
    | x :: l => (some x, l)
  sizeHint l := (l.length, some l.length)

/-- `struct VecSetIter { i }` (iterators.rs:2-4), also `VecMapIter` (iterators.rs:27-29): both delegate everything -/
structure Wrap (σ : Type _) where
  i : σ

/-- `Iterator for VecSetIter` (iterators.rs:14-24), `Iterator for VecMapIter` (iterators.rs:39-49) -/
def wrapped {σ α : Type _} (m : Machine σ α) : Machine (Wrap σ) α where
  next s := ((m.next s.i).1, ⟨(m.next s.i).2⟩)
  sizeHint s := m.sizeHint s.i

/-- `VecSet::iter`, `IntoIterator for &VecSet`, `IntoIterator for VecSet` (vec_set.rs:195-197, 273-275, 353-368); the by-value iterator yields the
same items, owned -/
def setIter (s : VecSet T) : Wrap (List T) := ⟨s.elems⟩

/-- `AbstractVecMap::iter`, `IntoIterator for &VecMap`, `IntoIterator for VecMap` (vec_map.rs:42-44, 180-193) -/
def mapIter (m : VecMap K V) : Wrap (List (K × V)) := ⟨m.entries⟩

/-- `n` calls of `next`: what they returned, and the iterator afterwards -/
def calls {σ α : Type _} (m : Machine σ α) : Nat → σ → List (Option α) × σ
  | 0, s => ([], s)
  | n + 1, s => ((m.next s).1 :: (calls m n (m.next s).2).1, (calls m n (m.next s).2).2)

end Iterators
end Verif
