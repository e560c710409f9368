import Verif.Model.MergeState
import Verif.Model.Dedup
/-!
# Model of /repo/src/vec_set.rs

`VecSet<A>(SmallVec<A>)` (vec_set.rs:107) is a wrapper around a list. `ArchivedVecSet` (628) exposes the same slice
through `AbstractVecSet`, so binary operations take plain lists on both sides.
-/
namespace Verif

variable {σ T : Type _} [Ord T]

/-! ### The merge operations (vec_set.rs:34-37, 508-566) -/

/-- `SetUnionOp` (vec_set.rs:508-521) -/
def setUnionOp (m : MergeStateMut σ) : MergeOp σ T T where
  cmp := compare
  fromA s n := m.advanceA s n true
  fromB s n := m.advanceB s n true
  collision s := andThen (m.advanceA s 1 true) (fun s => m.advanceB s 1 false)

/-- `SetIntersectionOp` (vec_set.rs:523-536) -/
def setIntersectionOp (m : MergeStateMut σ) : MergeOp σ T T where
  cmp := compare
  fromA s n := m.advanceA s n false
  fromB s n := m.advanceB s n false
  collision s := andThen (m.advanceA s 1 true) (fun s => m.advanceB s 1 false)

/-- `SetDiffOpt` (vec_set.rs:538-551) -/
def setDiffOp (m : MergeStateMut σ) : MergeOp σ T T where
  cmp := compare
  fromA s n := m.advanceA s n true
  fromB s n := m.advanceB s n false
  collision s := andThen (m.advanceA s 1 false) (fun s => m.advanceB s 1 false)

/-- `SetXorOp` (vec_set.rs:553-566) -/
def setXorOp (m : MergeStateMut σ) : MergeOp σ T T where
  cmp := compare
  fromA s n := m.advanceA s n true
  fromB s n := m.advanceB s n true
  collision s := andThen (m.advanceA s 1 false) (fun s => m.advanceB s 1 false)

/-- `struct VecSet<A>(SmallVec<A>)` (vec_set.rs:107) -/
structure VecSet (T : Type _) where
  elems : List T

namespace VecSet

/-! ### Queries -/

/-- `as_slice`/`as_ref`/`iter`/`into_iter`/`into_inner` (vec_set.rs:195-207, 273-279, 293, 352-380, 467): the elements in storage order -/
def asSlice (s : VecSet T) : List T := s.elems
/-- `len` (vec_set.rs:281-283) -/
def len (s : VecSet T) : Nat := s.elems.length
/-- `is_empty` (vec_set.rs:120-122, 289-291) -/
def isEmpty (s : VecSet T) : Bool := s.elems.isEmpty
/-- `AbstractVecSet::contains` (vec_set.rs:123-125) -/
def contains (s : VecSet T) (x : T) : Bool :=
  match binarySearchBy (fun e => compare e x) s.elems with
  | .found _ => true
  | .notFound _ => false

/-- `AbstractVecSet::is_disjoint` (vec_set.rs:128-130) -/
def isDisjoint (a b : VecSet T) : Bool :=
  !(BoolMS.merge a.elems b.elems (setIntersectionOp BoolMS.mut)).1
/-- `AbstractVecSet::is_subset` (vec_set.rs:135-137) -/
def isSubset (a b : VecSet T) : Bool :=
  !(BoolMS.merge a.elems b.elems (setDiffOp BoolMS.mut)).1
/-- `AbstractVecSet::is_superset` (vec_set.rs:142-144) -/
def isSuperset (a b : VecSet T) : Bool :=
  !(BoolMS.merge b.elems a.elems (setDiffOp BoolMS.mut)).1

/-! ### Constructors -/

/-- `empty` (vec_set.rs:269-271), `Default` (106) -/
def empty : VecSet T := ⟨[]⟩
/-- `single` (vec_set.rs:263-267) -/
def single (x : T) : VecSet T := ⟨[x]⟩
/-- `from_vec` / `From<Vec<T>>` (vec_set.rs:344-349, 473-477): `sort` then `dedup`. `Vec::dedup` uses `==`, which for a lawful
`Ord` agrees with `cmp == Equal`. -/
def fromVec (l : List T) : VecSet T :=
  ⟨stdDedupBy (fun a b => compare a b == .eq) (stableSortBy compare l)⟩
/-- `FromIterator` (vec_set.rs:494-500) -/
def fromIter (l : List T) : VecSet T := ⟨sortDedup .first l⟩
/-- `From<BTreeSet<T>>` (vec_set.rs:480-484): takes the elements in iteration order, which a `BTreeSet` yields ascending -/
def fromBTreeSet (l : List T) : VecSet T := ⟨l⟩
/-- `Visitor::visit_seq` (vec_set.rs:610-623): push every element the `SeqAccess` yields (an element error aborts, `?`), then
`sort`, `dedup`. The `SeqAccess` is the list of what `next_element` returns before the end of the sequence. -/
def visitSeq {E : Type _} (seq : List (Except E T)) : Except E (VecSet T) := go [] seq
where
  /-- the `while let Some(value) = seq.next_element()?` loop (vec_set.rs:617-619) -/
  go {E : Type _} (values : List T) : List (Except E T) → Except E (VecSet T)
    | [] => .ok ⟨stdDedupBy (fun a b => compare a b == .eq) (stableSortBy compare values)⟩
    | .error e :: _ => .error e
    | .ok x :: rest => go (values ++ [x]) rest
/-- `Serialize` (vec_set.rs:569-580): the sequence handed to the serializer -/
def serialize (s : VecSet T) : List T := s.elems

/-- `ArchivedVecSetError` (vec_set.rs:674-682) -/
inductive ArchiveError where
  | valueCheck
  | orderCheck
deriving DecidableEq, Repr

/-- `CheckBytes for ArchivedVecSet` (vec_set.rs:692-713). `valid` stands for bytecheck's check of one element. -/
def checkBytes (valid : T → Bool) (l : List T) : Except ArchiveError (VecSet T) :=
  if !l.all valid then .error .valueCheck
  else if !(l.zip (l.drop 1)).all (fun p => compare p.1 p.2 == .lt) then .error .orderCheck
  else .ok ⟨l⟩

/-- rkyv `serialize`/`resolve` for `VecSet` (vec_set.rs:631-656): the archived slice holds the archived elements in order -/
def archive {U : Type _} (arch : T → U) (s : VecSet T) : VecSet U := ⟨s.elems.map arch⟩
/-- rkyv `deserialize` for `ArchivedVecSet` (vec_set.rs:658-672): element by element, no reordering -/
def unarchive {U E : Type _} (de : U → Except E T) (s : VecSet U) : Except E (VecSet T) :=
  match s.elems.mapM de with
  | .ok l => .ok ⟨l⟩
  | .error e => .error e

/-! ### Element operations -/

/-- `insert` (vec_set.rs:306-317) -/
def insert (s : VecSet T) (x : T) : VecSet T × Bool :=
  match binarySearchBy (fun e => compare e x) s.elems with
  | .found i => (⟨s.elems.set i x⟩, false)
  | .notFound i => (⟨s.elems.insertIdx i x⟩, true)
/-- `remove` (vec_set.rs:323-330) -/
def remove (s : VecSet T) (x : T) : VecSet T × Bool :=
  match binarySearchBy (fun e => compare e x) s.elems with
  | .found i => (⟨s.elems.eraseIdx i⟩, true)
  | .notFound _ => (s, false)
/-- `retain` (vec_set.rs:333-335): delegates to `SmallVec::retain`. The predicate is `FnMut`: it carries a state `p` and may panic. -/
def retain {P : Type _} (s : VecSet T) (f : P → T → Call (P × Bool)) (p : P) : VecSet T × P × Flow :=
  let r := smallVecRetain f s.elems p
  (⟨r.1⟩, r.2)

/-! ### Set algebra by reference: results are fresh sets; the second component tells whether the call panicked -/

/-- `union`, `BitOr` (vec_set.rs:146-156, 389-394, 720-727) -/
def union (a b : VecSet T) : VecSet T × Flow :=
  let r := SliceMS.merge a.elems b.elems (setUnionOp (SliceMS.mut cloneConverter cloneConverter))
  (⟨r.1⟩, r.2)
/-- `intersection`, `BitAnd` (vec_set.rs:158-168, 382-387, 729-736) -/
def intersection (a b : VecSet T) : VecSet T × Flow :=
  let r := SliceMS.merge a.elems b.elems (setIntersectionOp (SliceMS.mut cloneConverter cloneConverter))
  (⟨r.1⟩, r.2)
/-- `symmetric_difference`, `BitXor` (vec_set.rs:170-180, 396-401, 738-745) -/
def symmetricDifference (a b : VecSet T) : VecSet T × Flow :=
  let r := SliceMS.merge a.elems b.elems (setXorOp (SliceMS.mut cloneConverter cloneConverter))
  (⟨r.1⟩, r.2)
/-- `difference`, `Sub` (vec_set.rs:182-192, 403-408, 747-754) -/
def difference (a b : VecSet T) : VecSet T × Flow :=
  let r := SliceMS.merge a.elems b.elems (setDiffOp (SliceMS.mut cloneConverter cloneConverter))
  (⟨r.1⟩, r.2)

/-! ### In-place operators. The returned set is the value of `self` afterwards, also after a panic. -/

/-- `BitAndAssign<VecSet<B>>` (vec_set.rs:410-414) -/
def bitandAssign (a b : VecSet T) : VecSet T × Flow :=
  let r := InPlaceMS.merge a.elems b.elems (setIntersectionOp (InPlaceMS.mut idConverter))
  (⟨r.1⟩, r.2)
/-- `BitAndAssign<&VecSet<B>>` (vec_set.rs:416-427) -/
def bitandAssignRef (a b : VecSet T) : VecSet T × Flow :=
  let r := InPlaceMS.merge a.elems b.elems (setIntersectionOp (InPlaceMS.mut cloneConverter))
  (⟨r.1⟩, r.2)
/-- `BitOrAssign<VecSet<B>>` (vec_set.rs:429-433) -/
def bitorAssign (a b : VecSet T) : VecSet T × Flow :=
  let r := InPlaceMS.merge a.elems b.elems (setUnionOp (InPlaceMS.mut idConverter))
  (⟨r.1⟩, r.2)
/-- `BitOrAssign<&VecSet<B>>` (vec_set.rs:435-439) -/
def bitorAssignRef (a b : VecSet T) : VecSet T × Flow :=
  let r := InPlaceMS.merge a.elems b.elems (setUnionOp (InPlaceMS.mut cloneConverter))
  (⟨r.1⟩, r.2)
/-- `BitXorAssign<VecSet<B>>` (vec_set.rs:441-445) -/
def bitxorAssign (a b : VecSet T) : VecSet T × Flow :=
  let r := InPlaceMS.merge a.elems b.elems (setXorOp (InPlaceMS.mut idConverter))
  (⟨r.1⟩, r.2)
/-- `BitXorAssign<&VecSet<B>>` (vec_set.rs:447-453) -/
def bitxorAssignRef (a b : VecSet T) : VecSet T × Flow :=
  let r := InPlaceMS.merge a.elems b.elems (setXorOp (InPlaceMS.mut cloneConverter))
  (⟨r.1⟩, r.2)
/-- `SubAssign<VecSet<B>>` (vec_set.rs:455-459) -/
def subAssign (a b : VecSet T) : VecSet T × Flow :=
  let r := InPlaceMS.merge a.elems b.elems (setDiffOp (InPlaceMS.mut idConverter))
  (⟨r.1⟩, r.2)
/-- `SubAssign<&VecSet<B>>` (vec_set.rs:461-465) -/
def subAssignRef (a b : VecSet T) : VecSet T × Flow :=
  let r := InPlaceMS.merge a.elems b.elems (setDiffOp (InPlaceMS.mut cloneConverter))
  (⟨r.1⟩, r.2)
/-- `Extend::extend` (vec_set.rs:502-506): `*self |= Self::from_iter(iter)` -/
def extend (a : VecSet T) (l : List T) : VecSet T × Flow := a.bitorAssign (fromIter l)

/-- `union_with` (vec_set.rs:756-758): note the `NoConverter` -/
def unionWith (a b : VecSet T) : VecSet T × Flow :=
  let r := InPlaceMS.merge a.elems b.elems (setUnionOp (InPlaceMS.mut noConverter))
  (⟨r.1⟩, r.2)
/-- `intersection_with` (vec_set.rs:760-767) -/
def intersectionWith (a b : VecSet T) : VecSet T × Flow :=
  let r := InPlaceMS.merge a.elems b.elems (setIntersectionOp (InPlaceMS.mut noConverter))
  (⟨r.1⟩, r.2)
/-- `xor_with` (vec_set.rs:769-776): note the `SetIntersectionOp` -/
def xorWith (a b : VecSet T) : VecSet T × Flow :=
  let r := InPlaceMS.merge a.elems b.elems (setIntersectionOp (InPlaceMS.mut noConverter))
  (⟨r.1⟩, r.2)
/-- `difference_with` (vec_set.rs:778-780) -/
def differenceWith (a b : VecSet T) : VecSet T × Flow :=
  let r := InPlaceMS.merge a.elems b.elems (setDiffOp (InPlaceMS.mut noConverter))
  (⟨r.1⟩, r.2)

/-! ### Equality, order, hash: those of the backing vector (vec_set.rs:231-255) -/

/-- `PartialEq for VecSet` (vec_set.rs:237-241): element-wise comparison of the slices; for a lawful element type `==` is `cmp == Equal` -/
def eq (a b : VecSet T) : Bool :=
  a.elems.length == b.elems.length && (a.elems.zip b.elems).all (fun p => compare p.1 p.2 == .eq)
/-- slice `cmp`: lexicographic (std) -/
def lexCompare : List T → List T → Ordering
  | [], [] => .eq
  | [], _ :: _ => .lt
  | _ :: _, [] => .gt
  | x :: xs, y :: ys => (compare x y).then (lexCompare xs ys)
/-- `Ord for VecSet` (vec_set.rs:251-255) -/
def cmp (a b : VecSet T) : Ordering := lexCompare a.elems b.elems
/-- `Hash for VecSet` (vec_set.rs:231-235): slice hashing feeds the length and then each element to the hasher -/
def hashFeed {H : Type _} (h : T → H) (a : VecSet T) : Nat × List H := (a.elems.length, a.elems.map h)

end VecSet
end Verif
