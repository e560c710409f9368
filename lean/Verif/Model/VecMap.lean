import Verif.Model.VecSet
/-!
# Model of /repo/src/vec_map.rs

`VecMap<A>(SmallVec<A>)` with `A::Item = (K, V)` (vec_map.rs:134) is a wrapper around a list of pairs; `ArchivedVecMap` (832)
exposes the same slice. User closures are functions into `Call`, so they may panic. Lookups by a borrowed key form `Q`
(`K: Borrow<Q>`) are modelled with a key of type `K`, using that `Borrow` preserves the order.
-/
namespace Verif

/-- `enum OuterJoinArg` (vec_map.rs:232-236) -/
inductive OuterJoinArg (K V W : Type _) where
  | left (k : K) (v : V)
  | right (k : K) (w : W)
  | both (k : K) (v : V) (w : W)

/-- `if let Some(res) = f(..) { push((k, res)) }`: attach the key to an optional result -/
def Call.withKey {K R : Type _} (k : K) : Call (Option R) → Call (Option (K × R))
  | .panic => .panic
  | .ret none => .ret none
  | .ret (some r) => .ret (some (k, r))

/-! ### The callback loops -/

/-- `for _ in 0..n { if let Some(x) = m.a.next() { if let Some(r) = g(x) { m.r.push(r) } } }` (vec_map.rs:283-293, 412-421) -/
def SliceMS.loopA {A B R : Type _} (g : A → Call (Option R)) : SliceMS A B R → Nat → SliceMS A B R × Flow
  | s, 0 => (s, .cont)
  | s, n + 1 =>
    match s.a with
    | [] => loopA g s n
    | x :: as =>
      match g x with
      | .panic => ({ s with a := as }, .panic)
      | .ret o => loopA g { s with a := as, r := s.r ++ o.toList } n

/-- the same for `m.b` (vec_map.rs:294-304, 488-497) -/
def SliceMS.loopB {A B R : Type _} (g : B → Call (Option R)) : SliceMS A B R → Nat → SliceMS A B R × Flow
  | s, 0 => (s, .cont)
  | s, n + 1 =>
    match s.b with
    | [] => loopB g s n
    | x :: bs =>
      match g x with
      | .panic => ({ s with b := bs }, .panic)
      | .ret o => loopB g { s with b := bs, r := s.r ++ o.toList } n

/-- `if let Some(x) = m.a.next() { if let Some(y) = m.b.next() { if let Some(r) = g(x, y) { m.r.push(r) } } }`
(vec_map.rs:305-315, 426-435, 498-507, 564-573) -/
def SliceMS.both {A B R : Type _} (g : A → B → Call (Option R)) (s : SliceMS A B R) : SliceMS A B R × Flow :=
  match s.a with
  | [] => (s, .cont)
  | x :: as =>
    match s.b with
    | [] => ({ s with a := as }, .cont)
    | y :: bs =>
      match g x y with
      | .panic => ({ s with a := as, b := bs }, .panic)
      | .ret o => ({ a := as, b := bs, r := s.r ++ o.toList }, .cont)

/-- `m.a.drop_front(n)` (vec_map.rs:485, 557; iterators.rs:72-74): panics if fewer than `n` elements remain -/
def SliceMS.dropA {A B R : Type _} (s : SliceMS A B R) (n : Nat) : SliceMS A B R × Flow :=
  if s.a.length < n then (s, .panic) else ({ s with a := s.a.drop n }, .cont)
/-- `m.b.drop_front(n)` (vec_map.rs:423, 561) -/
def SliceMS.dropB {A B R : Type _} (s : SliceMS A B R) (n : Nat) : SliceMS A B R × Flow :=
  if s.b.length < n then (s, .panic) else ({ s with b := s.b.drop n }, .cont)

/-- `for _ in 0..n { if let Some(x) = m.a.pop_front() { if let Some(r) = g(x) { m.a.push(r) } } }` on the in-place builder
(vec_map.rs:328-337, 370-379, 448-457) -/
def InPlaceMS.loopA {A B : Type _} (g : A → Call (Option A)) : InPlaceMS A B → Nat → InPlaceMS A B × Flow
  | s, 0 => (s, .cont)
  | s, n + 1 =>
    match s.src with
    | [] => loopA g s n
    | x :: as =>
      match g x with
      | .panic => ({ s with src := as }, .panic)
      | .ret o => loopA g { s with src := as, tgt := s.tgt ++ o.toList } n

/-- the same for `m.b.next()` and `m.a.push` (vec_map.rs:338-347, 380-389, 524-533) -/
def InPlaceMS.loopB {A B : Type _} (g : B → Call (Option A)) : InPlaceMS A B → Nat → InPlaceMS A B × Flow
  | s, 0 => (s, .cont)
  | s, n + 1 =>
    match s.b with
    | [] => loopB g s n
    | x :: bs =>
      match g x with
      | .panic => ({ s with b := bs }, .panic)
      | .ret o => loopB g { s with b := bs, tgt := s.tgt ++ o.toList } n

/-- the in-place `collision` bodies (vec_map.rs:348-357, 390-399, 462-471, 534-543, 594-603) -/
def InPlaceMS.both {A B : Type _} (g : A → B → Call (Option A)) (s : InPlaceMS A B) : InPlaceMS A B × Flow :=
  match s.src with
  | [] => (s, .cont)
  | x :: as =>
    match s.b with
    | [] => ({ s with src := as }, .cont)
    | y :: bs =>
      match g x y with
      | .panic => ({ s with src := as, b := bs }, .panic)
      | .ret o => ({ src := as, b := bs, tgt := s.tgt ++ o.toList }, .cont)

/-- `m.b.drop_front(n)` (vec_map.rs:459, 591) -/
def InPlaceMS.dropB {A B : Type _} (s : InPlaceMS A B) (n : Nat) : InPlaceMS A B × Flow :=
  if s.b.length < n then (s, .panic) else ({ s with b := s.b.drop n }, .cont)

/-! ### The join operations -/
section joins
variable {K V W R : Type _} [Ord K]

/-- `OuterJoinOp` for `SmallVecMergeState` (vec_map.rs:273-316) -/
def outerJoinOp (f : OuterJoinArg K V W → Call (Option R)) : MergeOp (SliceMS (K × V) (K × W) (K × R)) (K × V) (K × W) where
  cmp a b := compare a.1 b.1
  fromA s n := s.loopA (fun x => (f (.left x.1 x.2)).withKey x.1) n
  fromB s n := s.loopB (fun y => (f (.right y.1 y.2)).withKey y.1) n
  collision s := s.both (fun x y => (f (.both x.1 x.2 y.2)).withKey x.1)

/-- `LeftJoinOp` for `SmallVecMergeState` (vec_map.rs:402-436) -/
def leftJoinOp (f : K → V → Option W → Call (Option R)) :
    MergeOp (SliceMS (K × V) (K × W) (K × R)) (K × V) (K × W) where
  cmp a b := compare a.1 b.1
  fromA s n := s.loopA (fun x => (f x.1 x.2 none).withKey x.1) n
  fromB s n := s.dropB n
  collision s := s.both (fun x y => (f x.1 x.2 (some y.2)).withKey x.1)

/-- `RightJoinOp` for `SmallVecMergeState` (vec_map.rs:474-508) -/
def rightJoinOp (f : K → Option V → W → Call (Option R)) :
    MergeOp (SliceMS (K × V) (K × W) (K × R)) (K × V) (K × W) where
  cmp a b := compare a.1 b.1
  fromA s n := s.dropA n
  fromB s n := s.loopB (fun y => (f y.1 none y.2).withKey y.1) n
  collision s := s.both (fun x y => (f x.1 (some x.2) y.2).withKey x.1)

/-- `InnerJoinOp` for `SmallVecMergeState` (vec_map.rs:546-574) -/
def innerJoinOp (f : K → V → W → Call (Option R)) :
    MergeOp (SliceMS (K × V) (K × W) (K × R)) (K × V) (K × W) where
  cmp a b := compare a.1 b.1
  fromA s n := s.dropA n
  fromB s n := s.dropB n
  collision s := s.both (fun x y => (f x.1 x.2 y.2).withKey x.1)

/-- `OuterJoinOp` for `InPlaceSmallVecMergeStateRef` (vec_map.rs:318-358) and for `InPlaceMergeState` (360-400) -/
def outerJoinWithOp (f : OuterJoinArg K V W → Call (Option V)) : MergeOp (InPlaceMS (K × V) (K × W)) (K × V) (K × W) where
  cmp a b := compare a.1 b.1
  fromA s n := s.loopA (fun x => (f (.left x.1 x.2)).withKey x.1) n
  fromB s n := s.loopB (fun y => (f (.right y.1 y.2)).withKey y.1) n
  collision s := s.both (fun x y => (f (.both x.1 x.2 y.2)).withKey x.1)

/-- `LeftJoinOp` for `InPlaceSmallVecMergeStateRef` (vec_map.rs:438-472) -/
def leftJoinWithOp (f : K → V → Option W → Call (Option V)) :
    MergeOp (InPlaceMS (K × V) (K × W)) (K × V) (K × W) where
  cmp a b := compare a.1 b.1
  fromA s n := s.loopA (fun x => (f x.1 x.2 none).withKey x.1) n
  fromB s n := s.dropB n
  collision s := s.both (fun x y => (f x.1 x.2 (some y.2)).withKey x.1)

/-- `RightJoinOp` for `InPlaceSmallVecMergeStateRef` (vec_map.rs:510-544) -/
def rightJoinWithOp (f : K → Option V → W → Call (Option V)) :
    MergeOp (InPlaceMS (K × V) (K × W)) (K × V) (K × W) where
  cmp a b := compare a.1 b.1
  fromA s n := (s.consume n false, .cont)
  fromB s n := s.loopB (fun y => (f y.1 none y.2).withKey y.1) n
  collision s := s.both (fun x y => (f x.1 (some x.2) y.2).withKey x.1)

/-- `InnerJoinOp` for `InPlaceSmallVecMergeStateRef` (vec_map.rs:576-604) -/
def innerJoinWithOp (f : K → V → W → Call (Option V)) :
    MergeOp (InPlaceMS (K × V) (K × W)) (K × V) (K × W) where
  cmp a b := compare a.1 b.1
  fromA s n := (s.consume n false, .cont)
  fromB s n := s.dropB n
  collision s := s.both (fun x y => (f x.1 x.2 y.2).withKey x.1)

end joins

/-- `struct VecMap<A>(SmallVec<A>)` (vec_map.rs:134) -/
structure VecMap (K V : Type _) where
  entries : List (K × V)

namespace VecMap
variable {K V W R : Type _} [Ord K]

/-- `as_slice`/`as_ref`/`iter`/`into_iter`/`into_inner` (vec_map.rs:42-44, 118-129, 179-193, 261-271, 638-640, 652-654) -/
def asSlice (m : VecMap K V) : List (K × V) := m.entries
/-- `len` (vec_map.rs:633-635) -/
def len (m : VecMap K V) : Nat := m.entries.length
/-- `is_empty` (vec_map.rs:38-40, 624-626) -/
def isEmpty (m : VecMap K V) : Bool := m.entries.isEmpty
/-- `AbstractVecMap::get` (vec_map.rs:47-58): `binary_search_by`, then `elements[index].1` -/
def get (m : VecMap K V) (key : K) : Option V :=
  match binarySearchBy (fun p => compare p.1 key) m.entries with
  | .found i => m.entries[i]?.map (·.2)
  | .notFound _ => none
/-- a write through `get_mut` (vec_map.rs:758-768): `if let Some(v) = m.get_mut(k) { *v = w(v) }`; the result says whether there
was something to write to -/
def updateMut (m : VecMap K V) (key : K) (w : V → V) : VecMap K V × Bool :=
  match binarySearchBy (fun p => compare p.1 key) m.entries with
  | .found i =>
    match m.entries[i]? with
    | some e => (⟨m.entries.set i (e.1, w e.2)⟩, true)
    | none => (m, false)
  | .notFound _ => (m, false)

/-! ### Constructors and conversions -/

/-- `empty`, `Default` (vec_map.rs:195-199, 628-630) -/
def empty : VecMap K V := ⟨[]⟩
/-- `single` (vec_map.rs:657-659) -/
def single (e : K × V) : VecMap K V := ⟨[e]⟩
/-- `FromIterator` (vec_map.rs:243-247) -/
def fromIter (l : List (K × V)) : VecMap K V := ⟨sortDedupByKey .last (fun e : K × V => e.1) l⟩
/-- `From<BTreeMap>` (vec_map.rs:249-253): the entries in iteration order, which a `BTreeMap` yields ascending by key -/
def fromBTreeMap (l : List (K × V)) : VecMap K V := ⟨l⟩
/-- `map_values` (vec_map.rs:608-615) -/
def mapValues (m : VecMap K V) (f : V → R) : VecMap K R := ⟨m.entries.map (fun e => (e.1, f e.2))⟩
/-- `From<VecMap> for VecSet` (vec_map.rs:201-206) -/
def toVecSet (m : VecMap K V) : VecSet (K × V) := ⟨m.entries⟩
/-- `Visitor::visit_map` (vec_map.rs:817-827): push every entry, `sort_by_key`, `dedup_by_key`. `dedup_by_key` uses `==`, which for a
lawful `Ord` agrees with `cmp == Equal`. -/
def visitMap {E : Type _} (seq : List (Except E (K × V))) : Except E (VecMap K V) := go [] seq
where
  /-- the `while let Some(value) = map.next_entry()?` loop (vec_map.rs:821-823) -/
  go {E : Type _} (values : List (K × V)) : List (Except E (K × V)) → Except E (VecMap K V)
    | [] => .ok ⟨stdDedupBy (fun a b => compare a.1 b.1 == .eq) (stableSortBy (fun a b => compare a.1 b.1) values)⟩
    | .error e :: _ => .error e
    | .ok x :: rest => go (values ++ [x]) rest
/-- `Serialize` (vec_map.rs:777-783): the entries handed to the serializer -/
def serialize (m : VecMap K V) : List (K × V) := m.entries

/-- `CheckBytes for ArchivedVecMap` (vec_map.rs:910-926) -/
def checkBytes (valid : K × V → Bool) (l : List (K × V)) : Except VecSet.ArchiveError (VecMap K V) :=
  if !l.all valid then .error .valueCheck
  else if !(l.zip (l.drop 1)).all (fun p => compare p.1.1 p.2.1 == .lt) then .error .orderCheck
  else .ok ⟨l⟩

/-- rkyv `serialize`/`resolve` (vec_map.rs:835-861): the archived slice holds the archived entries in order -/
def archive {K' V' : Type _} (ak : K → K') (av : V → V') (m : VecMap K V) : VecMap K' V' :=
  ⟨m.entries.map (fun e => (ak e.1, av e.2))⟩
/-- rkyv `deserialize` (vec_map.rs:864-878): entry by entry, no reordering -/
def unarchive {K' V' E : Type _} (de : K' × V' → Except E (K × V)) (m : VecMap K' V') : Except E (VecMap K V) :=
  match m.entries.mapM de with
  | .ok l => .ok ⟨l⟩
  | .error e => .error e

/-! ### Element operations -/

/-- `insert` (vec_map.rs:663-675): on a hit the whole pair (key included) is swapped in -/
def insert (m : VecMap K V) (key : K) (value : V) : VecMap K V × Option V :=
  match binarySearchBy (fun p => compare p.1 key) m.entries with
  | .found i => (⟨m.entries.set i (key, value)⟩, m.entries[i]?.map (·.2))
  | .notFound i => (⟨m.entries.insertIdx i (key, value)⟩, none)
/-- `retain` (vec_map.rs:643-645) -/
def retain {P : Type _} (m : VecMap K V) (f : P → K × V → Call (P × Bool)) (p : P) : VecMap K V × P × Flow :=
  let r := smallVecRetain f m.entries p
  (⟨r.1⟩, r.2)

/-! ### Joins by reference -/

/-- `outer_join` (vec_map.rs:61-73) -/
def outerJoin (a : VecMap K V) (b : VecMap K W) (f : OuterJoinArg K V W → Call (Option R)) : VecMap K R × Flow :=
  let r := SliceMS.merge a.entries b.entries (outerJoinOp f)
  (⟨r.1⟩, r.2)
/-- `left_join` (vec_map.rs:75-87) -/
def leftJoin (a : VecMap K V) (b : VecMap K W) (f : K → V → Option W → Call (Option R)) : VecMap K R × Flow :=
  let r := SliceMS.merge a.entries b.entries (leftJoinOp f)
  (⟨r.1⟩, r.2)
/-- `right_join` (vec_map.rs:89-101) -/
def rightJoin (a : VecMap K V) (b : VecMap K W) (f : K → Option V → W → Call (Option R)) : VecMap K R × Flow :=
  let r := SliceMS.merge a.entries b.entries (rightJoinOp f)
  (⟨r.1⟩, r.2)
/-- `inner_join` (vec_map.rs:103-115) -/
def innerJoin (a : VecMap K V) (b : VecMap K W) (f : K → V → W → Call (Option R)) : VecMap K R × Flow :=
  let r := SliceMS.merge a.entries b.entries (innerJoinOp f)
  (⟨r.1⟩, r.2)

/-! ### Joins in place; the returned map is the value of `self` afterwards, also after a panic -/

/-- `outer_join_with` (vec_map.rs:716-727) -/
def outerJoinWith (a : VecMap K V) (b : VecMap K W) (f : OuterJoinArg K V W → Call (Option V)) : VecMap K V × Flow :=
  let r := InPlaceMS.merge a.entries b.entries (outerJoinWithOp f)
  (⟨r.1⟩, r.2)
/-- `left_join_with` (vec_map.rs:690-701) -/
def leftJoinWith (a : VecMap K V) (b : VecMap K W) (f : K → V → Option W → Call (Option V)) : VecMap K V × Flow :=
  let r := InPlaceMS.merge a.entries b.entries (leftJoinWithOp f)
  (⟨r.1⟩, r.2)
/-- `right_join_with` (vec_map.rs:703-714) -/
def rightJoinWith (a : VecMap K V) (b : VecMap K W) (f : K → Option V → W → Call (Option V)) : VecMap K V × Flow :=
  let r := InPlaceMS.merge a.entries b.entries (rightJoinWithOp f)
  (⟨r.1⟩, r.2)
/-- `inner_join_with` (vec_map.rs:677-688) -/
def innerJoinWith (a : VecMap K V) (b : VecMap K W) (f : K → V → W → Call (Option V)) : VecMap K V × Flow :=
  let r := InPlaceMS.merge a.entries b.entries (innerJoinWithOp f)
  (⟨r.1⟩, r.2)
/-- `combine_with` (vec_map.rs:737-754) -/
def combineWith (a b : VecMap K V) (f : V → V → Call V) : VecMap K V × Flow :=
  a.outerJoinWith b (fun
    | .left _ v => .ret (some v)
    | .right _ w => .ret (some w)
    | .both _ v w => match f v w with
      | .ret r => .ret (some r)
      | .panic => .panic)
/-- `merge_with` (vec_map.rs:731-733) -/
def mergeWith (a b : VecMap K V) : VecMap K V × Flow := a.combineWith b (fun _ r => .ret r)
/-- `Extend::extend` (vec_map.rs:255-259) -/
def extend (a : VecMap K V) (l : List (K × V)) : VecMap K V × Flow := a.mergeWith (fromIter l)

/-! ### Equality, order, hash: those of the backing vector (vec_map.rs:153-177) -/

/-- `PartialEq for VecMap` (vec_map.rs:159-163): element-wise comparison of the pairs -/
def eq [BEq V] (a b : VecMap K V) : Bool :=
  a.entries.length == b.entries.length &&
    (a.entries.zip b.entries).all (fun p => compare p.1.1 p.2.1 == .eq && p.1.2 == p.2.2)

/-- `Hash for VecMap` (vec_map.rs:153-157): what is fed to the hasher (slice hashing: the length, then each pair) -/
def hashFeed {H : Type _} (h : K × V → H) (a : VecMap K V) : Nat × List H := (a.entries.length, a.entries.map h)

/-- `Ord for VecMap` (vec_map.rs:173-177): lexicographic comparison of the slices of pairs, which Rust compares by key, then value -/
def cmp [Ord V] (a b : VecMap K V) : Ordering :=
  letI : Ord (K × V) := lexOrd
  VecSet.lexCompare a.entries b.entries

end VecMap
end Verif
