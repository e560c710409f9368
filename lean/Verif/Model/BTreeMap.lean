import Verif.Model.VecMap
/-!
# Model of /repo/src/btree_map.rs

std's `BTreeMap` and rkyv's `ArchivedBTreeMap` are external; they are modelled by their documented behaviour: the list of their
entries in ascending key order. `Std*` functions below are that external behaviour (trusted base), everything else is the code
of btree_map.rs. All closures here are `Fn`, modelled as pure functions; a closure taking `&mut V` and returning `bool` returns the
new value and the answer.
-/
namespace Verif

/-- `std::collections::BTreeMap<K, V>` or `rkyv::ArchivedBTreeMap<K, V>`: the entries in iteration order. `AbstractBTreeMapIter`
(btree_map.rs:12-26) yields them in that order for both. -/
structure BTreeMap (K V : Type _) where
  entries : List (K × V)

namespace BTreeMap
section std
variable {K V : Type _} [Ord K]

/-- `BTreeMap::new()` -/
def new : BTreeMap K V := ⟨[]⟩

/-- std `BTreeMap::get` / rkyv `ArchivedBTreeMap::get` (called at btree_map.rs:38, 52) -/
def get (m : BTreeMap K V) (k : K) : Option V :=
  (m.entries.find? (fun e => compare e.1 k == .eq)).map (·.2)

/-- std `BTreeMap::insert` on the entry list: a new key goes to its place; for a key that is present the stored key stays and the value
is replaced. -/
def stdInsert (k : K) (v : V) : List (K × V) → List (K × V)
  | [] => [(k, v)]
  | e :: l =>
    match compare k e.1 with
    | .lt => (k, v) :: e :: l
    | .eq => (e.1, v) :: l
    | .gt => e :: stdInsert k v l

/-- std `BTreeMap::insert` -/
def insert (m : BTreeMap K V) (k : K) (v : V) : BTreeMap K V := ⟨stdInsert k v m.entries⟩

/-- std `BTreeMap::remove` -/
def remove (m : BTreeMap K V) (k : K) : BTreeMap K V := ⟨m.entries.filter (fun e => compare e.1 k != .eq)⟩

/-- writing `v` through `*BTreeMap::get_mut(k).unwrap()` -/
def setMut (m : BTreeMap K V) (k : K) (v : V) : BTreeMap K V :=
  ⟨m.entries.map (fun e => if compare e.1 k = .eq then (e.1, v) else e)⟩

/-- std `BTreeMap::retain` with a closure that may change the value -/
def retain (m : BTreeMap K V) (f : K → V → V × Bool) : BTreeMap K V :=
  ⟨m.entries.filterMap (fun e => match f e.1 e.2 with
    | (v, true) => some (e.1, v)
    | (_, false) => none)⟩
end std

section joins
variable {K V W R : Type _} [Ord K]

/-- `if let Some(r) = o { res.insert(k.clone(), r) }` -/
def insertOpt (res : BTreeMap K R) (k : K) : Option R → BTreeMap K R
  | some r => res.insert k r
  | none => res

/-- `outer_join` (btree_map.rs:63-87) -/
def outerJoin (a : BTreeMap K V) (b : BTreeMap K W) (f : OuterJoinArg K V W → Option R) : BTreeMap K R :=
  let res := a.entries.foldl (fun res e =>
    insertOpt res e.1 (f (match b.get e.1 with
      | some w => .both e.1 e.2 w
      | none => .left e.1 e.2))) new
  b.entries.foldl (fun res e => if (a.get e.1).isNone then insertOpt res e.1 (f (.right e.1 e.2)) else res) res

/-- `left_join` (btree_map.rs:89-102) -/
def leftJoin (a : BTreeMap K V) (b : BTreeMap K W) (f : K → V → Option W → Option R) : BTreeMap K R :=
  a.entries.foldl (fun res e => insertOpt res e.1 (f e.1 e.2 (b.get e.1))) new

/-- `right_join` (btree_map.rs:104-117) -/
def rightJoin (a : BTreeMap K V) (b : BTreeMap K W) (f : K → Option V → W → Option R) : BTreeMap K R :=
  b.entries.foldl (fun res e => insertOpt res e.1 (f e.1 (a.get e.1) e.2)) new

/-- `size_hint().0` of `AbstractBTreeMapIter`: the iterator (btree_map.rs:17-26) does not override `size_hint`, so it is the default `0` -/
def sizeHint (_ : BTreeMap K V) : Nat := 0

/-- `inner_join` (btree_map.rs:119-145) -/
def innerJoin (a : BTreeMap K V) (b : BTreeMap K W) (f : K → V → W → Option R) : BTreeMap K R :=
  if a.sizeHint < b.sizeHint then
    a.entries.foldl (fun res e => match b.get e.1 with
      | some w => insertOpt res e.1 (f e.1 e.2 w)
      | none => res) new
  else
    b.entries.foldl (fun res e => match a.get e.1 with
      | some v => insertOpt res e.1 (f e.1 v e.2)
      | none => res) new

/-- `inner_join_with` (btree_map.rs:172-178); `unwrap_or_default` of a `bool` is `false` -/
def innerJoinWith (a : BTreeMap K V) (b : BTreeMap K W) (f : K → V → W → V × Bool) : BTreeMap K V :=
  a.retain (fun k v => match b.get k with
    | some w => f k v w
    | none => (v, false))

/-- `left_join_with` (btree_map.rs:180-186) -/
def leftJoinWith (a : BTreeMap K V) (b : BTreeMap K W) (f : K → V → Option W → V × Bool) : BTreeMap K V :=
  a.retain (fun k v => f k v (b.get k))

/-- one turn of the loop of `right_join_with` (btree_map.rs:194-196). `f` is called with `Some(&mut v)` or `None`; it is given by its two
cases. -/
def rightJoinWithStep (fSome : K → V → W → V × Bool) (fNone : K → W → Bool) (m : BTreeMap K V) (e : K × W) : BTreeMap K V :=
  match m.get e.1 with
  | some v =>
    if (fSome e.1 v e.2).2 then m.setMut e.1 (fSome e.1 v e.2).1
    else (m.setMut e.1 (fSome e.1 v e.2).1).remove e.1
  | none => if fNone e.1 e.2 then m else m.remove e.1

/-- `right_join_with` (btree_map.rs:188-198) -/
def rightJoinWith (a : BTreeMap K V) (b : BTreeMap K W) (fSome : K → V → W → V × Bool) (fNone : K → W → Bool) : BTreeMap K V :=
  b.entries.foldl (rightJoinWithStep fSome fNone) a

/-- one turn of the first loop of `outer_join_with` (btree_map.rs:207-219) -/
def outerJoinWithStep (l : K → V → Option W → V × Bool) (r : K → W → Option V) (m : BTreeMap K V) (e : K × W) : BTreeMap K V :=
  match m.get e.1 with
  | some v =>
    if (l e.1 v (some e.2)).2 then m.setMut e.1 (l e.1 v (some e.2)).1
    else (m.setMut e.1 (l e.1 v (some e.2)).1).remove e.1
  | none => insertOpt m e.1 (r e.1 e.2)

/-- `outer_join_with` (btree_map.rs:200-223) -/
def outerJoinWith (a : BTreeMap K V) (b : BTreeMap K W) (l : K → V → Option W → V × Bool) (r : K → W → Option V) : BTreeMap K V :=
  (b.entries.foldl (outerJoinWithStep l r) a).retain (fun k v => match b.get k with
    | some _ => (v, true)
    | none => l k v none)
end joins

end BTreeMap
end Verif
