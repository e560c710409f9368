import Verif.Model.BTreeMap
/-!
# The joins of /repo/src/btree_map.rs for closures with side effects

As in `Verif/Model/BTreeMap.lean`, but every call of a closure reads and changes a state `S` and may panic. A closure that takes `&mut V`
returns the value it leaves behind, also when it panics.
-/
namespace Verif

/-- `for x in xs { body }` over a map `m`, left early by a panic; the `Bool` says whether it panicked -/
def forEachE {M X S : Type _} (body : M → X → S → M × Bool × S) : List X → M → S → M × Bool × S
  | [], m, s => (m, false, s)
  | x :: xs, m, s =>
    match body m x s with
    | (m', true, s') => (m', true, s')
    | (m', false, s') => forEachE body xs m' s'

namespace BTreeMap
section
variable {K V W R S : Type _} [Ord K]

/-- std `BTreeMap::retain` on the entries: one call per entry in order; if a call panics the entries not yet visited stay, and so does the
one being visited, as the closure left it -/
def retainListE (f : K → V → S → V × Call Bool × S) : List (K × V) → S → List (K × V) × Bool × S
  | [], s => ([], false, s)
  | e :: l, s =>
    match f e.1 e.2 s with
    | (v, .panic, s') => ((e.1, v) :: l, true, s')
    | (v, .ret true, s') => ((e.1, v) :: (retainListE f l s').1, (retainListE f l s').2)
    | (_, .ret false, s') => retainListE f l s'

/-- std `BTreeMap::retain` -/
def retainE (m : BTreeMap K V) (f : K → V → S → V × Call Bool × S) (s : S) : BTreeMap K V × Bool × S :=
  match retainListE f m.entries s with
  | (l, p, s) => (⟨l⟩, p, s)

/-- `if let Some(r) = f(..) { res.insert(k.clone(), r) }` -/
def insertAnswer (res : BTreeMap K R) (k : K) : Call (Option R) × S → BTreeMap K R × Bool × S
  | (.panic, s) => (res, true, s)
  | (.ret o, s) => (res.insertOpt k o, false, s)

/-- the method returns its result, or nothing if it panicked -/
def returned : BTreeMap K R × Bool × S → Call (BTreeMap K R) × S
  | (_, true, s) => (.panic, s)
  | (m, false, s) => (.ret m, s)

/-- the argument of the closure in the first loop of `outer_join` (btree_map.rs:70-73) -/
def outerArgA (b : BTreeMap K W) (e : K × V) : OuterJoinArg K V W :=
  match b.get e.1 with
  | some w => .both e.1 e.2 w
  | none => .left e.1 e.2

/-- `outer_join` (btree_map.rs:63-87) -/
def outerJoinE (a : BTreeMap K V) (b : BTreeMap K W) (f : OuterJoinArg K V W → S → Call (Option R) × S) (s : S) : Call (BTreeMap K R) × S :=
  match forEachE (fun res (e : K × V) s => insertAnswer res e.1 (f (outerArgA b e) s)) a.entries new s with
  | (_, true, s) => (.panic, s)
  | (res, false, s) => returned (forEachE (fun res (e : K × W) s =>
      if (a.get e.1).isNone then insertAnswer res e.1 (f (.right e.1 e.2) s) else (res, false, s)) b.entries res s)

/-- `left_join` (btree_map.rs:89-102) -/
def leftJoinE (a : BTreeMap K V) (b : BTreeMap K W) (f : K × V × Option W → S → Call (Option R) × S) (s : S) : Call (BTreeMap K R) × S :=
  returned (forEachE (fun res (e : K × V) s => insertAnswer res e.1 (f (e.1, e.2, b.get e.1) s)) a.entries new s)

/-- `right_join` (btree_map.rs:104-117) -/
def rightJoinE (a : BTreeMap K V) (b : BTreeMap K W) (f : K × Option V × W → S → Call (Option R) × S) (s : S) : Call (BTreeMap K R) × S :=
  returned (forEachE (fun res (e : K × W) s => insertAnswer res e.1 (f (e.1, a.get e.1, e.2) s)) b.entries new s)

/-- `inner_join` (btree_map.rs:119-145) -/
def innerJoinE (a : BTreeMap K V) (b : BTreeMap K W) (f : K × V × W → S → Call (Option R) × S) (s : S) : Call (BTreeMap K R) × S :=
  if a.sizeHint < b.sizeHint then
    returned (forEachE (fun res (e : K × V) s => match b.get e.1 with
      | some w => insertAnswer res e.1 (f (e.1, e.2, w) s)
      | none => (res, false, s)) a.entries new s)
  else
    returned (forEachE (fun res (e : K × W) s => match a.get e.1 with
      | some v => insertAnswer res e.1 (f (e.1, v, e.2) s)
      | none => (res, false, s)) b.entries new s)

/-- the predicate that `inner_join_with` hands to `retain` (btree_map.rs:177); `unwrap_or_default` of a `bool` is `false` -/
def innerAsk (b : BTreeMap K W) (f : K × V × W → S → V × Call Bool × S) (k : K) (v : V) (s : S) : V × Call Bool × S :=
  match b.get k with
  | some w => f (k, v, w) s
  | none => (v, .ret false, s)

/-- `inner_join_with` (btree_map.rs:172-178) -/
def innerJoinWithE (a : BTreeMap K V) (b : BTreeMap K W) (f : K × V × W → S → V × Call Bool × S) (s : S) : BTreeMap K V × Bool × S :=
  a.retainE (innerAsk b f) s

/-- `left_join_with` (btree_map.rs:180-186) -/
def leftJoinWithE (a : BTreeMap K V) (b : BTreeMap K W) (f : K × V × Option W → S → V × Call Bool × S) (s : S) : BTreeMap K V × Bool × S :=
  a.retainE (fun k v s => f (k, v, b.get k) s) s

/-- `if !f(k, v, w) { self.remove(k) }` where `v` is `self.get_mut(k)` (btree_map.rs:195-196, 211-213) -/
def updateAnswer (m : BTreeMap K V) (k : K) : V × Call Bool × S → BTreeMap K V × Bool × S
  | (v, .panic, s) => (m.setMut k v, true, s)
  | (v, .ret true, s) => (m.setMut k v, false, s)
  | (v, .ret false, s) => ((m.setMut k v).remove k, false, s)

/-- one turn of the loop of `right_join_with` (btree_map.rs:194-196). The closure is given by its two cases. -/
def rightJoinWithStepE (fSome : K × V × W → S → V × Call Bool × S) (fNone : K × W → S → Call Bool × S) (m : BTreeMap K V) (e : K × W)
    (s : S) : BTreeMap K V × Bool × S :=
  match m.get e.1 with
  | some v => updateAnswer m e.1 (fSome (e.1, v, e.2) s)
  | none =>
    match fNone (e.1, e.2) s with
    | (.panic, s) => (m, true, s)
    | (.ret true, s) => (m, false, s)
    | (.ret false, s) => (m.remove e.1, false, s)

/-- `right_join_with` (btree_map.rs:188-198) -/
def rightJoinWithE (a : BTreeMap K V) (b : BTreeMap K W) (fSome : K × V × W → S → V × Call Bool × S)
    (fNone : K × W → S → Call Bool × S) (s : S) : BTreeMap K V × Bool × S :=
  forEachE (rightJoinWithStepE fSome fNone) b.entries a s

/-- one turn of the first loop of `outer_join_with` (btree_map.rs:207-219) -/
def outerJoinWithStepE (l : K × V × Option W → S → V × Call Bool × S) (r : K × W → S → Call (Option V) × S) (m : BTreeMap K V) (e : K × W)
    (s : S) : BTreeMap K V × Bool × S :=
  match m.get e.1 with
  | some v => updateAnswer m e.1 (l (e.1, v, some e.2) s)
  | none => insertAnswer m e.1 (r (e.1, e.2) s)

/-- the predicate that `outer_join_with` hands to `retain` (btree_map.rs:222) -/
def outerAsk (b : BTreeMap K W) (l : K × V × Option W → S → V × Call Bool × S) (k : K) (v : V) (s : S) : V × Call Bool × S :=
  match b.get k with
  | some _ => (v, .ret true, s)
  | none => l (k, v, none) s

/-- `outer_join_with` (btree_map.rs:200-223) -/
def outerJoinWithE (a : BTreeMap K V) (b : BTreeMap K W) (l : K × V × Option W → S → V × Call Bool × S)
    (r : K × W → S → Call (Option V) × S) (s : S) : BTreeMap K V × Bool × S :=
  match forEachE (outerJoinWithStepE l r) b.entries a s with
  | (m, true, s) => (m, true, s)
  | (m, false, s) => m.retainE (outerAsk b l) s
end
end BTreeMap
end Verif
