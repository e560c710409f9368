import Verif.Model.LazyIter
/-!
# Several iterators and lookups on one lazily loaded tree

In `Model/LazyIter.lean` an iterator owns the nodes on its stack. Here the tree is one object that all readers look at (`&'a RadixTree`, mod.rs:888), and a vector of children
that one of them loads is loaded for all of them. A reference to a node is modelled by its position: the numbers of the children that lead to it from the root.

Simplifications: the readers take turns, where a turn is one turn of the loop in `next` or one lookup. (In a turn of the loop at most one vector is loaded; that
loading is atomic is C55.) The counters in `Reader` are not in the code.
-/
namespace Verif.Cow
open Verif.Tree (Turn)
variable {K V : Type}

/-- the node at a position -/
def CTree.at : CTree K V → List Nat → Option (CTree K V)
  | t, [] => some t
  | t, i :: q =>
    match t.kids[i]? with
    | none => none
    | some c => c.at q

/-- `children()` of the node at a position (lazy_radix_tree.rs:55-57, 101-103): the vector is loaded inside the tree -/
def CTree.loadAt : CTree K V → List Nat → Charged (CTree K V)
  | t, [] => t.load
  | t, i :: q =>
    match t.kids[i]? with
    | none => pure t
    | some c => do
      let c ← c.loadAt q
      pure { t with kids := t.kids.set i c }

/-- `struct Iter { path, stack }` (mod.rs:885-889) -/
structure PIter (K : Type) where
  path : List K
  stack : List (List Nat × Nat)

/-- One turn of the loop in `Iter::next` (mod.rs:925-941), including `inc` (912-917), on a tree that others look at, too. That a position on the stack has no node cannot happen. -/
def PIter.turn (root : CTree K V) (s : PIter K) : Charged (CTree K V × Turn (PIter K) (List K × V)) :=
  match s.stack with
  | [] => pure (root, .done)
  | (q, pos) :: rest =>
    match root.at q with
    | none => pure (root, .done)
    | some t =>
      match pos with
      | 0 =>
        match t.val with
        | some v => pure (root, .yield (s.path, v) { s with stack := (q, 1) :: rest })
        | none => pure (root, .again { s with stack := (q, 1) :: rest })
      | pos + 1 => do
        let root ← root.loadAt q
        match t.kids[pos]? with
        | some child => pure (root, .again { path := s.path ++ child.pre, stack := (q ++ [pos], 0) :: (q, pos + 2) :: rest })
        | none => pure (root, .again { path := s.path.take (s.path.length - t.pre.length), stack := rest })

/-- `struct Values { stack }` (mod.rs:834-837) -/
structure PValues where
  stack : List (List Nat × Nat)

/-- one turn of the loop in `Values::next` (mod.rs:865-878) -/
def PValues.turn (root : CTree K V) (s : PValues) : Charged (CTree K V × Turn PValues V) :=
  match s.stack with
  | [] => pure (root, .done)
  | (q, pos) :: rest =>
    match root.at q with
    | none => pure (root, .done)
    | some t =>
      match pos with
      | 0 =>
        match t.val with
        | some v => pure (root, .yield v { stack := (q, 1) :: rest })
        | none => pure (root, .again { stack := (q, 1) :: rest })
      | pos + 1 => do
        let root ← root.loadAt q
        match t.kids[pos]? with
        | some _ => pure (root, .again { stack := (q ++ [pos], 0) :: (q, pos + 2) :: rest })
        | none => pure (root, .again { stack := rest })

/-- an iterator, what it has given so far, whether it has ended, and how many turns it has taken and vectors it has loaded -/
structure Reader (σ ι : Type) where
  it : σ
  out : List ι
  ended : Bool
  turns : Nat
  loads : Nat

/-- the reader after a turn -/
def Reader.after {σ ι : Type} (r : Reader σ ι) (t : Turn σ ι) (m : Mem) : Reader σ ι :=
  match t with
  | .done => { r with ended := true }
  | .again it => { r with it := it, turns := r.turns + 1, loads := r.loads + m.loads }
  | .yield x it => { r with it := it, out := r.out ++ [x], turns := r.turns + 1, loads := r.loads + m.loads }

/-- the result of `find` (mod.rs:700-717), with positions for references -/
inductive Spot where
  | found (q : List Nat)
  | prefix (q : List Nat) (rt : Nat)
  | notFound

/-- what is found below the child number `i` -/
def Spot.below (i : Nat) : Spot → Spot
  | .found q => .found (i :: q)
  | .prefix q rt => .prefix (i :: q) rt
  | .notFound => .notFound

/-- The position that `find` (mod.rs:724-760) returns; what it loads is in `findGo` (`Model/CopyOnWrite.lean`). The first argument bounds the depth of the recursion. -/
def locate [Ord K] [DecidableEq K] : Nat → CTree K V → List K → Spot
  | 0, _, _ => .notFound
  | fuel + 1, t, p =>
    if p.length - Tree.commonPrefix t.pre p = 0 ∧ t.pre.length - Tree.commonPrefix t.pre p = 0 then .found []
    else if p.length - Tree.commonPrefix t.pre p = 0 then .prefix [] (t.pre.length - Tree.commonPrefix t.pre p)
    else if t.pre.length - Tree.commonPrefix t.pre p = 0 then
      match binarySearchBy (fun q : List K => compare q.head? p[Tree.commonPrefix t.pre p]?) (t.kids.map CTree.pre) with
      | .found i =>
        match t.kids[i]? with
        | none => .notFound
        | some c => (locate fuel c (p.drop (Tree.commonPrefix t.pre p))).below i
      | .notFound _ => .notFound
    else .notFound

/-- the iterator that `scan_prefix` makes of it (mod.rs:682-696) -/
def Spot.scan (root : CTree K V) (p : List K) : Spot → PIter K
  | .found q => ⟨p, [(q, 0)]⟩
  | .prefix q rt =>
    match root.at q with
    | none => ⟨[], []⟩
    | some t => ⟨p ++ t.pre.drop (t.pre.length - rt), [(q, 0)]⟩
  | .notFound => ⟨[], []⟩

/-- a tree, the iterators on it (those of `scan_prefix` with the prefix), and the answers to the lookups so far -/
structure Visited (K V : Type) where
  root : CTree K V
  iters : List (Reader (PIter K) (List K × V))
  values : List (Reader PValues V)
  scans : List (List K × Reader (PIter K) (List K × V))
  answers : List (List K × Option V)

/-- what somebody who has a `&RadixTree` does -/
inductive Look (K : Type) where
  | iter
  | values
  | turnIter (i : Nat)
  | turnValues (i : Nat)
  | get (key : List K)
  | scan (p : List K)
  | turnScan (i : Nat)

variable [Ord K] [DecidableEq K]

/-- `iter()` (mod.rs:588-593), `values()` (mod.rs:601-606), a turn of an iterator, `get` (mod.rs:619-626), `scan_prefix` (mod.rs:682-696) -/
def Visited.step (s : Visited K V) : Look K → Charged (Visited K V)
  | .iter => pure { s with iters := s.iters ++ [⟨⟨s.root.pre, [([], 0)]⟩, [], false, 0, 0⟩] }
  | .values => pure { s with values := s.values ++ [⟨⟨[([], 0)]⟩, [], false, 0, 0⟩] }
  | .turnIter i =>
    match s.iters[i]? with
    | none => pure s
    | some r =>
      ⟨(r.it.turn s.root).mem, { s with root := (r.it.turn s.root).res.1, iters := s.iters.set i (r.after (r.it.turn s.root).res.2 (r.it.turn s.root).mem) }⟩
  | .turnValues i =>
    match s.values[i]? with
    | none => pure s
    | some r =>
      ⟨(r.it.turn s.root).mem, { s with root := (r.it.turn s.root).res.1, values := s.values.set i (r.after (r.it.turn s.root).res.2 (r.it.turn s.root).mem) }⟩
  | .get key => do
    let r ← s.root.get key
    pure { s with root := r.2, answers := s.answers ++ [(key, r.1)] }
  | .scan p =>
    ⟨(findGo id (s.root.plain.size + 1) s.root p).mem, { s with
      root := (findGo id (s.root.plain.size + 1) s.root p).res.2
      scans := s.scans ++ [(p, ⟨(locate (s.root.plain.size + 1) s.root p).scan s.root p, [], false, 0, (findGo id (s.root.plain.size + 1) s.root p).mem.loads⟩)] }⟩
  | .turnScan i =>
    match s.scans[i]? with
    | none => pure s
    | some r =>
      ⟨(r.2.it.turn s.root).mem, { s with root := (r.2.it.turn s.root).res.1, scans := s.scans.set i (r.1, r.2.after (r.2.it.turn s.root).res.2 (r.2.it.turn s.root).mem) }⟩

/-- any sequence of them -/
def Visited.run (s : Visited K V) : List (Look K) → Charged (Visited K V)
  | [] => pure s
  | a :: as => do
    let s ← s.step a
    s.run as

/-- a tree that nobody has looked at yet -/
def CTree.visit (t : CTree K V) : Visited K V := { root := t, iters := [], values := [], scans := [], answers := [] }

end Verif.Cow
