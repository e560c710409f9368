import Verif.Model.CopyOnWrite
/-!
# Which vectors of children an iteration loads

The iterators of mod.rs run over trees whose vectors of children may still be slices of an archive (`Model/CopyOnWrite.lean`); loads are counted. An iterator
borrows the tree, so nothing is copied or created.

Simplification: the tree is not one mutable object here; a node on the stack is loaded there. A node comes onto the stack at most once during an iteration and
what is below it is not looked at in any other way, so that counts the same; `Model/LazyReaders.lean` has the tree as one object.
-/
namespace Verif.Cow
open Verif.Tree (Turn)
variable {K V : Type}

/-- `struct Iter { path, stack }` (mod.rs:885-889). The head of `stack` is the top. -/
structure CIter (K V : Type) where
  path : List K
  stack : List (CTree K V × Nat)

/-- `Iter::empty` (mod.rs:892-898) -/
def CIter.empty : CIter K V := { path := [], stack := [] }
/-- `Iter::new` (mod.rs:900-906) -/
def CIter.new (t : CTree K V) (p : List K) : CIter K V := { path := p, stack := [(t, 0)] }

/-- one turn of the loop in `Iter::next` (mod.rs:925-941), including `inc` (912-917); `children()` loads -/
def CIter.turn (s : CIter K V) : Charged (Turn (CIter K V) (List K × V)) :=
  match s.stack with
  | [] => pure .done
  | (t, 0) :: rest =>
    match t.val with
    | some v => pure (.yield (s.path, v) { s with stack := (t, 1) :: rest })
    | none => pure (.again { s with stack := (t, 1) :: rest })
  | (t, pos + 1) :: rest => do
    let t ← t.load
    match t.kids[pos]? with
    | some child => pure (.again { path := s.path ++ child.pre, stack := (child, 0) :: (t, pos + 2) :: rest })
    | none => pure (.again { path := s.path.take (s.path.length - t.pre.length), stack := rest })

/-- `struct Values { stack }` (mod.rs:834-837) -/
structure CValues (K V : Type) where
  stack : List (CTree K V × Nat)

/-- one turn of the loop in `Values::next` (mod.rs:865-878) -/
def CValues.turn (s : CValues K V) : Charged (Turn (CValues K V) V) :=
  match s.stack with
  | [] => pure .done
  | (t, 0) :: rest =>
    match t.val with
    | some v => pure (.yield v { stack := (t, 1) :: rest })
    | none => pure (.again { stack := (t, 1) :: rest })
  | (t, pos + 1) :: rest => do
    let t ← t.load
    match t.kids[pos]? with
    | some child => pure (.again { stack := (child, 0) :: (t, pos + 2) :: rest })
    | none => pure (.again { stack := rest })

/-- `iter()` (mod.rs:588-593) -/
def CTree.iter (t : CTree K V) : CIter K V := CIter.new t t.pre
/-- `values()` (mod.rs:601-606) -/
def CTree.values (t : CTree K V) : CValues K V := { stack := [(t, 0)] }

/-- `scan_prefix` (mod.rs:682-696): the search for the node loads, too -/
def CTree.scanPrefix [Ord K] [DecidableEq K] (t : CTree K V) (p : List K) : Charged (CIter K V) := do
  let r ← findGo id (t.plain.size + 1) t p
  match r.1 with
  | .found t => pure (CIter.new t p)
  | .prefix t rt => pure (CIter.new t (p ++ t.pre.drop (t.pre.length - rt)))
  | .notFound => pure CIter.empty

end Verif.Cow
