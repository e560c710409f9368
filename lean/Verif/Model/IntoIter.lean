import Verif.Model.RadixTree
/-!
# `into_iter` of radix trees: a box and an iterator that borrows from it

`AbstractRadixTree::into_iter` (src/radix_tree/mod.rs:596-598) moves the tree into a box and stores, next to the box, an iterator over a
reference to the boxed tree whose lifetime has been transmuted to `'static` (`ObjAndIter`, mod.rs:1906-1926). The items therefore have the
type `(IterKey<K>, &'static V)`: the type system lets the client keep the value references after the `ObjAndIter` is gone.

References are modelled as addresses inside the box: the path of child positions from the root. The key part of the items is left out; it
is owned by the client (C64).
-/
namespace Verif
namespace IntoIter
variable {K V : Type _}

/-- the node at an address -/
def nodeAt : Tree K V → List Nat → Option (Tree K V)
  | t, [] => some t
  | t, i :: is =>
    match t.kids[i]? with
    | some c => nodeAt c is
    | none => none

/-- `ObjAndIter` and the references its client has obtained; `box` is `none` once the `ObjAndIter` has been dropped -/
structure St (K V : Type _) where
  box : Option (Tree K V)
  stack : List (List Nat × Nat)
  refs : List (List Nat)

inductive Cmd where
  /-- one turn of the loop of `next` -/
  | turn
  /-- dereference the `i`-th value obtained -/
  | read (i : Nat)
  /-- drop the `ObjAndIter` -/
  | drop

inductive Obs (V : Type _) where
  | done
  | silent
  /-- `next` returned an item; its reference is the last of `refs` -/
  | yielded
  /-- a dereference found this value -/
  | value (v : V)
  /-- a dereference of freed memory -/
  | dangling

/-- `into_iter` (mod.rs:596-598), `ObjAndIter::new` (mod.rs:1912-1916), `Iter::new` (900-906) -/
def St.start (t : Tree K V) : St K V := { box := some t, stack := [([], 0)], refs := [] }

/-- follow a reference into the box -/
def St.deref (s : St K V) (addr : List Nat) : Option (Tree K V) :=
  match s.box with
  | some t => nodeAt t addr
  | none => none

/-- one turn of the loop in `Iter::next` (mod.rs:925-941), reached through `ObjAndIter::next` (1922-1924); every access to a tree goes through
a reference into the box -/
def turn (s : St K V) : St K V × Obs V :=
  match s.stack with
  | [] => (s, .done)
  | (addr, 0) :: rest =>
    match s.deref addr with
    | none => (s, .dangling)
    | some n =>
      match n.val with
      | some _ => ({ s with stack := (addr, 1) :: rest, refs := s.refs ++ [addr] }, .yielded)
      | none => ({ s with stack := (addr, 1) :: rest }, .silent)
  | (addr, pos + 1) :: rest =>
    match s.deref addr with
    | none => (s, .dangling)
    | some n =>
      if pos < n.kids.length then ({ s with stack := (addr ++ [pos], 0) :: (addr, pos + 2) :: rest }, .silent)
      else ({ s with stack := rest }, .silent)

/-- one command. Dropping an `ObjAndIter` (fields `k`, `v`, in this order) frees the box; the iterator's references are dropped without
being followed, and there is no iterator any more. -/
def step (s : St K V) : Cmd → St K V × Obs V
  | .turn => turn s
  | .read i =>
    match s.refs[i]? with
    | none => (s, .silent)
    | some addr =>
      match s.deref addr with
      | none => (s, .dangling)
      | some n =>
        match n.val with
        | some v => (s, .value v)
        | none => (s, .dangling)
  | .drop => ({ s with box := none, stack := [] }, .silent)

def run (s : St K V) : List Cmd → St K V × List (Obs V)
  | [] => (s, [])
  | c :: cs => ((run (step s c).1 cs).1, (step s c).2 :: (run (step s c).1 cs).2)

end IntoIter
end Verif
