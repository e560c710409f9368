import Verif.Model.RadixTree
/-!
# The entry iterator with its shared key buffer

`Iter::next` (src/radix_tree/mod.rs:922-942) builds the key in one growing and shrinking `Arc<Vec<K>>` and hands out clones of that `Arc`
(`IterKey`, mod.rs:789-808). Here the buffer lives on a heap with reference counts, and the client may hold on to keys, clone them, read
them and drop them at any moment between two turns of the loop (other threads can: an `IterKey` is `Send`).
-/
namespace Verif
namespace IterKey
open Tree

/-- heap of `Arc<Vec<K>>` allocations: reference count and contents; `next` is the number of allocations made so far -/
structure Heap (K : Type _) where
  cell : Nat → Option (Nat × List K)
  next : Nat

variable {K V : Type _}

def Heap.empty : Heap K := { cell := fun _ => none, next := 0 }

/-- overwrite one cell -/
def Heap.set (h : Heap K) (id : Nat) (c : Option (Nat × List K)) : Heap K :=
  { h with cell := fun i => if i = id then c else h.cell i }

/-- `Arc::new` -/
def Heap.alloc (h : Heap K) (v : List K) : Heap K :=
  { cell := fun i => if i = h.next then some (1, v) else h.cell i, next := h.next + 1 }

/-- `Arc::clone` -/
def Heap.inc (h : Heap K) (id : Nat) : Heap K :=
  match h.cell id with
  | some (rc, v) => h.set id (some (rc + 1, v))
  | none => h

/-- `Drop for Arc`: the last handle frees the allocation -/
def Heap.dec (h : Heap K) (id : Nat) : Heap K :=
  match h.cell id with
  | some (rc, v) => h.set id (if rc ≤ 1 then none else some (rc - 1, v))
  | none => h

/-- what a handle shows (`Deref`, mod.rs:810-829); reading a freed cell shows `none` -/
def Heap.read (h : Heap K) (id : Nat) : Option (List K) := (h.cell id).map (·.2)

/-- `Arc::make_mut`: a unique handle is kept, a shared one is replaced by a copy of its own -/
def Heap.makeMut (h : Heap K) (id : Nat) : Heap K × Nat :=
  match h.cell id with
  | some (rc, v) => if rc ≤ 1 then (h, id) else ((h.dec id).alloc v, h.next)
  | none => (h, id)

/-- write through the reference returned by `make_mut` -/
def Heap.modify (h : Heap K) (id : Nat) (f : List K → List K) : Heap K :=
  match h.cell id with
  | some (rc, v) => h.set id (some (rc, f v))
  | none => h

/-- `IterKey::append` (mod.rs:796-802) -/
def Heap.append (h : Heap K) (id : Nat) (data : List K) : Heap K × Nat :=
  ((h.makeMut id).1.modify (h.makeMut id).2 (fun v => v ++ data), (h.makeMut id).2)

/-- `IterKey::pop` (mod.rs:804-807): `truncate(len.saturating_sub(n))` -/
def Heap.pop (h : Heap K) (id : Nat) (n : Nat) : Heap K × Nat :=
  ((h.makeMut id).1.modify (h.makeMut id).2 (fun v => v.take (v.length - n)), (h.makeMut id).2)

/-- the iterator: the handle of its key buffer and its stack (mod.rs:885-889) -/
structure It (K V : Type _) where
  path : Nat
  stack : List (Tree K V × Nat)

/-- the whole machine: the heap, the iterator (until the client drops it) and the keys held by the client, in the order they were
obtained (`none` once dropped) -/
structure St (K V : Type _) where
  heap : Heap K
  iter : Option (It K V)
  keys : List (Option Nat)

/-- what can happen next -/
inductive Cmd where
  /-- one turn of the `while` loop of `next` -/
  | turn
  /-- the client clones key number `i` -/
  | clone (i : Nat)
  /-- the client drops key number `i` -/
  | drop (i : Nat)
  /-- the client looks at key number `i` -/
  | read (i : Nat)
  /-- the client drops the iterator -/
  | dropIter

/-- what the client sees -/
inductive Obs (K V : Type _) where
  /-- `next` returned `None` -/
  | done
  /-- the loop of `next` goes on, or the command made no sense -/
  | silent
  /-- `next` returned this value, and the key that is now the client's last one -/
  | yielded (v : V)
  /-- the contents of the key; `none` would be a read of freed memory -/
  | key (k : Option (List K))

/-- start of `iter()` on `t` with the key `p` already spelled: `Iter::new(tree, IterKey::new(p))` (mod.rs:588-593, 792-794, 900-906) -/
def St.start (t : Tree K V) (p : List K) : St K V :=
  { heap := Heap.empty.alloc p, iter := some { path := 0, stack := [(t, 0)] }, keys := [] }

/-- one turn of the loop in `Iter::next` (mod.rs:925-941) -/
def turn (s : St K V) (it : It K V) : St K V × Obs K V :=
  match it.stack with
  | [] => (s, .done)
  | (t, 0) :: rest =>
    match t.val with
    | some v =>
      ({ heap := s.heap.inc it.path, iter := some { it with stack := (t, 1) :: rest }, keys := s.keys ++ [some it.path] }, .yielded v)
    | none => ({ s with iter := some { it with stack := (t, 1) :: rest } }, .silent)
  | (t, pos + 1) :: rest =>
    match t.kids[pos]? with
    | some child =>
      ({ s with heap := (s.heap.append it.path child.pre).1,
                iter := some { path := (s.heap.append it.path child.pre).2, stack := (child, 0) :: (t, pos + 2) :: rest } }, .silent)
    | none =>
      ({ s with heap := (s.heap.pop it.path t.pre.length).1,
                iter := some { path := (s.heap.pop it.path t.pre.length).2, stack := rest } }, .silent)

/-- one command -/
def step (s : St K V) : Cmd → St K V × Obs K V
  | .turn =>
    match s.iter with
    | some it => turn s it
    | none => (s, .silent)
  | .clone i =>
    match s.keys[i]? with
    | some (some id) => ({ s with heap := s.heap.inc id, keys := s.keys ++ [some id] }, .silent)
    | _ => (s, .silent)
  | .drop i =>
    match s.keys[i]? with
    | some (some id) => ({ s with heap := s.heap.dec id, keys := s.keys.set i none }, .silent)
    | _ => (s, .silent)
  | .read i =>
    match s.keys[i]? with
    | some (some id) => (s, .key (s.heap.read id))
    | _ => (s, .silent)
  | .dropIter =>
    match s.iter with
    | some it => ({ s with heap := s.heap.dec it.path, iter := none }, .silent)
    | none => (s, .silent)

/-- a run: final state and everything the client saw -/
def run (s : St K V) : List Cmd → St K V × List (Obs K V)
  | [] => (s, [])
  | c :: cs => ((run (step s c).1 cs).1, (step s c).2 :: (run (step s c).1 cs).2)

end IterKey
end Verif
