import Verif.Model.RadixTree
/-!
# `ArcRadixTree` and `LazyRadixTree` as nodes in a reference counted heap

`arc_radix_tree.rs` and `lazy_radix_tree.rs` store the children of a node behind `Arc<Vec<Self>>`, so several trees (and
several nodes of one tree) may share a child vector. `children_mut` copies the vector if it is shared (`Arc::make_mut`). In
a `LazyRadixTree` the children may also still be a slice of an archive, which is replaced by an `Arc` on first access — also
by a *read* access through a shared reference.

This file models the heap, the reference counts, and everything the rest of the crate can do with such trees: all tree
algorithms in `mod.rs` are written against the two traits `AbstractRadixTree` (`prefix`, `value`, `children`) and
`AbstractRadixTreeMut` (`new`, `value_mut`, `prefix_mut`, `children_mut`), plus `Clone`, `Default`, moves, `mem::swap` and
dropping. These are the commands (`Cmd`) of the machine below; a program (`Prog`) is any deterministic way of choosing the
next command from what was observed so far.
-/
namespace Verif.Shared
variable {K V : Type _}

/-- The `children` field. `raw ts`: a slice of an archive that has not been loaded
(src/radix_tree/lazy_radix_tree.rs:31, `Either::A`); archived nodes are immutable and modelled by pure trees.
`arc id`: the `Arc` with heap address `id` (arc_radix_tree.rs:42; `Either::B` in lazy_radix_tree.rs). -/
inductive Kids (K V : Type _) where
  | raw (ts : List (Tree K V))
  | arc (id : Nat)

/-- src/radix_tree/arc_radix_tree.rs:34-43 and src/radix_tree/lazy_radix_tree.rs:22-32 -/
structure Node (K V : Type _) where
  pre : List K
  val : Option V
  kids : Kids K V

/-- The heap: for each live allocation the strong count and the vector. `next` is the next unused address: addresses are
not reused, a simplification that only matters for code that compares addresses (`all_arcs`), not for these commands.
Weak references are not used by the crate. -/
structure Heap (K V : Type _) where
  cell : Nat → Option (Nat × List (Node K V))
  next : Nat

/-- replace one allocation -/
def Heap.set (h : Heap K V) (id : Nat) (c : Option (Nat × List (Node K V))) : Heap K V :=
  { h with cell := fun j => if j = id then c else h.cell j }

/-- `Arc::new(ns)`: a new allocation with strong count 1 at address `h.next` -/
def Heap.alloc (h : Heap K V) (ns : List (Node K V)) : Heap K V :=
  { cell := fun j => if j = h.next then some (1, ns) else h.cell j, next := h.next + 1 }

/-- `Arc::clone`: increment the strong count -/
def Heap.inc (h : Heap K V) (id : Nat) : Heap K V :=
  match h.cell id with
  | none => h
  | some (r, ns) => h.set id (some (r + 1, ns))

/-- decrement of the strong count by a drop that is not the last one -/
def Heap.dec (h : Heap K V) (id : Nat) : Heap K V :=
  match h.cell id with
  | none => h
  | some (r, ns) => h.set id (some (r - 1, ns))

/-- `#[derive(Clone)]` of a node, arc_radix_tree.rs:34 / lazy_radix_tree.rs:22 with lazy_radix_tree.rs:249-259: the prefix and
value are cloned (equal values), an `Arc` is shared, an unloaded slice is copied as a slice. Only the heap changes. -/
def Heap.cloned (h : Heap K V) (n : Node K V) : Heap K V :=
  match n.kids with
  | .raw _ => h
  | .arc id => h.inc id

/-- `Vec::clone`: every element is cloned -/
def Heap.clonedAll (h : Heap K V) (ns : List (Node K V)) : Heap K V := ns.foldl Heap.cloned h

/-- Drop a list of nodes: an `Arc` that is not the last one just decrements the count; the last one frees the allocation and
drops its elements. `fuel` bounds the recursion; `drop` below supplies enough (proved: it never runs out). -/
def Heap.dropAll : Nat → Heap K V → List (Node K V) → Heap K V
  | _, h, [] => h
  | 0, h, _ :: _ => h
  | fuel + 1, h, n :: ns =>
    match n.kids with
    | .raw _ => Heap.dropAll fuel h ns
    | .arc id =>
      match h.cell id with
      | none => Heap.dropAll fuel h ns
      | some (r, ms) =>
        if r = 1 then Heap.dropAll fuel (h.set id none) (ms ++ ns) else Heap.dropAll fuel (h.dec id) ns

/-- size of everything stored in the heap below `n` -/
def Heap.stored (h : Heap K V) : Nat → Nat
  | 0 => 0
  | n + 1 => h.stored n + (match h.cell n with | none => 0 | some (_, ms) => ms.length)

/-- drop glue of a value holding the nodes `ns` -/
def Heap.drop (h : Heap K V) (ns : List (Node K V)) : Heap K V := Heap.dropAll (ns.length + h.stored h.next) h ns

/-- one archived child as a node that is not loaded, lazy_radix_tree.rs:154-167 (`materialize_shallow`) -/
def rawNode (t : Tree K V) : Node K V := { pre := t.pre, val := t.val, kids := .raw t.kids }

/-- `children_mut`, arc_radix_tree.rs:89-96 and lazy_radix_tree.rs:78-80 with :105-107: load the children if necessary, then
`Arc::make_mut`: if the count is 1 the vector is used in place, otherwise its elements are cloned into a new allocation and
our count on the old one is given back. The result is the address and the vector, which is *checked out* of the heap while
it is exclusively borrowed; `putBack` ends the borrow. -/
def childrenMut (h : Heap K V) (n : Node K V) : Heap K V × Nat × List (Node K V) :=
  match n.kids with
  | .raw ts => ({ h with next := h.next + 1 }, h.next, ts.map rawNode)
  | .arc id =>
    match h.cell id with
    | none => (h, id, [])
    | some (r, ns) =>
      if r = 1 then (h.set id none, id, ns)
      else ({ ((h.dec id).clonedAll ns) with next := h.next + 1 }, h.next, ns)

/-- the end of the exclusive borrow of a child vector -/
def putBack (h : Heap K V) (n : Node K V) (id : Nat) (ns : List (Node K V)) : Heap K V × Node K V :=
  (h.set id (some (1, ns)), { n with kids := .arc id })

/-- Reach the node at `path` through `&mut` (calling `children_mut` at every level, as all `_with` functions of mod.rs do), do
`act` there, and write the nodes back. `act` may return further nodes it moved out. If the path does not exist the result
has `none` and nothing but ownership changed. -/
def modAt (act : Heap K V → Node K V → Heap K V × Node K V × Option (List (Node K V))) :
    List Nat → Heap K V → Node K V → Heap K V × Node K V × Option (List (Node K V))
  | [], h, n => act h n
  | i :: is, h, n =>
    match childrenMut h n with
    | (h1, id, ns) =>
      match ns[i]? with
      | none => match putBack h1 n id ns with | (h2, n') => (h2, n', none)
      | some c =>
        match modAt act is h1 c with
        | (h2, c', out) => match putBack h2 n id (ns.set i c') with | (h3, n') => (h3, n', out)

/-- a place that holds a node: a variable, or element `i` of the vector at address `id` -/
inductive Site where
  | reg (r : Nat)
  | elem (id i : Nat)

/-- The state of the machine: the heap and the local variables of the program (`none`: moved out or not initialised). `static`
is the address of `EMPTY_ARC_VEC` (arc_radix_tree.rs:16) for `ArcRadixTree`, `none` for `LazyRadixTree`, which has no such static. -/
structure St (K V : Type _) where
  heap : Heap K V
  regs : List (Option (Node K V))
  static : Option Nat

/-- the node at a site -/
def St.node (s : St K V) : Site → Option (Node K V)
  | .reg r => match s.regs[r]? with | some (some n) => some n | _ => none
  | .elem id i => match s.heap.cell id with | some (_, ns) => ns[i]? | none => none

/-- overwrite the node at a site -/
def St.setNode (s : St K V) (n : Node K V) : Site → St K V
  | .reg r => { s with regs := s.regs.set r (some n) }
  | .elem id i =>
    match s.heap.cell id with
    | some (c, ns) => { s with heap := s.heap.set id (some (c, ns.set i n)) }
    | none => s

/-- `children()` through a shared reference, arc_radix_tree.rs:66-68 and lazy_radix_tree.rs:55-57 with :101-103: if the
children are still a slice, they are loaded and the node is updated in place (interior mutability, also in shared nodes). -/
def St.force (s : St K V) (σ : Site) : St K V :=
  match s.node σ with
  | some ⟨p, v, .raw ts⟩ =>
    { (s.setNode ⟨p, v, .arc s.heap.next⟩ σ) with heap := (s.setNode ⟨p, v, .arc s.heap.next⟩ σ).heap.alloc (ts.map rawNode) }
  | _ => s

/-- Reach the node at `path` below site `σ` through shared references (`children()` at every level). -/
def St.walk : List Nat → St K V → Site → St K V × Option Site
  | [], s, σ => (s, some σ)
  | i :: is, s, σ =>
    match (s.force σ).node σ with
    | some ⟨_, _, .arc id⟩ =>
      match (s.force σ).node (.elem id i) with
      | some _ => St.walk is (s.force σ) (.elem id i)
      | none => (s.force σ, none)
    | _ => (s.force σ, none)

/-- a place: variable and path below it -/
structure Loc where
  reg : Nat
  path : List Nat

/-- What code written against the tree interface can do. -/
inductive Cmd (K V : Type _) where
  /-- `Self::new(prefix, value, children)` with the children moved out of the given variables; the result is a new variable.
  arc_radix_tree.rs:72-79 (`wrap_in_arc` :23-29 uses the static for an empty vector), lazy_radix_tree.rs:61-68 -/
  | new (p : List K) (v : Option V) (children : List Nat)
  /-- `Default::default()`, arc_radix_tree.rs:45-53, lazy_radix_tree.rs:34-42 -/
  | default
  /-- a root whose children are an unloaded slice of an archive (what `materialize_shallow` makes of each child) -/
  | lazyRoot (t : Tree K V)
  /-- `Self::from(tree)`, where the tree is a `RadixTree` or (`archived`) an archive that is converted eagerly -/
  | eager (archived : Bool) (t : Tree K V)
  /-- `x.clone()` of a node reached through shared references -/
  | clone (src : Loc)
  /-- the variable goes out of scope -/
  | drop (r : Nat)
  /-- `*x.value_mut() = v` -/
  | setVal (dst : Loc) (v : Option V)
  /-- `*x.prefix_mut() = p` -/
  | setPre (dst : Loc) (p : List K)
  /-- `mem::swap(x, &mut y)` for a place and a variable -/
  | swap (dst : Loc) (r : Nat)
  /-- `x.children_mut().insert(i, y)` with `y` moved out of a variable (`push` is `i = len`) -/
  | insertKid (dst : Loc) (i : Nat) (r : Nat)
  /-- `x.children_mut().remove(i)` into a new variable -/
  | removeKid (dst : Loc) (i : Nat)
  /-- read `prefix`, `value` and the number of children -/
  | look (src : Loc)

/-- What the program sees: `ok`, a look at a node, or that the place did not exist (the Rust program would not compile or would panic). -/
inductive Obs (K V : Type _) where
  | ok
  | seen (p : List K) (v : Option V) (kids : Nat)
  | bad

/-- the nodes in the given variables -/
def takeRegs (regs : List (Option (Node K V))) : List Nat → Option (List (Node K V) × List (Option (Node K V)))
  | [] => some ([], regs)
  | r :: rs =>
    match regs[r]? with
    | some (some n) =>
      match takeRegs (regs.set r none) rs with
      | some (ns, regs') => some (n :: ns, regs')
      | none => none
    | _ => none

/-- `wrap_in_arc` (arc_radix_tree.rs:18-29) for `ArcRadixTree`, `Lazy::initialized(Arc::new(..))` (lazy_radix_tree.rs:62) otherwise -/
def wrap (static : Option Nat) (h : Heap K V) (ns : List (Node K V)) : Heap K V × Kids K V :=
  match static, ns with
  | some e, [] => (h.inc e, .arc e)
  | _, _ => (h.alloc ns, .arc h.next)

mutual
/-- The eager conversions of a whole tree, children first: `From<RadixTree>` (arc_radix_tree.rs:99-109, which uses `Self::new` and
so the static; lazy_radix_tree.rs:83-98) and `From<&Archived..>` (arc_radix_tree.rs:133-145, lazy_radix_tree.rs:124-136, which
use `Arc::new`: `static = none`). -/
def convert (static : Option Nat) : Heap K V → Tree K V → Heap K V × Node K V
  | h, ⟨p, v, ks⟩ =>
    match convertAll static h ks with
    | (h1, ns) => match wrap static h1 ns with | (h2, kids) => (h2, ⟨p, v, kids⟩)
/-- `children.map(Self::from).collect()` -/
def convertAll (static : Option Nat) : Heap K V → List (Tree K V) → Heap K V × List (Node K V)
  | h, [] => (h, [])
  | h, k :: ks =>
    match convert static h k with
    | (h1, n) => match convertAll static h1 ks with | (h2, ns) => (h2, n :: ns)
end

/-- a change of the node at `dst` through `&mut` that moves nothing in or out -/
def St.edit (s : St K V) (dst : Loc) (f : Node K V → Node K V) : St K V × Obs K V :=
  match s.regs[dst.reg]? with
  | some (some n) =>
    match modAt (fun h m => (h, f m, some [])) dst.path s.heap n with
    | (h, n', some _) => ({ s with heap := h, regs := s.regs.set dst.reg (some n') }, .ok)
    | (h, n', none) => ({ s with heap := h, regs := s.regs.set dst.reg (some n') }, .bad)
  | _ => (s, .bad)

/-- One command. -/
def St.step (s : St K V) : Cmd K V → St K V × Obs K V
  | .new p v children =>
    match takeRegs s.regs children with
    | none => (s, .bad)
    | some (ns, regs) =>
      match wrap s.static s.heap ns with
      | (h, kids) => ({ s with heap := h, regs := regs ++ [some ⟨p, v, kids⟩] }, .ok)
  | .default =>
    match s.static with
    | some e => ({ s with heap := s.heap.inc e, regs := s.regs ++ [some ⟨[], none, .arc e⟩] }, .ok)
    | none => ({ s with regs := s.regs ++ [some ⟨[], none, .raw []⟩] }, .ok)
  | .lazyRoot t => ({ s with regs := s.regs ++ [some (rawNode t)] }, .ok)
  | .eager archived t =>
    match convert (if archived then none else s.static) s.heap t with
    | (h, n) => ({ s with heap := h, regs := s.regs ++ [some n] }, .ok)
  | .clone src =>
    match s.node (.reg src.reg) with
    | none => (s, .bad)
    | some _ =>
      match s.walk src.path (.reg src.reg) with
      | (s', some σ) =>
        match s'.node σ with
        | some n => ({ s' with heap := s'.heap.cloned n, regs := s'.regs ++ [some n] }, .ok)
        | none => (s', .bad)
      | (s', none) => (s', .bad)
  | .drop r =>
    match s.regs[r]? with
    | some (some n) => ({ s with heap := s.heap.drop [n], regs := s.regs.set r none }, .ok)
    | _ => (s, .bad)
  | .setVal dst v => s.edit dst (fun n => { n with val := v })
  | .setPre dst p => s.edit dst (fun n => { n with pre := p })
  | .swap dst r =>
    if dst.reg = r then (s, .bad)
    else
      match s.regs[dst.reg]?, s.regs[r]? with
      | some (some n), some (some m) =>
        match modAt (fun h x => (h, m, some [x])) dst.path s.heap n with
        | (h, n', some [x]) => ({ s with heap := h, regs := (s.regs.set dst.reg (some n')).set r (some x) }, .ok)
        | (h, n', _) => ({ s with heap := h, regs := s.regs.set dst.reg (some n') }, .bad)
      | _, _ => (s, .bad)
  | .insertKid dst i r =>
    if dst.reg = r then (s, .bad)
    else
      match s.regs[dst.reg]?, s.regs[r]? with
      | some (some n), some (some m) =>
        match modAt (fun h x =>
          match childrenMut h x with
          | (h1, id, ns) =>
            if i ≤ ns.length then
              match putBack h1 x id (ns.take i ++ m :: ns.drop i) with | (h2, x') => (h2, x', some [])
            else match putBack h1 x id ns with | (h2, x') => (h2, x', none)) dst.path s.heap n with
        | (h, n', some _) => ({ s with heap := h, regs := (s.regs.set dst.reg (some n')).set r none }, .ok)
        | (h, n', none) => ({ s with heap := h, regs := s.regs.set dst.reg (some n') }, .bad)
      | _, _ => (s, .bad)
  | .removeKid dst i =>
    match s.regs[dst.reg]? with
    | some (some n) =>
      match modAt (fun h x =>
        match childrenMut h x with
        | (h1, id, ns) =>
          match ns[i]? with
          | some m => match putBack h1 x id (ns.take i ++ ns.drop (i + 1)) with | (h2, x') => (h2, x', some [m])
          | none => match putBack h1 x id ns with | (h2, x') => (h2, x', none)) dst.path s.heap n with
      | (h, n', some [m]) => ({ s with heap := h, regs := (s.regs.set dst.reg (some n')) ++ [some m] }, .ok)
      | (h, n', _) => ({ s with heap := h, regs := s.regs.set dst.reg (some n') }, .bad)
    | _ => (s, .bad)
  | .look src =>
    match s.node (.reg src.reg) with
    | none => (s, .bad)
    | some _ =>
      match s.walk src.path (.reg src.reg) with
      | (s', some σ) =>
        match (s'.force σ).node σ with
        | some ⟨p, v, .arc id⟩ =>
          match (s'.force σ).heap.cell id with
          | some (_, ns) => (s'.force σ, .seen p v ns.length)
          | none => (s'.force σ, .bad)
        | _ => (s'.force σ, .bad)
      | (s', none) => (s', .bad)

/-- The state before the first command: no variables; the heap of an `ArcRadixTree` program contains the allocation of
`EMPTY_ARC_VEC` (arc_radix_tree.rs:16), to which the static holds one reference. -/
def St.start (arc : Bool) : St K V :=
  if arc then { heap := { cell := fun j => if j = 0 then some (1, []) else none, next := 1 }, regs := [], static := some 0 }
  else { heap := { cell := fun _ => none, next := 0 }, regs := [], static := none }

/-- A program: stop, or execute a command and continue depending on what was observed. -/
inductive Prog (K V : Type _) where
  | done
  | cmd (c : Cmd K V) (k : Obs K V → Prog K V)

/-- run a program on the heap; also returns everything it observed -/
def St.run (s : St K V) : Prog K V → St K V × List (Obs K V)
  | .done => (s, [])
  | .cmd c k => (((s.step c).1.run (k (s.step c).2)).1, (s.step c).2 :: ((s.step c).1.run (k (s.step c).2)).2)

end Verif.Shared
