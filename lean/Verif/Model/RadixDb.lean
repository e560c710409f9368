import Verif.Model.SharedHeap
/-!
# The append-only database of `examples/radix_db.rs`

A `RadixDb` keeps an `ArcRadixTree`. `flush` appends only the child vectors that are not in the file yet: it remembers for each
child vector *address in memory* the *position in the file* where it was written, and keeps a clone of every such `Arc` so that
the vector is neither changed in place nor freed (`all_arcs`). `vacuum` writes the tree to a new file. `load` reads the file.

The archive format is modelled at the granularity of child vectors: a file is a list of slots, a slot is the archived
`Vec` of one child vector with its elements, or the root node. rkyv writes the children of a node before the node, so the
relative pointer of an archived node points backwards; it is modelled by the distance in slots. Simplifications: sizes in bytes and alignment
(one slot has size 1), keys and values (stored as they are), and errors of the serializer other than a duplicate registration.
-/
namespace Verif.Shared
variable {K V : Type _}

/-! ## The file -/
/-- An archived node (arc_radix_tree.rs:172-180): `off` is the relative pointer of `children`, as the distance from the slot that
contains the node back to the slot of its child vector. -/
structure ANode (K V : Type _) where
  pre : List K
  val : Option V
  off : Nat

/-- one archived child vector, or the root node which `serialize_value` writes last -/
inductive Slot (K V : Type _) where
  | vec (ns : List (ANode K V))
  | root (n : ANode K V)

abbrev File (K V : Type _) := List (Slot K V)

/-! ## Serialisation -/
/-- The serializer: `map` is `SharedSerializeMap2` (radix_db.rs:51-78), `buf` what was written so far. -/
structure Ser (K V : Type _) where
  map : List (Nat × Nat)
  buf : File K V

/-- write one slot; its position is `base + buf.len()` (`WriteSerializer::with_pos`, radix_db.rs:400) -/
def Ser.push (σ : Ser K V) (s : Slot K V) : Ser K V := { σ with buf := σ.buf ++ [s] }

/-- the archived form of nodes at position `pos` whose children were written to `ps` -/
def archive (pos : Nat) : List (Node K V) → List Nat → List (ANode K V)
  | n :: ns, p :: ps => ⟨n.pre, n.val, pos - p⟩ :: archive pos ns ps
  | _, _ => []

mutual
/-- Children that are an unloaded slice: they are loaded and written without sharing. `RadixDb` holds an `ArcRadixTree`, where this does
not occur. lazy_radix_tree.rs:215-226 -/
def serRaw (base : Nat) : Ser K V → List (Tree K V) → Ser K V × List Nat
  | σ, [] => (σ, [])
  | σ, t :: ts =>
    match serRawKids base σ t with
    | (σ1, p) => match serRaw base σ1 ts with | (σ2, ps) => (σ2, p :: ps)
/-- the child vector of one tree -/
def serRawKids (base : Nat) : Ser K V → Tree K V → Ser K V × Nat
  | σ, ⟨_, _, ks⟩ =>
    match serRaw base σ ks with
    | (σ1, ps) => (σ1.push (.vec (archive (base + σ1.buf.length) (ks.map rawNode) ps)), base + σ1.buf.length)
end

mutual
/-- `Arc<Vec<_>>::serialize` (arc_radix_tree.rs:216, rkyv's `serialize_shared` with radix_db.rs:61-78): if the address is registered, the
registered position is used; otherwise the vector is written and registered. `none`: a dangling address, or
`DuplicateSharedPointer` (both proved impossible). -/
def serArc (h : Heap K V) (base : Nat) (σ : Ser K V) (id : Nat) : Option (Ser K V × Nat) :=
  match σ.map.lookup id with
  | some p => some (σ, p)
  | none =>
    match h.cell id with
    | none => none
    | some (_, ns) => do
      let r ← serNodes h base σ ns
      if (r.1.map.lookup id).isSome then none
      else some (⟨(id, base + r.1.buf.length) :: r.1.map, r.1.buf ++ [.vec (archive (base + r.1.buf.length) ns r.2)]⟩, base + r.1.buf.length)
partial_fixpoint
/-- the children of each node of a vector; rkyv's `serialize_from_slice` -/
def serNodes (h : Heap K V) (base : Nat) (σ : Ser K V) (ns : List (Node K V)) : Option (Ser K V × List Nat) :=
  match ns with
  | [] => some (σ, [])
  | n :: ns => do
    let r ← serKids h base σ n
    let q ← serNodes h base r.1 ns
    some (q.1, r.2 :: q.2)
partial_fixpoint
/-- the children of one node, arc_radix_tree.rs:211-222 -/
def serKids (h : Heap K V) (base : Nat) (σ : Ser K V) (n : Node K V) : Option (Ser K V × Nat) :=
  match n.kids with
  | .raw ts => some (serRawKids base σ ⟨n.pre, n.val, ts⟩)
  | .arc id => serArc h base σ id
partial_fixpoint
end

/-- `serialize_value(&tree)`: everything below the root, then the root. The result is the new registry and the bytes. -/
def serialize (h : Heap K V) (base : Nat) (map : List (Nat × Nat)) (n : Node K V) : Option (List (Nat × Nat) × File K V) := do
  let r ← serKids h base ⟨map, []⟩ n
  some (r.1.map, r.1.buf ++ [.root ⟨n.pre, n.val, base + r.1.buf.length - r.2⟩])

/-- a reference to a child vector held outside of a tree (the values of the `BTreeMap` filled by `all_arcs`) -/
def holder (id : Nat) : Node K V := ⟨[], none, .arc id⟩

mutual
/-- `all_arcs`, arc_radix_tree.rs:124-130 (lazy_radix_tree.rs:114-121): the addresses of all child vectors, with a clone of the `Arc` for each
address that was not there (inserting an address again replaces one clone by another). -/
def allArcs (h : Heap K V) (into : List Nat) (n : Node K V) : Option (Heap K V × List Nat) :=
  match n.kids with
  | .raw _ => some (h, into)
  | .arc id =>
    match h.cell id with
    | none => none
    | some (_, ns) =>
      if id ∈ into then allArcsList h into ns else allArcsList (h.inc id) (id :: into) ns
partial_fixpoint
/-- the loop over the children -/
def allArcsList (h : Heap K V) (into : List Nat) (ns : List (Node K V)) : Option (Heap K V × List Nat) :=
  match ns with
  | [] => some (h, into)
  | n :: ns => do
    let r ← allArcs h into n
    allArcsList r.1 r.2 ns
partial_fixpoint
end

/-! ## Deserialisation -/
mutual
/-- `Arc<Vec<_>>::deserialize` (arc_radix_tree.rs:236, rkyv's `deserialize_shared` with radix_db.rs:79-132): an archived vector that was
already loaded is shared, otherwise it is loaded into a new `Arc`. `reg` maps positions to addresses. The references
held by the registry itself, which is dropped at the end of `load`, are not modelled. `none`: a pointer outside the file or to
something that is not a vector (undefined behaviour, since `load` uses the unchecked `archived_root`), or `DuplicateSharedPointer`. -/
def loadVec (f : File K V) (h : Heap K V) (reg : List (Nat × Nat)) (p : Nat) : Option (Heap K V × List (Nat × Nat) × Nat) :=
  match reg.lookup p with
  | some a => some (h.inc a, reg, a)
  | none =>
    match f[p]? with
    | some (.vec as) => do
      let r ← loadNodes f h reg p as
      if (r.2.1.lookup p).isSome then none
      else some (r.1.alloc r.2.2, (p, r.1.next) :: r.2.1, r.1.next)
    | _ => none
partial_fixpoint
/-- the nodes of the vector at position `p`, arc_radix_tree.rs:233-243 -/
def loadNodes (f : File K V) (h : Heap K V) (reg : List (Nat × Nat)) (p : Nat) (as : List (ANode K V)) :
    Option (Heap K V × List (Nat × Nat) × List (Node K V)) :=
  match as with
  | [] => some (h, reg, [])
  | a :: as => do
    let r ← loadNode f h reg p a
    let q ← loadNodes f r.1 r.2.1 p as
    some (q.1, q.2.1, r.2.2 :: q.2.2)
partial_fixpoint
/-- one node in the slot at position `p` -/
def loadNode (f : File K V) (h : Heap K V) (reg : List (Nat × Nat)) (p : Nat) (a : ANode K V) :
    Option (Heap K V × List (Nat × Nat) × Node K V) :=
  if a.off ≤ p then do
    let r ← loadVec f h reg (p - a.off)
    some (r.1, r.2.1, ⟨a.pre, a.val, .arc r.2.2⟩)
  else none
partial_fixpoint
end

/-! ## The database -/
/-- `RadixDb` (radix_db.rs:264-275) with its storage. `name` and `tmp` are the files `{name}` and `{name}.tmp`; a missing file is the same as
an empty file (radix_db.rs:159-161). `st` is the memory of the process: variable 0 is `db.tree`, the others belong to the user.
`ser` is `serializers`: the address-to-position map and the held `Arc`s. The watchers are not modelled: `notify` clones the
tree for each of them, which a user program can do as well. -/
structure Db (K V : Type _) where
  name : File K V
  tmp : File K V
  st : St K V
  ser : Option (List (Nat × Nat) × List Nat)
  pos : Nat

/-- `RadixDb::load` (radix_db.rs:302-342) in a new process; `to_shared_serializer_map` (:86-97) turns the registry of the deserializer around. -/
def Db.load (name tmp : File K V) : Option (Db K V) :=
  match name.getLast? with
  | none =>
    some { name, tmp, ser := some ([], []), pos := 0,
           st := { (St.start true : St K V) with heap := (St.start true : St K V).heap.inc 0, regs := [some (holder 0)] } }
  | some (.root a) => do
    let r ← loadNode name (St.start true : St K V).heap [] (name.length - 1) a
    let q ← allArcs r.1 [] r.2.2
    some { name, tmp, ser := some (r.2.1.map (fun x => (x.2, x.1)), q.2), pos := name.length,
           st := { (St.start true : St K V) with heap := q.1, regs := [some r.2.2] } }
  | some (.vec _) => none

/-- The outcome of the I/O of `flush`. `ok`: the chunk is written and the operation returns. `fail k`: `append` reports an error; the first `k`
slots of the chunk were written nevertheless (nothing if `k = 0`). -/
inductive FlushIo where
  | ok
  | fail (k : Nat)

/-- The outcome of the I/O of `vacuum`. `ok`: both storage operations succeed. `fail k`: the `append` to `{name}.tmp` reports an error after writing
`k` slots. `failMv`: `append` succeeds, `mv` reports an error and did nothing. -/
inductive VacuumIo where
  | ok
  | fail (k : Nat)
  | failMv

/-- `flush`, radix_db.rs:396-414. `serializers.take()` has emptied `self.serializers`, so after an error of `append` the registry and
the held `Arc`s are gone (dropped). -/
def Db.flush (d : Db K V) (io : FlushIo) : Option (Db K V) :=
  match d.st.regs[0]? with
  | some (some n) => do
    let r ← serialize d.st.heap d.pos (d.ser.getD ([], [])).1 n
    let q ← allArcs d.st.heap (d.ser.getD ([], [])).2 n
    match io with
    | .ok => some { d with name := d.name ++ r.2, pos := d.pos + r.2.length, ser := some (r.1, q.2), st := { d.st with heap := q.1 } }
    | .fail k => some { d with name := d.name ++ r.2.take k, ser := none, st := { d.st with heap := q.1.drop (q.2.map holder) } }
  | _ => some d

/-- `vacuum`, radix_db.rs:371-394: serialise from scratch, append to `{name}.tmp`, move it over `{name}`. The old registry and held
`Arc`s are replaced (dropped) only at the end. -/
def Db.vacuum (d : Db K V) (io : VacuumIo) : Option (Db K V) :=
  match d.st.regs[0]? with
  | some (some n) => do
    let r ← serialize d.st.heap 0 [] n
    let q ← allArcs d.st.heap [] n
    match io with
    | .ok => some { d with name := d.tmp ++ r.2, tmp := [], pos := r.2.length, ser := some (r.1, q.2),
                           st := { d.st with heap := q.1.drop ((d.ser.getD ([], [])).2.map holder) } }
    | .fail k => some { d with tmp := d.tmp ++ r.2.take k, st := { d.st with heap := q.1.drop (q.2.map holder) } }
    | .failMv => some { d with tmp := d.tmp ++ r.2, st := { d.st with heap := q.1.drop (q.2.map holder) } }
  | _ => some d

/-- What can happen to a database. `restart`: the process ends or crashes between two operations and the database is loaded again. A
crash inside an operation is the operation with the outcome so far followed by `restart`: `flush (fail k); restart` when
`k` slots were written, `vacuum (fail k)`, `vacuum failMv` or `vacuum ok` and then `restart` for `vacuum`. -/
inductive DbOp (K V : Type _) where
  | prog (p : Prog K V)
  | flush (io : FlushIo)
  | vacuum (io : VacuumIo)
  | restart

/-- one operation; the second component is what the user program observed -/
def Db.step (d : Db K V) : DbOp K V → Option (Db K V × List (Obs K V))
  | .prog p => some ({ d with st := (d.st.run p).1 }, (d.st.run p).2)
  | .flush io => match d.flush io with | some d' => some (d', []) | none => none
  | .vacuum io => match d.vacuum io with | some d' => some (d', []) | none => none
  | .restart => match Db.load d.name d.tmp with | some d' => some (d', []) | none => none

/-- a history of operations, with everything that was observed -/
def Db.history : List (DbOp K V) → Db K V → Option (Db K V × List (List (Obs K V)))
  | [], d => some (d, [])
  | op :: ops, d =>
    match d.step op with
    | none => none
    | some (d1, o) => match Db.history ops d1 with | none => none | some (d2, os) => some (d2, o :: os)

end Verif.Shared
