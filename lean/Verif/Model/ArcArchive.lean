import Verif.Model.Archive
/-!
# Archives of `ArcRadixTree` and `LazyRadixTree` at the level of positions in a buffer

As in `Model/Archive.lean` a buffer is arbitrary and bytes are modelled by what they mean when read as one of the types involved. The difference to a flat
archive is that the children are behind an archived `Arc` (arc_radix_tree.rs:171-180, lazy_radix_tree.rs:175-184): a node holds a relative pointer to an
`ArchivedVec`, which holds a relative pointer to the nodes; several nodes may point to the same `ArchivedVec`.

What belongs to rkyv (0.7) and is modelled here as the environment, in addition to what is listed in `Model/Archive.lean`:
* `Serialize for Arc` (`serialize_shared`): the serializer has a registry from addresses to positions. A value whose address is registered is not written again;
  otherwise it is written (`serialize_value`) and its position registered.
* `CheckBytes for ArchivedArc`: the pointed-to object must be in the buffer and aligned (`check_rel_ptr`). The validator has a registry of positions
  (`register_shared_ptr`). At the first visit the object is registered, must be inside the current range, and is checked in the range in front of it; later
  visits are accepted at once. All shared objects here have the same type, so that the type recorded in the registry makes no difference.
* `Deserialize for ArchivedArc` (`deserialize_shared`): the deserializer has a registry from positions to `Arc`s. If the position is registered the `Arc` is
  cloned; otherwise the object is deserialized into a new allocation, which is registered.
-/
namespace Verif
namespace ArcArchive
open Verif.Archive

/-- sizes and alignments, also of an `ArchivedVec` on its own (the target of an archived `Arc`) -/
structure ALayout extends Layout where
  vecSize : Nat
  vecAlign : Nat

/-- `ArchivedArcRadixTree { prefix, value, children }` (arc_radix_tree.rs:171-180) and `ArchivedLazyRadixTree` (lazy_radix_tree.rs:175-184) as found in the buffer;
`kids`: where the relative pointer of the archived `Arc` points to -/
structure AHdr (V : Type _) where
  pre : VecPtr
  val : Option (Option V)
  kids : Int

/-- a buffer; `vec a`: what the bytes at `a` are as an `ArchivedVec` -/
structure ABuf (K V : Type _) where
  len : Nat
  key : Nat → Option K
  node : Nat → AHdr V
  vec : Nat → VecPtr

section
variable {K V : Type _}

/-- The buffer with pointers to pointers replaced by pointers: prefixes and values are found as in a flat archive, the vector of children is the one the archived
`Arc` points to (only meaningful where `arcOk`). -/
def ABuf.flat (b : ABuf K V) : Buf K V :=
  { len := b.len, key := b.key, node := fun a => ⟨(b.node a).pre, (b.node a).val, b.vec (b.node a).kids.toNat⟩ }

/-- the `ArchivedVec` an archived `Arc` points to is in the buffer and aligned (`check_rel_ptr`) -/
def arcOk (l : ALayout) (b : ABuf K V) (t : Int) : Bool :=
  decide (0 ≤ t) && decide (t.toNat + l.vecSize ≤ b.len) && decide (t % (l.vecAlign : Int) = 0)

/-- using `Archived<Arc<Vec<_>>>` as a slice (`children.iter()`, arc_radix_tree.rs:301): positions of its elements, `none` if that is undefined behaviour -/
def derefArc (l : ALayout) (b : ABuf K V) (t : Int) : Option (List Nat) :=
  if arcOk l b t then deref b.flat l.nodeSize l.nodeAlign (b.vec t.toNat) else none

/-! ### Validation -/

/-- the state of the validator: the current range and the registry of shared objects -/
structure Ctx where
  rng : Range
  seen : List Nat
deriving DecidableEq, Repr

/-- `<[T]>::check_bytes`: the elements one after the other -/
def checkEach (rec : Nat → Ctx → Res Ctx) : List Nat → Ctx → Res Ctx
  | [], c => .ok c
  | x :: xs, c =>
    match rec x c with
    | .ok c' => checkEach rec xs c'
    | e => e

/-- `CheckBytes::check_bytes(children, context).map_err(|e| ArchivedRadixTreeError::Children(e.to_string()))` (arc_radix_tree.rs:315-316): rkyv's
`check_bytes` of `ArchivedArc<ArchivedVec<_>>` -/
def checkArc (l : ALayout) (b : ABuf K V) (rec : Nat → Ctx → Res Ctx) (c : Ctx) (t : Int) : Res Ctx :=
  if !arcOk l b t then .err .children
  else if c.seen.contains t.toNat then .ok c
  else if !(decide (c.rng.lo ≤ t.toNat) && decide (t.toNat + l.vecSize ≤ c.rng.hi)) then .err .children
  else if !checkPtr b.flat l.nodeSize l.nodeAlign ⟨c.rng.lo, t.toNat⟩ (b.vec t.toNat) then .err .children
  else match checkEach rec (slots l.nodeSize (b.vec t.toNat)) ⟨⟨c.rng.lo, (b.vec t.toNat).target.toNat⟩, t.toNat :: c.seen⟩ with
    | .ok c' => .ok ⟨⟨t.toNat + l.vecSize, c.rng.hi⟩, c'.seen⟩
    | .err _ => .err .children
    | e => e

/-- `check_bytes` (arc_radix_tree.rs:287-319) of the node at `a`: prefix (297), value (299), children have non-empty prefixes (301-305), order of the children
(307-313), and only then the children themselves (315-316) -/
def checkNode [Ord K] (l : ALayout) (b : ABuf K V) : Nat → Nat → Ctx → Res Ctx
  | 0, _, _ => .deep
  | fuel + 1, a, c =>
    if !(decide (a + l.nodeSize ≤ b.len) && decide (a % l.nodeAlign = 0)) then .ub
    else if !checkPtr b.flat l.keySize l.keyAlign c.rng (b.node a).pre then .err .prefix
    else if !(slots l.keySize (b.node a).pre).all (fun x => (b.key x).isSome) then .err .prefix
    else if (b.node a).val.isNone then .err .value
    else match derefArc l b (b.node a).kids with
      | none => .ub
      | some cs =>
        if !cs.all (fun x => decide ((b.node x).pre.len ≠ 0)) then .err .children
        else match ordered l.toLayout b.flat cs with
          | .ok true => checkArc l b (checkNode l b fuel) ⟨c.rng.pop l.keySize (b.node a).pre, c.seen⟩ (b.node a).kids
          | .ok false => .err .order
          | .err e => .err e
          | .ub => .ub
          | .deep => .deep

/-- `check_archived_value` of rkyv for a tree at position `a`; `none`: rejected because of the position -/
def checkRoot [Ord K] (l : ALayout) (b : ABuf K V) (a : Nat) : Option (Res Ctx) :=
  if a + l.nodeSize ≤ b.len ∧ a % l.nodeAlign = 0 then some (checkNode l b (b.len + 1) a ⟨⟨0, a⟩, []⟩) else none

/-! ### Reading an archive -/

/-- `prefix()` (arc_radix_tree.rs:152-154, lazy_radix_tree.rs:141-143) -/
def prefixAt (l : ALayout) (b : ABuf K V) (a : Nat) : Option (List K) := Archive.prefixAt l.toLayout b.flat a
/-- `value()` (arc_radix_tree.rs:156-158, lazy_radix_tree.rs:145-147) -/
def valueAt (b : ABuf K V) (a : Nat) : Option (Option V) := (b.node a).val
/-- `children()` (arc_radix_tree.rs:160-162, lazy_radix_tree.rs:149-151): positions of the children -/
def childrenAt (l : ALayout) (b : ABuf K V) (a : Nat) : Option (List Nat) := derefArc l b (b.node a).kids

/-! ### Trees with shared vectors -/

/-- A tree in which every vector of children has an address (`addr`: of the allocation the `Arc` in the node points to, arc_radix_tree.rs:34-43). -/
inductive ATree (K V : Type _) where
  | mk (pre : List K) (val : Option V) (addr : Nat) (kids : List (ATree K V))

/-- the address of the vector of children -/
def ATree.addr : ATree K V → Nat
  | ⟨_, _, a, _⟩ => a
/-- the vector of children -/
def ATree.kids : ATree K V → List (ATree K V)
  | ⟨_, _, _, ks⟩ => ks

mutual
/-- the tree without addresses -/
def ATree.erase : ATree K V → Tree K V
  | ⟨p, v, _, ks⟩ => ⟨p, v, ATree.eraseL ks⟩
/-- for a list -/
def ATree.eraseL : List (ATree K V) → List (Tree K V)
  | [] => []
  | t :: ts => t.erase :: ATree.eraseL ts
end

/-- the registry of the deserializer (position, address, vector) and the number of allocations made -/
structure Reg (K V : Type _) where
  known : List (Nat × Nat × List (ATree K V))
  next : Nat

/-- deserialize the elements of a vector one after the other -/
def loadEach (rec : Nat → Reg K V → Option (ATree K V × Reg K V)) : List Nat → Reg K V → Option (List (ATree K V) × Reg K V)
  | [], g => some ([], g)
  | x :: xs, g =>
    match rec x g with
    | none => none
    | some (t, g1) =>
      match loadEach rec xs g1 with
      | none => none
      | some (ts, g2) => some (t :: ts, g2)

/-- `Deserialize` (arc_radix_tree.rs:233-242): prefix, value and children, into an `ArcRadixTree`; `none`: undefined behaviour, or nested deeper than the first
argument. New allocations are numbered. -/
def load (l : ALayout) (b : ABuf K V) : Nat → Nat → Reg K V → Option (ATree K V × Reg K V)
  | 0, _, _ => none
  | fuel + 1, a, g =>
    match prefixAt l b a, valueAt b a, childrenAt l b a with
    | some p, some v, some cs =>
      match g.known.lookup (b.node a).kids.toNat with
      | some (x, ts) => some (⟨p, v, x, ts⟩, g)
      | none =>
        match loadEach (load l b fuel) cs g with
        | none => none
        | some (ts, g') => some (⟨p, v, g'.next, ts⟩, ⟨((b.node a).kids.toNat, g'.next, ts) :: g'.known, g'.next + 1⟩)
    | _, _, _ => none

/-! ### Writing an archive -/

/-- something put into the buffer -/
inductive Obj (K V : Type _) where
  | key (k : K)
  | node (h : AHdr V)
  | vec (p : VecPtr)

/-- elements of a slice written one after the other from `pos` -/
def place {α : Type _} (size : Nat) (f : α → Obj K V) : Nat → List α → List (Nat × Obj K V)
  | _, [] => []
  | pos, x :: xs => (pos, f x) :: place size f (pos + size) xs

/-- the state of the serializer and what it has written -/
structure Out (K V : Type _) where
  objs : List (Nat × Obj K V)
  reg : List (Nat × Nat)
  pos : Nat

/-- write a slice: alignment, then the elements -/
def Out.slice {α : Type _} (o : Out K V) (size align : Nat) (f : α → Obj K V) (xs : List α) : Out K V :=
  ⟨o.objs ++ place size f (alignUp align o.pos) xs, o.reg, alignUp align o.pos + xs.length * size⟩

/-- `serialize_shared` of rkyv (called by `arc.serialize(serializer)`, arc_radix_tree.rs:216, lazy_radix_tree.rs:220) after `serialize` of the elements: the nodes,
the `ArchivedVec`, and the registration of its position -/
def emitArc (l : ALayout) (x : Nat) (o : Out K V) (hs : List (AHdr V)) : Out K V :=
  ⟨((o.slice l.nodeSize l.nodeAlign .node hs).slice l.vecSize l.vecAlign .vec [⟨(alignUp l.nodeAlign o.pos : Nat), hs.length⟩]).objs,
   (x, alignUp l.vecAlign (o.slice l.nodeSize l.nodeAlign .node hs).pos) :: o.reg,
   ((o.slice l.nodeSize l.nodeAlign .node hs).slice l.vecSize l.vecAlign .vec [⟨(alignUp l.nodeAlign o.pos : Nat), hs.length⟩]).pos⟩

mutual
/-- `serialize` (arc_radix_tree.rs:211-222, lazy_radix_tree.rs:215-226) with `resolve` (arc_radix_tree.rs:187-202, lazy_radix_tree.rs:191-206): the prefix, then the
`Arc`. Result: the serializer and the node itself, which the caller puts into the buffer. -/
def emit (l : ALayout) : ATree K V → Out K V → Out K V × AHdr V
  | ⟨p, v, x, ks⟩, o =>
    match (o.slice l.keySize l.keyAlign .key p).reg.lookup x with
    | some q => (o.slice l.keySize l.keyAlign .key p, ⟨⟨alignUp l.keyAlign o.pos, p.length⟩, some v, q⟩)
    | none =>
      match emitAll l ks (o.slice l.keySize l.keyAlign .key p) with
      | (o1, hs) => (emitArc l x o1 hs, ⟨⟨alignUp l.keyAlign o.pos, p.length⟩, some v, (alignUp l.vecAlign (o1.slice l.nodeSize l.nodeAlign .node hs).pos : Nat)⟩)
/-- `serialize` of each element of a vector -/
def emitAll (l : ALayout) : List (ATree K V) → Out K V → Out K V × List (AHdr V)
  | [], o => (o, [])
  | t :: ts, o =>
    match emit l t o with
    | (o1, h) =>
      match emitAll l ts o1 with
      | (o2, hs) => (o2, h :: hs)
end

/-- `serialize_value` of rkyv: what belongs to the tree and then the root node. Result: the serializer and the position of the root. -/
def emitRoot (l : ALayout) (t : ATree K V) (o : Out K V) : Out K V × Nat :=
  match emit l t o with
  | (o1, h) => (o1.slice l.nodeSize l.nodeAlign .node [h], alignUp l.nodeAlign o1.pos)

/-- several trees written one after the other with one serializer (a `flush` for each, examples/radix_db.rs:396-414) -/
def emitRoots (l : ALayout) : List (ATree K V) → Out K V → Out K V × List Nat
  | [], o => (o, [])
  | t :: ts, o =>
    match emitRoot l t o with
    | (o1, a) =>
      match emitRoots l ts o1 with
      | (o2, as) => (o2, a :: as)

end
end ArcArchive
end Verif
