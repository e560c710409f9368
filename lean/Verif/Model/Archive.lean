import Verif.Model.RadixTree
import Verif.Model.VecSet
/-!
# Archives at the level of positions in a buffer

`Model/RadixTree.lean` takes an archived tree to be a tree. Here an archive is a buffer of bytes in which vectors are found through relative pointers; the
buffer may come from anywhere and its pointers may point anywhere. Bytes are modelled by what they mean when read as one of the types involved: `key a` is
what the bytes at position `a` are as a key component, `node a` what they are as an archived node. Nothing is assumed about how these readings overlap.

What belongs to rkyv (0.7) and is modelled here as the environment: `ArchivedVec` is a relative pointer and a length; `check_bytes` of `ArchivedVec` verifies
that the pointed-to slice is in the buffer, aligned and inside the validator's current range, restricts the range to what is in front of the slice
(`push_prefix_subtree`), checks the elements one by one, and then sets the range to what is behind the slice (`pop_prefix_range`). Key components and values
have no data elsewhere in the buffer.
-/
namespace Verif
namespace Archive

/-- size and alignment of archived key components and nodes -/
structure Layout where
  keySize : Nat
  keyAlign : Nat
  nodeSize : Nat
  nodeAlign : Nat

/-- an `ArchivedVec` as found in the buffer: where its relative pointer points to (possibly in front of the buffer) and its length -/
structure VecPtr where
  target : Int
  len : Nat
deriving DecidableEq, Repr

/-- `ArchivedRadixTree { prefix, value, children }` (flat_radix_tree.rs:85-90) as found in the buffer; `val = none`: the bytes are not an `Option<V>` -/
structure Hdr (V : Type _) where
  pre : VecPtr
  val : Option (Option V)
  kids : VecPtr

/-- a buffer of `len` bytes; `key a = none`: the bytes at `a` are not a key component -/
structure Buf (K V : Type _) where
  len : Nat
  key : Nat → Option K
  node : Nat → Hdr V

/-- How validation ends. `ub`: memory outside the buffer, or something that is not a value of its type, has been read (undefined behaviour). `deep`: the
recursion was cut off (shown not to happen). -/
inductive Res (α : Type _) where
  | ok (x : α)
  | err (e : Tree.ArchError)
  | ub
  | deep
deriving DecidableEq, Repr

/-- the part of the buffer in which the validator expects the next object -/
structure Range where
  lo : Nat
  hi : Nat
deriving DecidableEq, Repr

/-- positions of the elements of a slice -/
def slots (size : Nat) (p : VecPtr) : List Nat := (List.range p.len).map (fun i => p.target.toNat + i * size)

section
variable {K V : Type _}

/-- the slice is inside the buffer -/
def inBuf (b : Buf K V) (size : Nat) (p : VecPtr) : Bool := decide (0 ≤ p.target) && decide (p.target.toNat + p.len * size ≤ b.len)

/-- the slice is aligned -/
def aligned (align : Nat) (p : VecPtr) : Bool := decide (p.target % (align : Int) = 0)

/-- `check_subtree_rel_ptr` of rkyv's `ArchiveValidator`, as called by `check_bytes` of `ArchivedVec` -/
def checkPtr (b : Buf K V) (size align : Nat) (r : Range) (p : VecPtr) : Bool :=
  inBuf b size p && aligned align p && decide (r.lo ≤ p.target.toNat) && decide (p.target.toNat + p.len * size ≤ r.hi)

/-- `push_prefix_subtree`: while the elements of the slice are checked -/
def Range.push (r : Range) (p : VecPtr) : Range := { r with hi := p.target.toNat }
/-- `pop_prefix_range`: afterwards -/
def Range.pop (r : Range) (size : Nat) (p : VecPtr) : Range := { r with lo := p.target.toNat + p.len * size }

/-- using an `ArchivedVec` as a slice (`Deref`): positions of its elements, `none` if that is undefined behaviour. An empty slice only has to be aligned. -/
def deref (b : Buf K V) (size align : Nat) (p : VecPtr) : Option (List Nat) :=
  if aligned align p && (decide (p.len = 0) || inBuf b size p) then some (slots size p) else none

/-- `child.prefix[0]` (flat_radix_tree.rs:258) for a child whose prefix says it is not empty; `none` is undefined behaviour -/
def headAt (l : Layout) (b : Buf K V) (c : Nat) : Option K :=
  match deref b l.keySize l.keyAlign (b.node c).pre with
  | some (x :: _) => b.key x
  | _ => none

/-- `children.iter().zip(children.iter().skip(1)).all(|(a, b)| a.prefix[0] < b.prefix[0])` (flat_radix_tree.rs:255-258) -/
def ordered [Ord K] (l : Layout) (b : Buf K V) : List Nat → Res Bool
  | x :: y :: rest =>
    match headAt l b x, headAt l b y with
    | some k, some k' => if compare k k' = .lt then ordered l b (y :: rest) else .ok false
    | _, _ => .ub
  | _ => .ok true

/-- `<[T]>::check_bytes`: the elements one after the other, each leaving the range in which the next is expected -/
def checkAll (rec : Nat → Range → Res Range) : List Nat → Range → Res Range
  | [], r => .ok r
  | c :: cs, r =>
    match rec c r with
    | .ok r' => checkAll rec cs r'
    | e => e

/-- `CheckBytes::check_bytes(children, context).map_err(|_| ArchivedRadixTreeError::Children)` (flat_radix_tree.rs:263-264) -/
def checkChildren (l : Layout) (b : Buf K V) (rec : Nat → Range → Res Range) (r : Range) (p : VecPtr) : Res Range :=
  if checkPtr b l.nodeSize l.nodeAlign r p then
    match checkAll rec (slots l.nodeSize p) (r.push p) with
    | .ok _ => .ok (r.pop l.nodeSize p)
    | .err _ => .err .children
    | e => e
  else .err .children

/-- `check_bytes` (flat_radix_tree.rs:235-267) of the node at `a`: prefix (245-246), value (248-249), children have non-empty prefixes (251-253), order of the
children (255-261), and only then the vector of children itself (263-264). Returns the validator's range. -/
def checkNode [Ord K] (l : Layout) (b : Buf K V) : Nat → Nat → Range → Res Range
  | 0, _, _ => .deep
  | fuel + 1, a, r =>
    if !(decide (a + l.nodeSize ≤ b.len) && decide (a % l.nodeAlign = 0)) then .ub
    else if !checkPtr b l.keySize l.keyAlign r (b.node a).pre then .err .prefix
    else if !(slots l.keySize (b.node a).pre).all (fun x => (b.key x).isSome) then .err .prefix
    else if (b.node a).val.isNone then .err .value
    else match deref b l.nodeSize l.nodeAlign (b.node a).kids with
      | none => .ub
      | some cs =>
        if !cs.all (fun c => decide ((b.node c).pre.len ≠ 0)) then .err .children
        else match ordered l b cs with
          | .ok true => checkChildren l b (checkNode l b fuel) (r.pop l.keySize (b.node a).pre) (b.node a).kids
          | .ok false => .err .order
          | .err e => .err e
          | .ub => .ub
          | .deep => .deep

/-- `check_archived_value` of rkyv for a tree at position `a`: the position is checked, then the node; `none`: rejected because of the position -/
def checkRoot [Ord K] (l : Layout) (b : Buf K V) (a : Nat) : Option (Res Range) :=
  if a + l.nodeSize ≤ b.len ∧ a % l.nodeAlign = 0 then some (checkNode l b (b.len + 1) a ⟨0, a⟩) else none

/-! ### Reading an archive -/

/-- `prefix()` (flat_radix_tree.rs:107-109) of an archived node; `none`: undefined behaviour -/
def prefixAt (l : Layout) (b : Buf K V) (a : Nat) : Option (List K) :=
  match deref b l.keySize l.keyAlign (b.node a).pre with
  | some xs => xs.mapM b.key
  | none => none
/-- `value()` (flat_radix_tree.rs:111-113) -/
def valueAt (b : Buf K V) (a : Nat) : Option (Option V) := (b.node a).val
/-- `children()` (flat_radix_tree.rs:115-117): positions of the children -/
def childrenAt (l : Layout) (b : Buf K V) (a : Nat) : Option (List Nat) := deref b l.nodeSize l.nodeAlign (b.node a).kids

/-- `Deserialize` (flat_radix_tree.rs:184-193): prefix, value and, recursively, children, into a `RadixTree`; `none`: undefined behaviour, or nested deeper
than the first argument -/
def load (l : Layout) (b : Buf K V) : Nat → Nat → Option (Tree K V)
  | 0, _ => none
  | fuel + 1, a =>
    match prefixAt l b a, valueAt b a, childrenAt l b a with
    | some p, some v, some cs =>
      match cs.mapM (load l b fuel) with
      | some ts => some ⟨p, v, ts⟩
      | none => none
    | _, _, _ => none

/-! ### Writing an archive -/

/-- something put into the buffer -/
inductive Obj (K V : Type _) where
  | key (k : K)
  | node (h : Hdr V)

/-- `Serializer::align`: the first aligned position from `pos` -/
def alignUp (align pos : Nat) : Nat := pos + (align - pos % align) % align

/-- elements of a slice written one after the other from `pos` -/
def place {α : Type _} (size : Nat) (f : α → Obj K V) : Nat → List α → List (Nat × Obj K V)
  | _, [] => []
  | pos, x :: xs => (pos, f x) :: place size f (pos + size) xs

mutual
/-- `serialize` and `resolve` (flat_radix_tree.rs:131-155, 164-173): the prefix, then what belongs to the children and then the children themselves are put into
the buffer from position `pos`. Result: what is written, the node itself (which the caller puts into the buffer) and the new end of the buffer. -/
def emit (l : Layout) : Tree K V → Nat → List (Nat × Obj K V) × Hdr V × Nat
  | ⟨p, v, ks⟩, pos =>
    (place l.keySize .key (alignUp l.keyAlign pos) p ++ (emitKids l ks (alignUp l.keyAlign pos + p.length * l.keySize)).1 ++
      place l.nodeSize .node (alignUp l.nodeAlign (emitKids l ks (alignUp l.keyAlign pos + p.length * l.keySize)).2.2)
        (emitKids l ks (alignUp l.keyAlign pos + p.length * l.keySize)).2.1,
     { pre := ⟨alignUp l.keyAlign pos, p.length⟩, val := some v,
       kids := ⟨alignUp l.nodeAlign (emitKids l ks (alignUp l.keyAlign pos + p.length * l.keySize)).2.2, ks.length⟩ },
     alignUp l.nodeAlign (emitKids l ks (alignUp l.keyAlign pos + p.length * l.keySize)).2.2 + ks.length * l.nodeSize)
/-- `serialize_from_slice(self.children(), serializer)` (flat_radix_tree.rs:167), first half: `serialize` of each child -/
def emitKids (l : Layout) : List (Tree K V) → Nat → List (Nat × Obj K V) × List (Hdr V) × Nat
  | [], pos => ([], [], pos)
  | c :: cs, pos =>
    ((emit l c pos).1 ++ (emitKids l cs (emit l c pos).2.2).1, (emit l c pos).2.1 :: (emitKids l cs (emit l c pos).2.2).2.1,
     (emitKids l cs (emit l c pos).2.2).2.2)
end

/-- `serialize_value` of rkyv: what belongs to the tree and then the root node. Result: what is written, the position of the root, the end of the buffer. -/
def emitRoot (l : Layout) (t : Tree K V) (pos : Nat) : List (Nat × Obj K V) × Nat × Nat :=
  ((emit l t pos).1 ++ [(alignUp l.nodeAlign (emit l t pos).2.2, .node (emit l t pos).2.1)], alignUp l.nodeAlign (emit l t pos).2.2,
   alignUp l.nodeAlign (emit l t pos).2.2 + l.nodeSize)

/-! ### Sets and maps -/

/-- `a < b` for neighbouring elements (vec_set.rs:709, vec_map.rs:917-920); reading something that is not an element is undefined behaviour -/
def ascending (cmp : K → K → Ordering) (b : Buf K V) : List Nat → Res Bool
  | x :: y :: rest =>
    match b.key x, b.key y with
    | some k, some k' => if cmp k k' = .lt then ascending cmp b (y :: rest) else .ok false
    | _, _ => .ub
  | _ => .ok true

/-- `CheckBytes for ArchivedVecSet` (vec_set.rs:692-713) and `ArchivedVecMap` (vec_map.rs:910-926), with elements of type `K` and `cmp` comparing elements or
keys of entries: first the vector, then the order. The error of the elements is `.value`. -/
def checkVec (cmp : K → K → Ordering) (size align : Nat) (b : Buf K V) (r : Range) (p : VecPtr) : Res Range :=
  if !checkPtr b size align r p then .err .value
  else if !(slots size p).all (fun x => (b.key x).isSome) then .err .value
  else match deref b size align p with
    | none => .ub
    | some xs =>
      match ascending cmp b xs with
      | .ok true => .ok (r.pop size p)
      | .ok false => .err .order
      | .err e => .err e
      | .ub => .ub
      | .deep => .deep

end
end Archive
end Verif
