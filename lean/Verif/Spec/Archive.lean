import Verif.Model.Archive
import Verif.Spec.RadixDepth
/-!
# What it means that a tree is in a buffer
-/
namespace Verif
namespace Archive
variable {K V : Type _}

/-- The slice described by `p` is aligned and in the buffer, and its elements are at the positions `xs`. -/
def SliceAt (b : Buf K V) (size align : Nat) (p : VecPtr) (xs : List Nat) : Prop :=
  ∃ s : Nat, p.target = s ∧ s % align = 0 ∧ s + p.len * size ≤ b.len ∧ xs = (List.range p.len).map (fun i => s + i * size)

/-- The bytes at the positions are these key components. -/
def KeysAt (b : Buf K V) : List Nat → List K → Prop
  | [], [] => True
  | x :: xs, k :: ks => b.key x = some k ∧ KeysAt b xs ks
  | _, _ => False

mutual
/-- The bytes from position `a` on are an archived node, and following the pointers from there within the buffer one finds the tree. -/
def Stored (l : Layout) (b : Buf K V) : Nat → Tree K V → Prop
  | a, ⟨p, v, ts⟩ =>
    a + l.nodeSize ≤ b.len ∧ a % l.nodeAlign = 0 ∧ (∃ xs, SliceAt b l.keySize l.keyAlign (b.node a).pre xs ∧ KeysAt b xs p) ∧ (b.node a).val = some v ∧
    ∃ cs, SliceAt b l.nodeSize l.nodeAlign (b.node a).kids cs ∧ StoredList l b cs ts
/-- a list of trees at the given positions -/
def StoredList (l : Layout) (b : Buf K V) : List Nat → List (Tree K V) → Prop
  | [], [] => True
  | c :: cs, t :: ts => Stored l b c t ∧ StoredList l b cs ts
  | _, _ => False
end

/-- the buffer contains what has been written -/
def Holds (b : Buf K V) (objs : List (Nat × Obj K V)) : Prop :=
  ∀ x ∈ objs, match x.2 with | .key k => b.key x.1 = some k | .node h => b.node x.1 = h

/-- Sizes are multiples of alignments, a node takes space. -/
structure Layout.Ok (l : Layout) : Prop where
  keyAlign : 0 < l.keyAlign
  nodeAlign : 0 < l.nodeAlign
  keySize : l.keySize % l.keyAlign = 0
  nodeSize : l.nodeSize % l.nodeAlign = 0
  node : 0 < l.nodeSize

/-- Every vector that could be met in the buffer is in the buffer and aligned, and everything that could be read as a key component is one. -/
def Tame (l : Layout) (b : Buf K V) : Prop :=
  ∀ a, (∃ xs, SliceAt b l.keySize l.keyAlign (b.node a).pre xs ∧ ∀ x ∈ xs, (b.key x).isSome) ∧ ∃ cs, SliceAt b l.nodeSize l.nodeAlign (b.node a).kids cs

/-- the memory taken by a tree in an archive, without padding -/
def bytes (l : Layout) (t : Tree K V) : Nat := t.components * l.keySize + t.nodes * l.nodeSize

end Archive
end Verif
