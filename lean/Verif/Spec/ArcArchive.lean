import Verif.Model.ArcArchive
import Verif.Spec.Archive
/-!
# What it means that a tree with shared vectors is in a buffer

Slices and key components are described as for flat archives (`SliceAt`, `KeysAt`, Spec/Archive.lean); these only look at the length of the buffer and at what its
bytes are as key components, which `ABuf.flat` does not change.
-/
namespace Verif
namespace ArcArchive
open Verif.Archive
section
variable {K V : Type _}

/-- The bytes from position `q` on are an `ArchivedVec` inside the buffer, of nodes at the positions `cs`. -/
structure VecAt (l : ALayout) (b : ABuf K V) (q : Nat) (cs : List Nat) : Prop where
  inside : q + l.vecSize ≤ b.len
  aligned : q % l.vecAlign = 0
  slice : SliceAt b.flat l.nodeSize l.nodeAlign (b.vec q) cs

/-- The bytes from position `a` on are an archived node with prefix `p` and value `v`, whose `Arc` points to the vector at `q`; its children are at `cs`. -/
structure NodeAt (l : ALayout) (b : ABuf K V) (a : Nat) (p : List K) (v : Option V) (q : Nat) (cs : List Nat) : Prop where
  inside : a + l.nodeSize ≤ b.len
  aligned : a % l.nodeAlign = 0
  pre : ∃ xs, SliceAt b.flat l.keySize l.keyAlign (b.node a).pre xs ∧ KeysAt b.flat xs p
  val : (b.node a).val = some v
  arc : (b.node a).kids = q
  vec : VecAt l b q cs

mutual
/-- Following the pointers from position `a` within the buffer one finds the tree. -/
def Stored (l : ALayout) (b : ABuf K V) : Nat → Tree K V → Prop
  | a, ⟨p, v, ts⟩ => ∃ q cs, NodeAt l b a p v q cs ∧ StoredL l b cs ts
/-- a list of trees at the given positions -/
def StoredL (l : ALayout) (b : ABuf K V) : List Nat → List (Tree K V) → Prop
  | [], [] => True
  | c :: cs, t :: ts => Stored l b c t ∧ StoredL l b cs ts
  | _, _ => False
end

mutual
/-- The same with addresses: the vector with address `x` is at a position `q` with `R x q`. -/
def Located (R : Nat → Nat → Prop) (l : ALayout) (b : ABuf K V) : Nat → ATree K V → Prop
  | a, ⟨p, v, x, ts⟩ => ∃ q cs, R x q ∧ NodeAt l b a p v q cs ∧ LocatedL R l b cs ts
/-- a list of trees at the given positions -/
def LocatedL (R : Nat → Nat → Prop) (l : ALayout) (b : ABuf K V) : List Nat → List (ATree K V) → Prop
  | [], [] => True
  | c :: cs, t :: ts => Located R l b c t ∧ LocatedL R l b cs ts
  | _, _ => False
end

/-- equal on one side if and only if equal on the other -/
def OneToOne (R : Nat → Nat → Prop) : Prop := ∀ x y x' y', R x y → R x' y' → (x = x' ↔ y = y')

mutual
/-- The trees are the same up to the addresses; corresponding vectors have addresses related by `S`. -/
def Similar (S : Nat → Nat → Prop) : ATree K V → ATree K V → Prop
  | ⟨p, v, x, ts⟩, ⟨p', v', x', ts'⟩ => p = p' ∧ v = v' ∧ S x x' ∧ SimilarL S ts ts'
/-- for lists -/
def SimilarL (S : Nat → Nat → Prop) : List (ATree K V) → List (ATree K V) → Prop
  | [], [] => True
  | t :: ts, t' :: ts' => Similar S t t' ∧ SimilarL S ts ts'
  | _, _ => False
end

/-- Same tree, and two nodes share their vector of children in one if and only if they do in the other. -/
def SameSharing (t t' : ATree K V) : Prop := ∃ S, OneToOne S ∧ Similar S t t'

/-- The tree is in memory: `H x` is the vector at address `x`. -/
inductive InHeap (H : Nat → List (ATree K V)) : ATree K V → Prop
  | mk {p : List K} {v : Option V} {x : Nat} {ks : List (ATree K V)} : H x = ks → (∀ c ∈ ks, InHeap H c) → InHeap H ⟨p, v, x, ks⟩

/-- `x` is the address of a vector of the tree -/
inductive HasAddr : ATree K V → Nat → Prop
  | here {p : List K} {v : Option V} {x : Nat} {ks : List (ATree K V)} : HasAddr ⟨p, v, x, ks⟩ x
  | there {p : List K} {v : Option V} {x y : Nat} {ks : List (ATree K V)} {c : ATree K V} : c ∈ ks → HasAddr c y → HasAddr ⟨p, v, x, ks⟩ y

/-- `a` is reached from `root` through any number of children -/
inductive Reach (l : ALayout) (b : ABuf K V) (root : Nat) : Nat → Prop
  | root : Reach l b root root
  | child {a c : Nat} {cs : List Nat} : Reach l b root a → childrenAt l b a = some cs → c ∈ cs → Reach l b root c

/-- there is a path of `n` steps down from `a` -/
inductive Path (l : ALayout) (b : ABuf K V) : Nat → Nat → Prop
  | zero {a : Nat} : Path l b 0 a
  | succ {n a c : Nat} {cs : List Nat} : childrenAt l b a = some cs → c ∈ cs → Path l b n c → Path l b (n + 1) a

/-- Everything one comes across going down from `root` is a node inside the buffer. -/
def Safe (l : ALayout) (b : ABuf K V) (root : Nat) : Prop := ∀ a, Reach l b root a → ∃ p v q cs, NodeAt l b a p v q cs

/-- Everywhere below `root` the children have non-empty prefixes and are strictly ascending in the first component of their prefixes. -/
def OrderedBelow [Ord K] (l : ALayout) (b : ABuf K V) (root : Nat) : Prop :=
  ∀ a cs, Reach l b root a → childrenAt l b a = some cs →
    ∃ hs : List (K × List K), cs.map (prefixAt l b) = hs.map (fun h => some (h.1 :: h.2)) ∧ hs.Pairwise (fun h h' => compare h.1 h'.1 = .lt)

/-- the buffer contains what has been written -/
def Holds (b : ABuf K V) (objs : List (Nat × Obj K V)) : Prop :=
  ∀ x ∈ objs, match x.2 with | .key k => b.key x.1 = some k | .node h => b.node x.1 = h | .vec p => b.vec x.1 = p

/-- Sizes are multiples of alignments, a node and a vector take space. -/
structure ALayout.Ok (l : ALayout) : Prop where
  flat : l.toLayout.Ok
  vecAlign : 0 < l.vecAlign
  vecSize : l.vecSize % l.vecAlign = 0
  vec : 0 < l.vecSize

/-- the second buffer begins with the first -/
structure Extends (l : ALayout) (b b' : ABuf K V) : Prop where
  len : b.len ≤ b'.len
  key : ∀ a, a + l.keySize ≤ b.len → b'.key a = b.key a
  node : ∀ a, a + l.nodeSize ≤ b.len → b'.node a = b.node a
  vec : ∀ a, a + l.vecSize ≤ b.len → b'.vec a = b.vec a

/-- the relation holds between corresponding elements of lists of the same length -/
inductive All2 {α β : Type _} (R : α → β → Prop) : List α → List β → Prop
  | nil : All2 R [] []
  | cons {a : α} {b : β} {as : List α} {bs : List β} : R a b → All2 R as bs → All2 R (a :: as) (b :: bs)

/-- a serializer that has written nothing, at position `pos` -/
def fresh (pos : Nat) : Out K V := ⟨[], [], pos⟩

/-- how many key components, nodes and vectors are among the objects -/
def keysIn (objs : List (Nat × Obj K V)) : Nat := objs.countP (fun x => match x.2 with | .key _ => true | _ => false)
/-- nodes -/
def nodesIn (objs : List (Nat × Obj K V)) : Nat := objs.countP (fun x => match x.2 with | .node _ => true | _ => false)
/-- vectors -/
def vecsIn (objs : List (Nat × Obj K V)) : Nat := objs.countP (fun x => match x.2 with | .vec _ => true | _ => false)

/-- the prefix of the root node -/
def ATree.pre : ATree K V → List K
  | ⟨p, _, _, _⟩ => p

end
end ArcArchive
end Verif
