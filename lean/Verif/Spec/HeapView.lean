import Verif.Spec.ValueMachine
/-!
# What the heap stands for

`Den h n t`: reading the node `n` in the heap `h` gives the tree `t`. `WF h roots`: the reference counts of the heap are exact,
given the list `roots` of the nodes that are held outside the heap. `Reach`: what can be reached from the variables.
-/
namespace Verif.Shared
variable {K V : Type _}

mutual
/-- the node `n` in heap `h` stands for the tree -/
inductive Den (h : Heap K V) : Node K V → Tree K V → Prop
  | raw (p v ts) : Den h ⟨p, v, .raw ts⟩ ⟨p, v, ts⟩
  | arc (p v) {id r ns ts} : h.cell id = some (r, ns) → Dens h ns ts → Den h ⟨p, v, .arc id⟩ ⟨p, v, ts⟩
/-- the nodes `ns` stand for the trees, in order -/
inductive Dens (h : Heap K V) : List (Node K V) → List (Tree K V) → Prop
  | nil : Dens h [] []
  | cons {n t ns ts} : Den h n t → Dens h ns ts → Dens h (n :: ns) (t :: ts)
end

/-- the node refers to the allocation `id` -/
def Node.isArc (id : Nat) (n : Node K V) : Bool := match n.kids with | .arc j => j == id | .raw _ => false
/-- number of references to `id` in a list of nodes -/
def refs (id : Nat) (ns : List (Node K V)) : Nat := ns.countP (Node.isArc id)
/-- the vector at an address (empty if not allocated) -/
def Heap.vec (h : Heap K V) (i : Nat) : List (Node K V) := match h.cell i with | none => [] | some (_, ns) => ns
/-- the strong count at an address (0 if not allocated) -/
def Heap.rc (h : Heap K V) (i : Nat) : Nat := match h.cell i with | none => 0 | some (r, _) => r
/-- sum of `f 0 .. f (n-1)` -/
def sumTo : Nat → (Nat → Nat) → Nat
  | 0, _ => 0
  | n + 1, f => sumTo n f + f n
/-- number of references to `id` from inside the heap -/
def Heap.total (h : Heap K V) (id : Nat) : Nat := sumTo h.next (fun i => refs id (h.vec i))

/-- A consistent heap: every allocation is below `next`, no live allocation has count 0, the strong count of every address is
exactly the number of references to it, and every live vector can be read. -/
structure WF (h : Heap K V) (roots : List (Node K V)) : Prop where
  bound : ∀ i, h.next ≤ i → h.cell i = none
  pos : ∀ i r ns, h.cell i = some (r, ns) → 1 ≤ r
  exact : ∀ id, h.rc id = refs id roots + h.total id
  full : ∀ i r ns, h.cell i = some (r, ns) → ∃ ts, Dens h ns ts

/-- The nodes owned by others than the variables, with the trees they stand for: the static reference to `EMPTY_ARC_VEC`, and a
frame `F` of nodes owned by other code (the caller, another data structure). -/
def others (s : St K V) (F : List (Node K V × Tree K V)) : List (Node K V × Tree K V) :=
  (match s.static with | some e => [(⟨[], none, .arc e⟩, ⟨[], none, []⟩)] | none => []) ++ F

/-- the nodes held outside the heap: in variables, in the static, and in the frame -/
def St.roots (s : St K V) (F : List (Node K V × Tree K V)) : List (Node K V) := s.regs.filterMap id ++ (others s F).map Prod.fst

/-- a variable and what it stands for: moved out on both sides, or a node that stands for the tree -/
def OptDen (h : Heap K V) : Option (Node K V) → Option (Tree K V) → Prop
  | none, none => True
  | some n, some t => Den h n t
  | _, _ => False

/-- the variables stand for the given trees -/
structure RegDen (h : Heap K V) (regs : List (Option (Node K V))) (ts : Vars K V) : Prop where
  len : regs.length = ts.length
  den : ∀ (i : Nat) o, regs[i]? = some o → ∃ o', ts[i]? = some o' ∧ OptDen h o o'

/-- The state `s`, with the frame `F`, is consistent: its variables stand for `ts`, and the frame nodes for their trees. Every
state a program can reach satisfies this for some `ts` (`C53_refines_values`); so does every partially loaded version of it. -/
structure Ok (s : St K V) (F : List (Node K V × Tree K V)) (ts : Vars K V) : Prop where
  wf : WF s.heap (s.roots F)
  regs : RegDen s.heap s.regs ts
  frame : ∀ x ∈ others s F, Den s.heap x.1 x.2

/-- the allocation can be reached from a variable, the static or the frame -/
inductive Reach (s : St K V) (F : List (Node K V × Tree K V)) : Nat → Prop
  | root {n id} : n ∈ s.roots F → n.kids = .arc id → Reach s F id
  | step {id r ns n id'} : Reach s F id → s.heap.cell id = some (r, ns) → n ∈ ns → n.kids = .arc id' → Reach s F id'

end Verif.Shared
