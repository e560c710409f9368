import Verif.Spec.RadixDepth
import Verif.Model.RadixWork
/-!
# What combining and relating two radix trees may cost

`nodes t` is the number of nodes, `components t` the number of key components stored in the nodes, `Narrow w t` says that no node has more than `w` children.
-/
namespace Verif
namespace Tree
variable {K V W : Type}

/-- Bounds for combining `a` and `b`: each of them holds for the one and for the other tree, so combining a large tree with a small one is cheap. -/
structure CombineCost (a : Tree K V) (b : Tree K W) (u : Use) : Prop where
  /-- tests of equality: no more than the components stored in either tree -/
  eqsA : u.eqs ≤ a.components
  eqsB : u.eqs ≤ b.components
  /-- comparisons: a logarithmic factor times the size of either tree -/
  cmpsA : ∀ wb, 1 ≤ wb → Narrow wb b → u.cmps ≤ (a.nodes + a.components) * (Nat.log2 wb + 2)
  cmpsB : ∀ wa wb, 1 ≤ wa → 1 ≤ wb → Narrow wa a → Narrow wb b → u.cmps ≤ (b.nodes + b.components) * ((Nat.log2 wa + 1) * (Nat.log2 wb + 2))
  /-- children given to `sort_by_key` -/
  sortedA : u.sorted ≤ 2 * a.nodes
  sortedB : u.sorted ≤ 2 * b.nodes

/-- Bounds for relating `a` and `b`. -/
structure RelationCost (a : Tree K V) (b : Tree K W) (u : Use) : Prop where
  eqs : u.eqs ≤ a.components + b.components
  cmpsA : ∀ wb, Narrow wb b → u.cmps ≤ a.nodes * (Nat.log2 wb + 2)
  cmpsB : ∀ wa wb, Narrow wa a → Narrow wb b → u.cmps ≤ b.nodes * ((Nat.log2 wa + 1) * (Nat.log2 wb + 2))
  sorted : u.sorted = 0

end Tree
end Verif
