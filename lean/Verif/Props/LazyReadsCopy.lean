import Verif.Lemmas.LazyReadsCopy
import Verif.Props.LazyReads
/-!
# What the combinations that copy load: C96

As in `Props/LazyReads.lean`, `Seen` counts the calls of `children()` on nodes of the left and of the right operand.
-/
namespace Verif.Tree
open Std

section
variable {K V W : Type} [Ord K] [TransOrd K] [LawfulEqOrd K] [DecidableEq K]

/-- **C96.** `outer_combine` (and so `union`) looks at the children of every node of both operands, exactly once, whatever they are: so a union loads both trees completely. -/
theorem C96_union_loads_all (a b : Tree K V) (ha : Valid a) (hb : Valid b) (f : V → V → Option V) :
    (outerCombineL a b f).res = a.outerCombine b f ∧ (outerCombineL a b f).seen = ⟨a.nodes, b.nodes⟩ := by
  obtain ⟨r, hr, _⟩ := C43_outer_combine a b ha hb f
  obtain ⟨h1, h2⟩ := outerGoL_ok f (a.size + b.size + 1) 1 1 a b
  obtain ⟨g1, g2, g3⟩ := h2 r hr
  rw [Nat.one_mul] at g1 g2 g3
  refine ⟨h1, ?_⟩
  show (outerGoL f (a.size + b.size + 1) 1 1 a b).seen = _
  cases hs : (outerGoL f (a.size + b.size + 1) 1 1 a b).seen with
  | mk l r =>
    rw [hs] at g1 g2 g3
    simp only at g1 g2 g3
    rw [g1, Nat.le_antisymm g2 (g3 trivial)]

/-- **C96.** `left_combine` (and so `difference`) looks at the children of every node of the left operand exactly once, and of every node of the right one at most once: so a
difference loads the left tree completely, even if the right one is empty. -/
theorem C96_difference_loads_left (a : Tree K V) (b : Tree K W) (ha : Valid a) (hb : Valid b) (f : V → Option W → Option V) :
    (leftCombineL a b f).res = a.leftCombine b f ∧ (leftCombineL a b f).seen.left = a.nodes ∧ (leftCombineL a b f).seen.right ≤ b.nodes := by
  obtain ⟨r, hr, _⟩ := leftCombine_spec ha hb f
  obtain ⟨h1, h2⟩ := leftGoL_ok f (a.size + b.size + 1) 1 1 a b
  obtain ⟨g1, g2, _⟩ := h2 r hr
  rw [Nat.one_mul] at g1 g2
  exact ⟨h1, g1, g2⟩
end

/-- the example trees of `Props/Radix.lean`: the left operand is looked at completely, the right one is not always -/
example : Valid demoA ∧ Valid demoB ∧ (outerCombineL demoA demoB (fun a _ => some a)).seen = ⟨4, 3⟩ ∧ (leftCombineL demoA demoB (fun a _ => some a)).seen = ⟨4, 3⟩ ∧
    (leftCombineL demoB demoA (fun a _ => some a)).seen = ⟨3, 4⟩ ∧ (leftCombineL (single [7] 'x') demoB (fun a _ => some a)).seen = ⟨1, 1⟩ ∧
    demoA.nodes = 4 ∧ demoB.nodes = 3 := by
  refine ⟨demoA_canonical.1, demoB_canonical.1, by decide +kernel, by decide +kernel, by decide +kernel, by decide +kernel, by decide, by decide⟩

end Verif.Tree
