import Verif.Model.ArcArchive
/-!
# Validation of archives on a stack of bounded size

`check_bytes` of a node calls itself for the children. Here it may be nested at most `depth` times; the result `deep` stands for a stack overflow.
-/
namespace Verif
section
variable {K V : Type _} [Ord K]

/-- `check_archived_value` for an archived `RadixTree` (flat_radix_tree.rs:235-267; as `Archive.checkRoot`), nested at most `depth` times -/
def Archive.checkRootTo (l : Layout) (b : Buf K V) (depth a : Nat) : Option (Res Range) :=
  if a + l.nodeSize ≤ b.len ∧ a % l.nodeAlign = 0 then some (checkNode l b depth a ⟨0, a⟩) else none

/-- `check_archived_value` for an archived `ArcRadixTree` or `LazyRadixTree` (arc_radix_tree.rs:287-319; as `ArcArchive.checkRoot`), nested at most `depth` times -/
def ArcArchive.checkRootTo (l : ALayout) (b : ABuf K V) (depth a : Nat) : Option (Archive.Res Ctx) :=
  if a + l.nodeSize ≤ b.len ∧ a % l.nodeAlign = 0 then some (checkNode l b depth a ⟨⟨0, a⟩, []⟩) else none

end
end Verif
