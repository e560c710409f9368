import Verif.Model.RadixDbShared
import Verif.Spec.RadixDb
/-!
# Independent databases

What `C71` says about several databases on one storage: the history of each of them is the history it would have alone.
-/
namespace Verif.Shared
variable {K V : Type _}

/-- the names that are opened, in order -/
def openedNames : List (WorldOp K V) → List String
  | [] => []
  | .opened nm :: ops => nm :: openedNames ops
  | .on _ _ :: ops => openedNames ops

/-- no name occurs twice, and no name is another one followed by `.tmp` -/
def Apart (names : List String) : Prop := names.Pairwise (fun a b => a ≠ b ∧ a ≠ b ++ ".tmp" ∧ b ≠ a ++ ".tmp")

/-- what happens to database `i` when `n` databases are open already: the operations on `i`, from the moment it is open -/
def opsOf (i : Nat) : Nat → List (WorldOp K V) → List (DbOp K V)
  | _, [] => []
  | n, .opened _ :: ops => opsOf i (n + 1) ops
  | n, .on j op :: ops => if j = i ∧ i < n then op :: opsOf i n ops else opsOf i n ops

/-- what database `i` observed -/
def obsOf (i : Nat) (obs : List (Nat × List (Obs K V))) : List (List (Obs K V)) := (obs.filter (fun x => x.1 = i)).map (·.2)

end Verif.Shared
