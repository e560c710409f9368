import Verif.Model.RadixTree
/-!
# Equality of trees is decidable (used to evaluate examples)
-/
namespace Verif
namespace Tree
variable {K V : Type} [DecidableEq K] [DecidableEq V]

mutual
/-- are the two trees the same? -/
def same : Tree K V → Tree K V → Bool
  | ⟨p, v, ks⟩, ⟨q, w, ls⟩ => decide (p = q) && (decide (v = w) && sameL ks ls)
/-- are the two lists of trees the same? -/
def sameL : List (Tree K V) → List (Tree K V) → Bool
  | [], [] => true
  | a :: as, b :: bs => same a b && sameL as bs
  | _, _ => false
end

mutual
theorem same_iff : ∀ a b : Tree K V, same a b = true ↔ a = b
  | ⟨p, v, ks⟩, ⟨q, w, ls⟩ => by
    rw [same, Bool.and_eq_true, Bool.and_eq_true, decide_eq_true_iff, decide_eq_true_iff, sameL_iff ks ls, Tree.mk.injEq]
theorem sameL_iff : ∀ as bs : List (Tree K V), sameL as bs = true ↔ as = bs
  | [], [] => by simp [sameL]
  | [], _ :: _ => by simp [sameL]
  | _ :: _, [] => by simp [sameL]
  | a :: as, b :: bs => by rw [sameL, Bool.and_eq_true, same_iff a b, sameL_iff as bs, List.cons.injEq]
end

instance : DecidableEq (Tree K V) := fun a b => decidable_of_iff _ (same_iff a b)

end Tree
end Verif
