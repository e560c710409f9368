/-! What a user is promised about the memory behind a set or map with inline capacity `N` (vec_set.rs:41-43, 62, 69-87; lib.rs:8-9). -/
namespace Verif

/-- A vector that started with room for `N` elements and now holds `len`: it still has its first storage (so nothing was allocated) if the elements fit,
and otherwise a buffer less than twice too large. -/
def NoMoreThanNeeded (N len cap : Nat) : Prop := (len ≤ N → cap = N) ∧ (N < len → len ≤ cap ∧ cap < 2 * len)

/-- The items come in non-descending order. -/
def NonDescendingBy {α κ : Type _} [Ord κ] (key : α → κ) (items : List α) : Prop := items.Pairwise fun x y => compare (key x) (key y) ≠ .gt

end Verif
