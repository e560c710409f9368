/-!
# Specification vocabulary: orders, ascending sequences, membership up to the order

Rust's `Ord` is modelled by `Ord α` together with `Std.TransOrd α` (lawful: reflexive, oriented,
transitive).  Two values may compare `eq` without being identical, so "which representative
is stored" is visible.  `Std.LawfulEqOrd α` is added only where identity is meant.
-/
namespace Verif

/-- The sequence `l` is strictly ascending in the key `key`: sorted and free of duplicates. -/
def AscendingBy {α κ : Type _} [Ord κ] (key : α → κ) (l : List α) : Prop :=
  l.Pairwise (fun x y => compare (key x) (key y) = .lt)

/-- The sequence `l` is strictly ascending. -/
def Ascending {α : Type _} [Ord α] (l : List α) : Prop :=
  l.Pairwise (fun x y => compare x y = .lt)

/-- Some element of `l` is equal (in the order) to `x`. -/
def Has {α : Type _} [Ord α] (l : List α) (x : α) : Prop := ∃ y ∈ l, compare y x = .eq

/-- The association list `l` maps (a key equal to) `k` to `v`. -/
def Maps {κ β : Type _} [Ord κ] (l : List (κ × β)) (k : κ) (v : β) : Prop :=
  ∃ k', (k', v) ∈ l ∧ compare k' k = .eq

/-- Some key of the association list `l` equals `k`. -/
def HasKey {κ β : Type _} [Ord κ] (l : List (κ × β)) (k : κ) : Prop := ∃ v, Maps l k v

end Verif
