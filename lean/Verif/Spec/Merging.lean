/-!
# Programs that merge two sequences by comparing elements

Used to say what the comparison bound of C62 is compared with. Independent of the model.
-/
namespace Verif.Merging

/-- A program that may compare the `i`-th element of the first with the `j`-th element of the second of two sequences, and go on depending on the outcome. -/
inductive Program (R : Type) where
  | done (r : R)
  | ask (i j : Nat) (next : Ordering → Program R)

/-- the outcome of a comparison (equal if one of the elements does not exist) -/
def outcome (a b : List Nat) (i j : Nat) : Ordering :=
  match a[i]?, b[j]? with
  | some x, some y => compare x y
  | _, _ => .eq

/-- what the program says in the end -/
def Program.says {R : Type} (a b : List Nat) : Program R → R
  | .done r => r
  | .ask i j next => (next (outcome a b i j)).says a b

/-- how many comparisons it makes -/
def Program.comparisons {R : Type} (a b : List Nat) : Program R → Nat
  | .done _ => 0
  | .ask i j next => (next (outcome a b i j)).comparisons a b + 1

/-- the `i`-th element of the first (`inl i`) or of the second sequence (`inr i`) -/
def element (a b : List Nat) : Nat ⊕ Nat → Option Nat
  | .inl i => a[i]?
  | .inr j => b[j]?

/-- the list of places names the elements of both sequences in ascending order -/
def Sorted (a b : List Nat) (r : List (Nat ⊕ Nat)) : Prop :=
  ∃ l : List Nat, r.map (element a b) = l.map some ∧ l.Pairwise (· < ·) ∧ ∀ x, x ∈ l ↔ x ∈ a ∨ x ∈ b

/-- two strictly ascending sequences of `n` and `m` elements that have no element in common -/
structure Inputs (n m : Nat) (a b : List Nat) : Prop where
  left : a.length = n
  right : b.length = m
  asc : a.Pairwise (· < ·)
  asc' : b.Pairwise (· < ·)
  apart : ∀ x ∈ a, x ∉ b

/-- the program merges all of them -/
def Merges (n m : Nat) (p : Program (List (Nat ⊕ Nat))) : Prop :=
  ∀ a b, Inputs n m a b → Sorted a b (p.says a b)

end Verif.Merging
