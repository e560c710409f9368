import Verif.Spec.SharedHistory
/-! # Histories of calls on plain trees

The same histories as in `Model/SharedWorld.lean`, executed by the operations of `Model/RadixTree.lean` on trees that share nothing. This is not
code of the library: it is the user's program, reduced to the calls it makes. -/
namespace Verif.Shared
open Verif.Tree (closure)
section
variable {K V : Type} [Ord K] [DecidableEq K]

/-- the tree a call returns -/
def retOr (t : Tree K V) : Call (Tree K V) → Tree K V
  | .ret r => r
  | .panic => t

/-- the trees of the handles -/
abbrev Trees (K V : Type) := List (Option (Tree K V))

/-- change the tree of handle `i`, if there is such a handle -/
def Trees.update (xs : Trees K V) (i : Nat) (f : Tree K V → Tree K V) : Trees K V :=
  match xs[i]? with
  | some (some t) => xs.set i (some (f t))
  | _ => xs

/-- change the tree of handle `i` depending on that of another handle `j` -/
def Trees.update2 (xs : Trees K V) (i j : Nat) (f : Tree K V → Tree K V → Tree K V) : Trees K V :=
  if i = j then xs
  else
    match xs[j]? with
    | some (some u) => xs.update i (fun t => f t u)
    | _ => xs

/-- make a new handle from handle `i` -/
def Trees.derive (xs : Trees K V) (i : Nat) (f : Tree K V → Tree K V) : Trees K V :=
  match xs[i]? with
  | some (some t) => xs ++ [some (f t)]
  | _ => xs

/-- make a new handle from the handles `i` and `j`, which may be the same -/
def Trees.derive2 (xs : Trees K V) (i j : Nat) (f : Tree K V → Tree K V → Tree K V) : Trees K V :=
  match xs[j]? with
  | some (some u) => xs.derive i (fun t => f t u)
  | _ => xs

/-- a call on handles -/
def Trees.apply (xs : Trees K V) : HandleOp K V → Trees K V
  | .empty => xs ++ [some Tree.empty]
  | .single k v => xs ++ [some (Tree.single k v)]
  | .load t => xs ++ [some t]
  | .convert t => xs ++ [some t]
  | .clone i => xs.derive i fun t => t
  | .drop i => xs.set i none
  | .insert i k v => xs.update i fun t => (t.insert k v).1
  | .prepend i p => xs.update i fun t => t.prepend p
  | .filterPrefix i p => xs.derive i fun t => retOr t (t.filterPrefix p)
  | .union i j => xs.derive2 i j fun t u => retOr t (t.union u)
  | .intersection i j => xs.derive2 i j fun t u => retOr t (t.intersection u)
  | .difference i j => xs.derive2 i j fun t u => retOr t (t.difference u)
  | .outerCombine i j f => xs.derive2 i j fun t u => retOr t (t.outerCombine u f)
  | .innerCombine i j f => xs.derive2 i j fun t u => retOr t (t.innerCombine u f)
  | .unionWith i j => xs.update2 i j fun t u => (t.unionWith u).1
  | .intersectionWith i j => xs.update2 i j fun t u => (t.intersectionWith u).1
  | .differenceWith i j => xs.update2 i j fun t u => (t.differenceWith u).1
  | .outerCombineWith i j f => xs.update2 i j fun t u => (t.outerCombineWith u (closure f)).1
  | .innerCombineWith i j f => xs.update2 i j fun t u => (t.innerCombineWith u (closure f)).1
  | .leftCombineWith i j f => xs.update2 i j fun t u => (t.leftCombineWith u (closure f)).1
  | .removePrefixWith i j f => xs.update2 i j fun t u => (t.removePrefixWith u f).1
  | .retainPrefixWith i j f => xs.update2 i j fun t u => (t.retainPrefixWith u f).1
  | .get .. | .containsKey .. | .iter .. | .values .. | .scanPrefix .. | .intersects .. | .isSubset .. => xs

/-- a history of calls -/
def Trees.run : Trees K V → List (HandleOp K V) → Trees K V
  | xs, [] => xs
  | xs, op :: ops => Trees.run (xs.apply op) ops

end
end Verif.Shared
