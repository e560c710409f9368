import Verif.Spec.RadixHistory
/-!
# Histories of several tree handles

A `HandleOp` is a call a program makes on one of its tree handles (numbered in the order in which they came into being). `Handles.apply` says
what a user expects: the handles hold independent maps from keys to values, and a clone is a copy. It mentions neither nodes nor sharing.
-/
namespace Verif.Shared
open Verif.Tree (KeyMap kept onEither onBoth onLeft)

/-- a call on handles; closures return the new value and whether to keep it -/
inductive HandleOp (K V : Type) where
  /-- `Default::default()`; the result is a new handle -/
  | empty
  /-- `single(k, v)`; the result is a new handle -/
  | single (k : List K) (v : V)
  /-- a new handle for the root of an archive; the children are loaded on demand -/
  | load (t : Tree K V)
  /-- a new handle for the same tree, converted at once -/
  | convert (t : Tree K V)
  /-- `i.clone()`; the result is a new handle -/
  | clone (i : Nat)
  /-- the handle goes out of scope -/
  | drop (i : Nat)
  /-- `i.insert(k, v)` -/
  | insert (i : Nat) (k : List K) (v : V)
  /-- `i.prepend(p)` -/
  | prepend (i : Nat) (p : List K)
  /-- `i.filter_prefix(p)`; the result is a new handle -/
  | filterPrefix (i : Nat) (p : List K)
  /-- `i.union(&j)`; the result is a new handle -/
  | union (i j : Nat)
  /-- `i.intersection(&j)`; the result is a new handle -/
  | intersection (i j : Nat)
  /-- `i.difference(&j)`; the result is a new handle -/
  | difference (i j : Nat)
  /-- `i.outer_combine(&j, f)`; the result is a new handle -/
  | outerCombine (i j : Nat) (f : V → V → Option V)
  /-- `i.inner_combine(&j, f)`; the result is a new handle -/
  | innerCombine (i j : Nat) (f : V → V → Option V)
  /-- `i.union_with(&j)` -/
  | unionWith (i j : Nat)
  /-- `i.intersection_with(&j)` -/
  | intersectionWith (i j : Nat)
  /-- `i.difference_with(&j)` -/
  | differenceWith (i j : Nat)
  /-- `i.outer_combine_with(&j, f)` -/
  | outerCombineWith (i j : Nat) (f : V → V → V × Bool)
  /-- `i.inner_combine_with(&j, f)` -/
  | innerCombineWith (i j : Nat) (f : V → V → V × Bool)
  /-- `i.left_combine_with(&j, f)` -/
  | leftCombineWith (i j : Nat) (f : V → V → V × Bool)
  /-- `i.remove_prefix_with(&j, f)` -/
  | removePrefixWith (i j : Nat) (f : V → Bool)
  /-- `i.retain_prefix_with(&j, f)` -/
  | retainPrefixWith (i j : Nat) (f : V → Bool)
  /-- `i.get(k)` -/
  | get (i : Nat) (k : List K)
  /-- `i.contains_key(k)` -/
  | containsKey (i : Nat) (k : List K)
  /-- `i.iter()`, to the end -/
  | iter (i : Nat)
  /-- `i.values()`, to the end -/
  | values (i : Nat)
  /-- `i.scan_prefix(p)`, to the end -/
  | scanPrefix (i : Nat) (p : List K)
  /-- `i.intersects(&j)` -/
  | intersects (i j : Nat)
  /-- `i.is_subset(&j)` -/
  | isSubset (i j : Nat)

/-- what the handles hold; `none`: the handle went out of scope -/
abbrev Handles (K V : Type) := List (Option (KeyMap K V))

/-- Change what handle `i` holds, if there is such a handle. -/
def Handles.update {K V : Type} (hs : Handles K V) (i : Nat) (f : KeyMap K V → KeyMap K V) : Handles K V :=
  match hs[i]? with
  | some (some m) => hs.set i (some (f m))
  | _ => hs

/-- Change what handle `i` holds depending on handle `j`. Rust's borrow checker rejects `i.op(&i)`; here, such a call does nothing. -/
def Handles.update2 {K V : Type} (hs : Handles K V) (i j : Nat) (f : KeyMap K V → KeyMap K V → KeyMap K V) : Handles K V :=
  if i = j then hs
  else
    match hs[j]? with
    | some (some m) => hs.update i (fun m' => f m' m)
    | _ => hs

/-- Make a new handle whose contents depend on handle `i`. -/
def Handles.derive {K V : Type} (hs : Handles K V) (i : Nat) (f : KeyMap K V → KeyMap K V) : Handles K V :=
  match hs[i]? with
  | some (some m) => hs ++ [some (f m)]
  | _ => hs

/-- Make a new handle whose contents depend on the handles `i` and `j`, which may be the same. -/
def Handles.derive2 {K V : Type} (hs : Handles K V) (i j : Nat) (f : KeyMap K V → KeyMap K V → KeyMap K V) : Handles K V :=
  match hs[j]? with
  | some (some m) => hs.derive i (fun m' => f m' m)
  | _ => hs

open Classical in
/-- what a tree holds -/
noncomputable def contents {K V : Type} (t : Tree K V) : KeyMap K V := fun k =>
  if h : ∃ v, Tree.Entry t k v then some (Classical.choose h) else none

open Classical in
/-- what a call does to the maps -/
noncomputable def Handles.apply {K V : Type} (hs : Handles K V) : HandleOp K V → Handles K V
  | .empty => hs ++ [some (fun _ => none : KeyMap K V)]
  | .single k v => hs ++ [some (fun k' => if k' = k then some v else none : KeyMap K V)]
  | .load t => hs ++ [some (contents t)]
  | .convert t => hs ++ [some (contents t)]
  | .clone i => hs.derive i fun m => m
  | .drop i => hs.set i none
  | .insert i k v => hs.update i fun m k' => if k' = k then some v else m k'
  | .prepend i p => hs.update i fun m k => if p <+: k then m (k.drop p.length) else none
  | .filterPrefix i p => hs.derive i fun m k => if p <+: k then m k else none
  | .union i j => hs.derive2 i j fun m m' k => (m k).or (m' k)
  | .intersection i j => hs.derive2 i j fun m m' k => if (m' k).isSome then m k else none
  | .difference i j => hs.derive2 i j fun m m' k => if (m' k).isSome then none else m k
  | .outerCombine i j f => hs.derive2 i j fun m m' k => onEither f (m k) (m' k)
  | .innerCombine i j f => hs.derive2 i j fun m m' k => onBoth f (m k) (m' k)
  | .unionWith i j => hs.update2 i j fun m m' k => (m k).or (m' k)
  | .intersectionWith i j => hs.update2 i j fun m m' k => if (m' k).isSome then m k else none
  | .differenceWith i j => hs.update2 i j fun m m' k => if (m' k).isSome then none else m k
  | .outerCombineWith i j f => hs.update2 i j fun m m' k => onEither (fun v w => kept (f v w)) (m k) (m' k)
  | .innerCombineWith i j f => hs.update2 i j fun m m' k => onBoth (fun v w => kept (f v w)) (m k) (m' k)
  | .leftCombineWith i j f => hs.update2 i j fun m m' k => onLeft (fun v w => kept (f v w)) (m k) (m' k)
  | .removePrefixWith i j f => hs.update2 i j fun m m' k => if m'.Covers f k then none else m k
  | .retainPrefixWith i j f => hs.update2 i j fun m m' k => if m'.Covers f k then m k else none
  | .get .. | .containsKey .. | .iter .. | .values .. | .scanPrefix .. | .intersects .. | .isSubset .. => hs

/-- what a history does to the maps -/
noncomputable def Handles.run {K V : Type} : Handles K V → List (HandleOp K V) → Handles K V
  | hs, [] => hs
  | hs, op :: ops => Handles.run (hs.apply op) ops

/-- the archives that are loaded are canonical (for instance because they were written from trees built with this library) -/
def HandleOp.FromCanonical {K V : Type} [Ord K] : HandleOp K V → Prop
  | .load t => Tree.Canonical t
  | .convert t => Tree.Canonical t
  | _ => True

/-- the archives that are loaded have passed validation (`check_bytes`) -/
def HandleOp.Validated {K V : Type} [Ord K] : HandleOp K V → Prop
  | .load t => Tree.Valid t
  | .convert t => Tree.Valid t
  | _ => True

end Verif.Shared
