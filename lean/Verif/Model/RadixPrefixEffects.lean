import Verif.Model.RadixEffects
/-!
# `remove_prefix_with` and `retain_prefix_with` of /repo/src/radix_tree/mod.rs for predicates with side effects

As in `Verif/Model/RadixEffects.lean`, the predicate has a state `S` that every call may read and change, and it may panic.
-/
namespace Verif

/-- A predicate `Fn(&W) -> bool` with side effects: the answer or a panic, the new state. -/
abbrev PredE (S W : Type _) := W → S → Call Bool × S

namespace Tree
variable {K V W S : Type _} [Ord K]

/-- `RemovePrefixOp` in place, with `NoConverter` (mod.rs:223-235, 1492-1523) -/
def removePrefixOpE (rec : Tree K V → Tree K W → S → (Tree K V × S) × Flow) := inPlaceOpE true false noConverter rec
/-- `RetainPrefixOp` in place, with `NoConverter` (mod.rs:210-221, 1526-1557) -/
def retainPrefixOpE (rec : Tree K V → Tree K W → S → (Tree K V × S) × Flow) := inPlaceOpE false false noConverter rec

/-- `match that.value() { Some(value) if f(value) => yes, _ => no }` (mod.rs:482-490, 493-502). `t` is what a panic of `f` leaves. -/
def ifSelectedE (f : PredE S W) (v : Option W) (c : S) (t : Tree K V) (yes no : S → (Tree K V × S) × Flow) : (Tree K V × S) × Flow :=
  match v with
  | none => no c
  | some w =>
    match f w c with
    | (.panic, c) => ((t, c), .panic)
    | (.ret true, c) => yes c
    | (.ret false, c) => no c

/-- the cases of `remove_prefix_with` (mod.rs:479-509) -/
def removePrefixCasesE (op : MergeOp (InPlaceMS (Tree K V) (Tree K W) × S) (Tree K V) (Tree K W)) (f : PredE S W) (n : Nat)
    (self : Tree K V) (that : Tree K W) (c : S) : (Tree K V × S) × Flow :=
  if n = self.pre.length ∧ n = that.pre.length then
    ifSelectedE f that.val c self (fun c => (({ self with val := none, kids := [] }, c), .cont)) fun c => childrenWithE op (self, c) that.kids
  else if n = that.pre.length then
    ifSelectedE f that.val c self (fun c => (({ self with val := none, kids := [] }, c), .cont)) fun c =>
      andThen (((self.split n).1, c), (self.split n).2) fun t => childrenWithE op t that.kids
  else if n = self.pre.length then
    withMatE (that.materializeShortened n) (self, c) fun that => childrenWithE op (self, c) [that]
  else ((self, c), .cont)

/-- the cases of `retain_prefix_with` (mod.rs:522-544): `that.value().is_none() || !f(that.value().unwrap())` asks `f` just if there is a value -/
def retainPrefixCasesE (op : MergeOp (InPlaceMS (Tree K V) (Tree K W) × S) (Tree K V) (Tree K W)) (f : PredE S W) (n : Nat)
    (self : Tree K V) (that : Tree K W) (c : S) : (Tree K V × S) × Flow :=
  if n = self.pre.length ∧ n = that.pre.length then
    ifSelectedE f that.val c self (fun c => ((self, c), .cont)) fun c => childrenWithE op ({ self with val := none }, c) that.kids
  else if n = that.pre.length then
    ifSelectedE f that.val c self (fun c => ((self, c), .cont)) fun c =>
      andThen (((self.split n).1, c), (self.split n).2) fun t => childrenWithE op t that.kids
  else if n = self.pre.length then
    withMatE (that.materializeShortened n) ({ self with val := none }, c) fun that => childrenWithE op ({ self with val := none }, c) [that]
  else (({ self with val := none, kids := [] }, c), .cont)

variable [DecidableEq K]

/-- `remove_prefix_with` (mod.rs:474-511) with fuel -/
def removePrefixGoE (f : PredE S W) : Nat → Tree K V → Tree K W → S → (Tree K V × S) × Flow
  | 0, self, _, c => ((self, c), .panic)
  | fuel + 1, self, that, c =>
    finishE (removePrefixCasesE (removePrefixOpE (removePrefixGoE f fuel)) f (commonPrefix self.pre that.pre) self that c)

/-- `retain_prefix_with` (mod.rs:517-546) with fuel -/
def retainPrefixGoE (f : PredE S W) : Nat → Tree K V → Tree K W → S → (Tree K V × S) × Flow
  | 0, self, _, c => ((self, c), .panic)
  | fuel + 1, self, that, c =>
    finishE (retainPrefixCasesE (retainPrefixOpE (retainPrefixGoE f fuel)) f (commonPrefix self.pre that.pre) self that c)

/-- `remove_prefix_with` (mod.rs:474-511): the tree that is left behind, the predicate's state, how it ended -/
def removePrefixWithE (self : Tree K V) (that : Tree K W) (f : PredE S W) (c : S) : (Tree K V × S) × Flow :=
  removePrefixGoE f (self.size + that.size + 1) self that c
/-- `retain_prefix_with` (mod.rs:517-546) -/
def retainPrefixWithE (self : Tree K V) (that : Tree K W) (f : PredE S W) (c : S) : (Tree K V × S) × Flow :=
  retainPrefixGoE f (self.size + that.size + 1) self that c

end Tree
end Verif
