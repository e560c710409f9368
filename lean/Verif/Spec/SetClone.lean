import Verif.Spec.Effects
/-!
# Specification: which elements and keys are cloned, in which order
-/
namespace Verif
section
variable {T S : Type _} [Ord T]

/-- union: the elements of `a`, and those of `b` that have no equal in `a` -/
def UnionOf (a b : List T) (x : T) : Prop := x ∈ a ∨ (x ∈ b ∧ ¬ Has a x)
/-- intersection: the elements of `a` that have an equal in `b` -/
def IntersectionOf (a b : List T) (x : T) : Prop := x ∈ a ∧ Has b x
/-- symmetric difference -/
def SymmetricDifferenceOf (a b : List T) (x : T) : Prop := (x ∈ a ∧ ¬ Has b x) ∨ (x ∈ b ∧ ¬ Has a x)
/-- difference: the elements of `a` that have no equal in `b` -/
def DifferenceOf (a b : List T) (x : T) : Prop := x ∈ a ∧ ¬ Has b x

/-- what an operator that changes its left operand puts into it: its own elements as they are, and clones of the right operand's elements -/
inductive Taken (T : Type _) where
  | own (x : T)
  | cloned (x : T)

/-- the element itself, before cloning -/
def Taken.elem : Taken T → T
  | .own x => x
  | .cloned x => x

/-- `a |= &b` -/
def OrTakes (a b : List T) : Taken T → Prop
  | .own x => x ∈ a
  | .cloned x => x ∈ b ∧ ¬ Has a x
/-- `a ^= &b` -/
def XorTakes (a b : List T) : Taken T → Prop
  | .own x => x ∈ a ∧ ¬ Has b x
  | .cloned x => x ∈ b ∧ ¬ Has a x

/-- take an element over: only the right operand's elements are cloned -/
def takeOver (cl : Closure S T T) : Closure S (Taken T) T
  | .own x, s => (.ret x, s)
  | .cloned x, s => cl x s

/-- call `f` on each argument in turn, and on nothing else, until it panics: the answers that are there, the state at the end, and whether it panicked -/
def answersOf {X R : Type _} (f : Closure S X (Option R)) (args : List X) (s : S) : List R × S × Flow :=
  ((callEach f args s).1.map Prod.snd, (callEach f args s).2)

/-- clone each element in turn, until a clone panics -/
def clonesOf {X : Type _} (cl : Closure S X T) (args : List X) (s : S) : List T × S × Flow := answersOf (answering cl) args s

end

/-- an answer of the closure, and then (for an answer that is there) the key to put it under, made by `mk` -/
def thenKey {S X K R : Type _} (mk : Closure S X K) (f : Closure S X (Option R)) : Closure S X (Option (K × R)) := fun x s =>
  match f x s with
  | (.panic, s) => (.panic, s)
  | (.ret none, s) => (.ret none, s)
  | (.ret (some r), s) =>
    match mk x s with
    | (.panic, s) => (.panic, s)
    | (.ret k, s) => (.ret (some (k, r)), s)

/-- `outer_join_with`: keys that only the right map has are cloned, the left map's keys stay -/
def outerKey {S K V W : Type _} (cl : Closure S K K) : Closure S (OuterJoinArg K V W) K
  | .left k _, s => (.ret k, s)
  | .right k _, s => cl k s
  | .both k _ _, s => (.ret k, s)
/-- `right_join_with`: the same -/
def rightKey {S K V W : Type _} (cl : Closure S K K) : Closure S (K × Option V × W) K
  | (k, none, _), s => cl k s
  | (k, some _, _), s => (.ret k, s)

/-- a new container, unless there was a panic: then what was collected is dropped -/
def unlessPanic {S X Y : Type _} (wrap : X → Y) (r : X × S × Flow) : Call Y × S := (if r.2.2 = .panic then .panic else .ret (wrap r.1), r.2.1)

/-- a clone is equal to the original, unless `clone` panics -/
def FaithfulClone {S T : Type _} (cl : Closure S T T) : Prop := ∀ x s, (cl x s).1 = .ret x ∨ (cl x s).1 = .panic

end Verif
