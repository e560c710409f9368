import Verif.Spec.MapHistory
/-!
# Specification: closures with side effects, called one after the other

A user closure may count its calls, log its arguments, take items off a queue, panic on its third call: everything it does besides
returning is a change of some state `S` of the user's choosing.
-/
namespace Verif

/-- a closure: called with `x` while its state is `s`, it returns or panics and leaves a new state -/
abbrev Closure (S X R : Type _) := X → S → Call R × S

/-- Call `f` on each argument in turn, and on nothing else, until it panics. The answers that are there (`Some`) are collected, each
with the argument it was given for; then come the closure's state at the end and whether it panicked. -/
def callEach {S X R : Type _} (f : Closure S X (Option R)) : List X → S → List (X × R) × S × Flow
  | [], s => ([], s, .cont)
  | x :: xs, s =>
    match f x s with
    | (.panic, s') => ([], s', .panic)
    | (.ret none, s') => callEach f xs s'
    | (.ret (some r), s') => ((x, r) :: (callEach f xs s').1, (callEach f xs s').2)

/-- a closure that always answers, as one that answers `Some` -/
def answering {S X R : Type _} (f : Closure S X R) : Closure S X (Option R) := fun x s =>
  match f x s with
  | (.panic, s') => (.panic, s')
  | (.ret r, s') => (.ret (some r), s')

/-! ### What the joins may call their closure on -/

/-- `args` lists exactly the arguments that are on offer, by strictly ascending key -/
def InOrder {K X : Type _} [Ord K] (key : X → K) (offer : X → Prop) (args : List X) : Prop :=
  AscendingBy key args ∧ ∀ x, x ∈ args ↔ offer x

/-- left join: every entry of `a`, with the value of `b` for that key if there is one -/
def LeftOffer {K V W : Type _} [Ord K] (a : List (K × V)) (b : List (K × W)) : K × V × Option W → Prop
  | (k, v, some w) => (k, v) ∈ a ∧ Maps b k w
  | (k, v, none) => (k, v) ∈ a ∧ ¬ HasKey b k

/-- right join: every key of `b`, with the value of `a` for that key if there is one (and then with the key as stored in `a`) -/
def RightOffer {K V W : Type _} [Ord K] (a : List (K × V)) (b : List (K × W)) : K × Option V × W → Prop
  | (k, some v, w) => (k, v) ∈ a ∧ Maps b k w
  | (k, none, w) => (k, w) ∈ b ∧ ¬ HasKey a k

/-- inner join: the keys on both sides (as stored in `a`) -/
def InnerOffer {K V W : Type _} [Ord K] (a : List (K × V)) (b : List (K × W)) : K × V × W → Prop
  | (k, v, w) => (k, v) ∈ a ∧ Maps b k w

/-- combine two maps: where both have a value the closure decides, otherwise the value there is taken over -/
def collisionsOnly {S K V : Type _} (f : Closure S (V × V) V) : Closure S (OuterJoinArg K V V) V
  | .left _ v, c => (.ret v, c)
  | .right _ w, c => (.ret w, c)
  | .both _ v w, c => f (v, w) c

/-- the values two total maps with defaults `da` and `db` have at the key of a join argument -/
def OuterJoinArg.pair {K V : Type _} (da db : V) : OuterJoinArg K V V → V × V
  | .left _ v => (v, db)
  | .right _ w => (da, w)
  | .both _ v w => (v, w)

end Verif
