import Verif.Spec.Effects
/-!
# Specification: closures with side effects that update a map in place

A closure that is handed `&mut V` and answers "keep" or "remove" may write to the value before it answers, and before it panics.
-/
namespace Verif

/-- Call `f` on each argument in turn, and on nothing else, until it panics. Every call settles what the map holds under the key it is about
(`none`: nothing); the log says what, also for the call that panicked. Then come the closure's state and whether it panicked. -/
def fillEach {S X V : Type _} (f : X → S → Option V × Bool × S) : List X → S → List (X × Option V) × S × Bool
  | [], s => ([], s, false)
  | x :: xs, s =>
    match f x s with
    | (o, true, s') => ([(x, o)], s', true)
    | (o, false, s') => ((x, o) :: (fillEach f xs s').1, (fillEach f xs s').2)

/-- a closure on `&mut V` answering `bool`: `true` keeps the value (as written), `false` removes it; a panic leaves it as written -/
def keptSlot {S V : Type _} : V × Call Bool × S → Option V × Bool × S
  | (v, .ret true, s) => (some v, false, s)
  | (_, .ret false, s) => (none, false, s)
  | (v, .panic, s) => (some v, true, s)

/-- a closure that answers with the value to store, if any -/
def created {S V : Type _} : Call (Option V) × S → Option V × Bool × S
  | (.ret o, s) => (o, false, s)
  | (.panic, s) => (none, true, s)

/-- a closure called for a key that is not in the map, and that can therefore not change the map -/
def idle {S V : Type _} : Call Bool × S → Option V × Bool × S
  | (.ret _, s) => (none, false, s)
  | (.panic, s) => (none, true, s)

/-- some call was about the key `k`, and left `o` there -/
def Settled {K X V : Type _} [Ord K] (key : X → K) (log : List (X × Option V)) (k : K) (o : Option V) : Prop :=
  ∃ x, (x, o) ∈ log ∧ compare (key x) k = .eq

/-- after the calls in the log the map holds what they settled, and what it held before under the keys no call was about -/
def AsSettled {K X V : Type _} [Ord K] (key : X → K) (log : List (X × Option V)) (before after : List (K × V)) : Prop :=
  ∀ k v, Maps after k v ↔ Settled key log k (some v) ∨ (∀ o, ¬ Settled key log k o) ∧ Maps before k v

/-- the same for an operation that also removes entries without asking, up to the point (if any) where it was interrupted -/
def AsSettledUpTo {K X V : Type _} [Ord K] (key : X → K) (log : List (X × Option V)) (interrupted : Bool) (before after : List (K × V)) : Prop :=
  ∀ k v, Maps after k v ↔ Settled key log k (some v) ∨
    (interrupted = true ∧ ∀ x o, (x, o) ∈ log → compare (key x) k = .lt) ∧ Maps before k v

/-- right join as `BTreeMap` does it: every entry of `b`, with its own key, and the value of `a` for that key if there is one -/
def BRightOffer {K V W : Type _} [Ord K] (a : List (K × V)) (b : List (K × W)) : K × Option V × W → Prop
  | (k, some v, w) => (k, w) ∈ b ∧ Maps a k v
  | (k, none, w) => (k, w) ∈ b ∧ ¬ HasKey a k

/-- inner join as `BTreeMap` does it: the keys on both sides (as stored in `b`) -/
def BInnerOffer {K V W : Type _} [Ord K] (a : List (K × V)) (b : List (K × W)) : K × V × W → Prop
  | (k, v, w) => (k, w) ∈ b ∧ Maps a k v

/-- the keys of `b` as `outer_join_with` visits them first -/
def BOuterOfB {K V W : Type _} [Ord K] (a : List (K × V)) (b : List (K × W)) : OuterJoinArg K V W → Prop
  | .left _ _ => False
  | .right k w => (k, w) ∈ b ∧ ¬ HasKey a k
  | .both k v w => (k, w) ∈ b ∧ Maps a k v

/-- an outer join argument that is (not) about a key of `b` alone -/
def OuterJoinArg.isRight {K V W : Type _} : OuterJoinArg K V W → Bool
  | .right _ _ => true
  | _ => false

/-- an outer join argument that is about a key of `a` alone -/
def OuterJoinArg.isLeft {K V W : Type _} : OuterJoinArg K V W → Bool
  | .left _ _ => true
  | _ => false

/-- the two closures of `outer_join_with` -/
def outerSlot {S K V W : Type _} (l : K × V × Option W → S → V × Call Bool × S) (r : K × W → S → Call (Option V) × S) :
    OuterJoinArg K V W → S → Option V × Bool × S
  | .left k v, s => keptSlot (l (k, v, none) s)
  | .both k v w, s => keptSlot (l (k, v, some w) s)
  | .right k w, s => created (r (k, w) s)

/-- the closure of `right_join_with`, given by what it does on `Some(&mut v)` and on `None` -/
def rightSlot {S K V W : Type _} (fSome : K × V × W → S → V × Call Bool × S) (fNone : K × W → S → Call Bool × S) :
    K × Option V × W → S → Option V × Bool × S
  | (k, some v, w), s => keptSlot (fSome (k, v, w) s)
  | (k, none, w), s => idle (fNone (k, w) s)

end Verif
