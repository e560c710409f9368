import Verif.Spec.Radix
import Verif.Model.RadixClone
/-!
# Specification: in-place combinations of radix trees with `Clone` implementations that panic or return something else
-/
namespace Verif
variable {K V W S R : Type _}

/-- `v'` comes from `v` by any number of calls of `clone` -/
inductive CloneOf (cl : V → S → Call V × S) : V → V → Prop
  | self (v : V) : CloneOf cl v v
  | clone (v w w' : V) (s s' : S) : CloneOf cl v w → cl w s = (.ret w', s') → CloneOf cl v w'

/-- The values a combination may leave under a key: the value `a` had there; a clone of such a value; what the closure makes of such a value and a
value `b` had there, or a clone of that (`calls`); what is taken over from `b` (`copies`). -/
inductive Made (e : Clones S V W) (a : Tree K V) (b : Tree K W) (calls : V → W → V → Prop) (copies : W → V → Prop) : List K → V → Prop
  | kept (k : List K) (v : V) : Tree.Entry a k v → Made e a b calls copies k v
  | cloned (k : List K) (v v' : V) (s s' : S) : Made e a b calls copies k v → e.own v s = (.ret v', s') → Made e a b calls copies k v'
  | called (k : List K) (v v' : V) (w w' : W) : Made e a b calls copies k v → Tree.Entry b k w → CloneOf e.other w w' → calls v w' v' →
      Made e a b calls copies k v'
  | copied (k : List K) (w w' : W) (v : V) : Tree.Entry b k w → CloneOf e.other w w' → copies w' v → Made e a b calls copies k v

/-- `seen` is the part of the state that the closure works with: on it, `f` does what `g` does. -/
def WorksAs (seen : S → R) (f : MutFnE S V W) (g : MutFnE R V W) : Prop :=
  ∀ v w s, g v w (seen s) = ((f v w s).1, (f v w s).2.1, seen (f v w s).2.2)
/-- The same for a predicate. -/
def AnswersAs (seen : S → R) (f : PredE S W) (g : PredE R W) : Prop := ∀ w s, g w (seen s) = ((f w s).1, seen (f w s).2)

/-- `clone` returns an equal value or panics, and does not touch the part of the state that the closure works with -/
def HonestClone (seen : S → R) (cl : V → S → Call V × S) : Prop :=
  ∀ v s, ((cl v s).1 = .ret v ∨ (cl v s).1 = .panic) ∧ seen (cl v s).2 = seen s
/-- this holds for the values of both trees; finding out whether a vector of children is shared does not touch that part either -/
structure HonestClones (seen : S → R) (e : Clones S V W) : Prop where
  own : HonestClone seen e.own
  other : HonestClone seen e.other
  shared : ∀ s, seen (e.shared s).2 = seen s

/-- some call of `clone` panics -/
def ClonePanics (e : Clones S V W) : Prop := (∃ v s, (e.own v s).1 = .panic) ∨ ∃ w s, (e.other w s).1 = .panic

/-- What a panic of `clone` may leave in `r` of a tree `a`, when a complete run would leave the entries `after`: all entries of `a`, but under the
one key that all keys of `a` begin with the value may have been settled already; or the entries a complete run would leave, up to some key and
nothing after it; or all of them. -/
def CutOff [Ord K] (a : Tree K V) (after : List K → V → Prop) (r : Tree K V) : Prop :=
  (∃ p, (∀ k v, Tree.Entry a k v → ∃ q, k = p ++ q) ∧ (∀ k v, k ≠ p → (Tree.Entry r k v ↔ Tree.Entry a k v)) ∧
    ((∀ v, Tree.Entry r p v ↔ Tree.Entry a p v) ∨ ∀ v, Tree.Entry r p v ↔ after p v)) ∨
  (∃ m, ∀ k v, Tree.Entry r k v ↔ after k v ∧ Tree.LexLt k m) ∨
  ∀ k v, Tree.Entry r k v ↔ after k v

end Verif
