import Verif.Spec.Radix
import Verif.Spec.BTreeEffects
/-!
# Specification: combinations of radix trees with closures that have side effects

A *call log* lists the calls of the closure: for which key, on which two values, and what the call left under the key.
-/
namespace Verif
namespace Tree
variable {K V W : Type _}

/-- the entries both trees have -/
def Common (a : Tree K V) (b : Tree K W) : List K × V × W → Prop
  | (k, v, w) => Entry a k v ∧ Entry b k w

/-- `args` lists everything `P` allows, and nothing else, each key once, in lexicographic order of the keys -/
def InKeyOrder [Ord K] {X : Type _} (P : List K × X → Prop) (args : List (List K × X)) : Prop :=
  args.Pairwise (fun x y => LexLt x.1 y.1) ∧ ∀ x, x ∈ args ↔ P x

/-- some call was for `k` and left `v` there -/
def Left {X : Type _} (log : List ((List K × X) × Option V)) (k : List K) (v : V) : Prop := ∃ x, ((k, x), some v) ∈ log

/-- after an outer combination: what the calls left, and the entries only one tree has -/
def OuterAfter (a b : Tree K V) (log : List ((List K × V × V) × Option V)) (k : List K) (v : V) : Prop :=
  Left log k v ∨ (Entry a k v ∧ ¬ HasEntry b k) ∨ (Entry b k v ∧ ¬ HasEntry a k)

/-- after an inner combination: what the calls left -/
def InnerAfter (log : List ((List K × V × W) × Option V)) (k : List K) (v : V) : Prop := Left log k v

/-- after a left combination: what the calls left, and the entries only the left tree has -/
def LeftAfter (a : Tree K V) (b : Tree K W) (log : List ((List K × V × W) × Option V)) (k : List K) (v : V) : Prop :=
  Left log k v ∨ (Entry a k v ∧ ¬ HasEntry b k)

/-- `left_combine` also asks its closure about some keys `b` does not have: those at which the keys of `b` fork (and the empty key, if `b` is empty) -/
def AskedAnyway (b : Tree K W) (k : List K) : Prop := ¬ HasEntry b k ∧ (KeysFork b k ∨ (k = [] ∧ ∀ k', ¬ HasEntry b k'))

/-- what `left_combine` asks its closure about -/
def LeftOffered (a : Tree K V) (b : Tree K W) : List K × V × Option W → Prop
  | (k, v, some w) => Entry a k v ∧ Entry b k w
  | (k, v, none) => Entry a k v ∧ AskedAnyway b k

/-- after `left_combine`: what the calls left, and the entries of the left tree that the closure was not asked about -/
def LeftCombined (a : Tree K V) (b : Tree K W) (log : List ((List K × V × Option W) × Option V)) (k : List K) (v : V) : Prop :=
  Left log k v ∨ (Entry a k v ∧ ¬ HasEntry b k ∧ ¬ AskedAnyway b k)

/-- What is left in `t` when the last call in the log, for the key `kp`, panicked. Either it was the first call at all and for the smallest key of
either tree, and `t` is `a` with just the value of `kp` as that call left it; or all keys of both trees begin with some `p`, `kp` goes on with the
component `c`, and `t` holds what a complete run would hold (`after`) before `kp`, except for the keys that go on with `c`. (If the trees are
canonical then `p` is the longest common prefix of the keys.) -/
def Interrupted [Ord K] (a : Tree K V) (b : Tree K W) (log : List ((List K × V × W) × Option V)) (after : List K → V → Prop) (t : Tree K V) :
    Prop :=
  ∃ done kp x o, log = done ++ [((kp, x), o)] ∧
    ((done = [] ∧ (∀ k, HasEntry a k ∨ HasEntry b k → k = kp ∨ LexLt kp k) ∧
        ∀ k v, Entry t k v ↔ (k = kp ∧ o = some v) ∨ (k ≠ kp ∧ Entry a k v)) ∨
      ∃ p c r, kp = p ++ c :: r ∧ (∀ k, HasEntry a k ∨ HasEntry b k → ∃ s, k = p ++ s) ∧
        (Canonical a → Canonical b → ∃ k, (HasEntry a k ∨ HasEntry b k) ∧ ∀ s, k ≠ p ++ c :: s) ∧
        ∀ k v, Entry t k v ↔ after k v ∧ LexLt k kp ∧ ∀ s, k ≠ p ++ c :: s)

end Tree
end Verif
