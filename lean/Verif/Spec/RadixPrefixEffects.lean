import Verif.Spec.Radix
import Verif.Spec.Effects
/-!
# Specification: `remove_prefix_with` and `retain_prefix_with` with predicates that have side effects

A *log* lists the questions the predicate was asked, each about an entry of the right tree, with its answers. The question it panicked on, if
any, comes after the log.
-/
namespace Verif
namespace Tree
variable {K V W S : Type _}

/-- In the state `c` the predicate answers the questions as the log says, one after the other; then it panics on the question `pan`, if there is
one; its state is then `c'`. -/
def Answers (f : W → S → Call Bool × S) : S → List ((List K × W) × Bool) → Option (List K × W) → S → Prop
  | c, [], none, c' => c' = c
  | c, [], some q, c' => f q.2 c = (.panic, c')
  | c, (q, b) :: log, pan, c' => ∃ c1, f q.2 c = (.ret b, c1) ∧ Answers f c1 log pan c'

/-- a key the predicate said yes to is a prefix of `k` -/
def Under (log : List ((List K × W) × Bool)) (k : List K) : Prop := ∃ p r w, k = p ++ r ∧ ((p, w), true) ∈ log

/-- a key the predicate said yes to is a proper prefix of `k` -/
def Below (log : List ((List K × W) × Bool)) (k : List K) : Prop := ∃ p x r w, k = p ++ x :: r ∧ ((p, w), true) ∈ log

/-- `k` is a prefix of a key of `a` (or empty) -/
def Leads (a : Tree K V) (k : List K) : Prop := k = [] ∨ ∃ r, HasEntry a (k ++ r)

/-- What the predicate is asked about: the entries of `b` whose key is a prefix of some key of `a`, except those below a key it said yes to; by
ascending key; up to the question it panics on. -/
structure AsksInOrder [Ord K] (a : Tree K V) (b : Tree K W) (log : List ((List K × W) × Bool)) (pan : Option (List K × W)) : Prop where
  order : (log.map (·.1.1) ++ (pan.map (·.1)).toList).Pairwise LexLt
  asked : ∀ k w, (∃ yes, ((k, w), yes) ∈ log) ∨ pan = some (k, w) ↔
    Entry b k w ∧ Leads a k ∧ ¬ Below log k ∧ ∀ q, pan = some q → k = q.1 ∨ LexLt k q.1

/-- What is left in `t` when the predicate panicked on the question about the key `kp`. Either it was the first question and about the smallest key
of either tree, and `t` is `a`; or all keys of both trees begin with some `p`, `kp` goes on with the component `c`, and `t` holds what a complete
run would hold (`after`) before `kp`, except for the keys that go on with `c`. -/
def CutShort [Ord K] (a : Tree K V) (b : Tree K W) (log : List ((List K × W) × Bool)) (kp : List K) (after : List K → V → Prop) (t : Tree K V) :
    Prop :=
  (log = [] ∧ t = a ∧ ∀ k, HasEntry a k ∨ HasEntry b k → k = kp ∨ LexLt kp k) ∨
  ∃ p c r, kp = p ++ c :: r ∧ (∀ k, HasEntry a k ∨ HasEntry b k → ∃ s, k = p ++ s) ∧
    (Canonical b → ∃ k, (HasEntry a k ∨ HasEntry b k) ∧ ∀ s, k ≠ p ++ c :: s) ∧
    ∀ k v, Entry t k v ↔ after k v ∧ LexLt k kp ∧ ∀ s, k ≠ p ++ c :: s

end Tree
end Verif
