import Verif.Spec.Radix
/-! Vocabulary for combinations of radix trees whose closure panics. -/
namespace Verif
namespace Tree
variable {K V W : Type _}

/-- the closure `f`, except that it answers `u` instead of panicking (the value is left as `f` left it when it panicked) -/
def completed (u : Bool) (f : MutFn V W) : MutFn V W := fun v w =>
  ((f v w).1, match (f v w).2 with | .panic => .ret u | .ret c => .ret c)

/-- `f` panics for some key that both trees have -/
def Pan (f : MutFn V W) (a : Tree K V) (b : Tree K W) : Prop := ∃ k v w, Entry a k v ∧ Entry b k w ∧ (f v w).2 = .panic

/-- `k` is the smallest key of both trees for which `f` panics -/
def FirstPanic [Ord K] (f : MutFn V W) (a : Tree K V) (b : Tree K W) (k : List K) : Prop :=
  (∃ v w, Entry a k v ∧ Entry b k w ∧ (f v w).2 = .panic) ∧
    ∀ k' v w, Entry a k' v → Entry b k' w → (f v w).2 = .panic → k' = k ∨ LexLt k k'

/-- `f` panicked for the smallest of all the keys of `a` and `b`, and `t` is `a` except for the value of that key, which is as `f` left it -/
def FirstCallPanicked [Ord K] (f : MutFn V W) (a : Tree K V) (b : Tree K W) (t : Tree K V) : Prop :=
  ∃ k v w, Entry a k v ∧ Entry b k w ∧ (f v w).2 = .panic ∧
    (∀ k', HasEntry a k' ∨ HasEntry b k' → k' = k ∨ LexLt k k') ∧
    ∀ k' u, Entry t k' u ↔ (k' = k ∧ u = (f v w).1) ∨ (k' ≠ k ∧ Entry a k' u)

/-- The keys of `a` and `b` have the prefix `p` in common. The smallest key for which `f` panicked goes on with the component `c`; what remains of the
complete result `T` is exactly what comes before that key and does not go on with `c`. (If the trees are canonical then `p` is the longest common
prefix of the keys.) -/
def StoppedAt [Ord K] (f : MutFn V W) (a : Tree K V) (b : Tree K W) (t T : Tree K V) : Prop :=
  ∃ p c r, FirstPanic f a b (p ++ c :: r) ∧
    (∀ k, HasEntry a k ∨ HasEntry b k → ∃ s, k = p ++ s) ∧
    (Canonical a → Canonical b → ∃ k, (HasEntry a k ∨ HasEntry b k) ∧ ∀ s, k ≠ p ++ c :: s) ∧
    ∀ k u, Entry t k u ↔ Entry T k u ∧ LexLt k (p ++ c :: r) ∧ ∀ s, k ≠ p ++ c :: s

end Tree
end Verif
