import Verif.Model.HostileRadix
import Verif.Spec.Hostile
import Verif.Spec.Radix
/-!
# Words for talking about radix trees whose key components have an `Ord` and `Eq` that obey no law
-/
namespace Verif
namespace Hostile
namespace Radix
variable {W K V : Type}

/-- all values stored in the tree -/
def vals : Tree K V → List V
  | ⟨_, v, ks⟩ => v.toList ++ valsL ks
where
  /-- the values stored in a list of trees -/
  valsL : List (Tree K V) → List V
    | [] => []
    | c :: cs => vals c ++ valsL cs

/-- every child, at every level, has a non-empty prefix -/
inductive Headed : Tree K V → Prop
  | mk {p : List K} {v : Option V} {ks : List (Tree K V)} : (∀ c ∈ ks, c.pre ≠ []) → (∀ c ∈ ks, Headed c) → Headed ⟨p, v, ks⟩

/-- the shape of a tree that some operation returned: prefixes are not empty, and either it is *the* empty tree or no node is superfluous. (`Canonical` without
the order of the children.) -/
def Tidy (t : Tree K V) : Prop := Headed t ∧ (t = Tree.empty ∨ Tree.Full t)

/-- whenever `cmp` says `Equal`, `==` does not say `false`. (Everything else is left open: both may change their minds, be asymmetric, intransitive, or panic.) -/
def Consistent (k : Keys W K) : Prop :=
  ∃ same : K → K → Prop, (∀ x y w, (k.cmp x y w).1 = .ret .eq → same x y) ∧ ∀ x y w b, same x y → (k.eq x y w).1 = .ret b → b = true

/-- `==` or `cmp` panics at least sometimes -/
def KeysPanic (k : Keys W K) : Prop := (∃ x y w, (k.eq x y w).1 = .panic) ∨ ∃ x y w, (k.cmp x y w).1 = .panic

/-- what `slice::sort_by_key` promises for any comparison, also if it panics: the slice holds the same elements -/
def Rearranges {α : Type} (sort : Sorter W α) : Prop := ∀ l w, (sort l w).1.1.Perm l

/-- closures that choose one of the two values, or drop both -/
def Chooses (f : Tree.MutFn V V) : Prop := ∀ v w, (f v w).1 = v ∨ (f v w).1 = w
/-- closures that leave the left value as it is, or drop it -/
def Keeps {X : Type} (f : Tree.MutFn V X) : Prop := ∀ v w, (f v w).1 = v

/-- the same for closures that return a new value -/
def ChoosesNew (f : V → V → Option V) : Prop := ∀ v w u, f v w = some u → u = v ∨ u = w
def KeepsNew {X : Type} (f : V → X → Option V) : Prop := ∀ v w u, f v w = some u → u = v

/-- sorting trees by the first component of their prefix panics, although there is one -/
def SortingPanics (sort : Sorter W (Tree K V)) : Prop := ∃ l w, (∀ t ∈ l, t.pre ≠ []) ∧ (sort l w).1.2 = .panic

/-- whenever `==` and `cmp` answer (instead of panicking), they answer like `=` and the order `compare` -/
def Answers [Ord K] [DecidableEq K] (k : Keys W K) : Prop :=
  (∀ x y w b, (k.eq x y w).1 = .ret b → b = decide (x = y)) ∧ ∀ x y w o, (k.cmp x y w).1 = .ret o → o = compare x y

/-- whenever the sort returns, it has sorted (stably, by the first component) -/
def Sorts [Ord K] (sort : Sorter W (Tree K V)) : Prop := ∀ l w, (sort l w).1.2 = .ret () → (sort l w).1.1 = Tree.sortKids l

end Radix
end Hostile
end Verif
