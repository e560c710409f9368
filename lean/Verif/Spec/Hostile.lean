import Verif.Model.Hostile
/-!
# Words for talking about comparison functions that obey no law
-/
namespace Verif
namespace Hostile

/-- the comparison panics at least sometimes -/
def Panics {W A B : Type} (cmp : Cmp W A B) : Prop := ∃ a b w, (cmp a b w).1 = .panic

/-- at some point of its life the comparison says `a` and `b` are equal -/
def SaysEqual {W A B : Type} (cmp : Cmp W A B) (a : A) (b : B) : Prop := ∃ w, (cmp a b w).1 = .ret .eq

/-- whenever the comparison answers (instead of panicking), it answers like `c` -/
def Answers {W A B : Type} (cmp : Cmp W A B) (c : A → B → Ordering) : Prop := ∀ a b w o, (cmp a b w).1 = .ret o → o = c a b

/-- `r` consists of some of the elements of `l` (with multiplicity), in any order -/
def Within {α : Type} (r l : List α) : Prop := ∃ rest, (r ++ rest).Perm l

/-- what `slice::sort_by` promises for any comparison: if it returns, the slice holds the same elements -/
def Permutes {W α : Type} (sort : List α → W → Call (List α) × W) : Prop := ∀ l w r, (sort l w).1 = .ret r → r.Perm l

/-- the sort panics at least sometimes -/
def SortPanics {W α : Type} (sort : List α → W → Call (List α) × W) : Prop := ∃ l w, (sort l w).1 = .panic

end Hostile
end Verif
