import Verif.Spec.SetClone
import Verif.Spec.BTreeEffects
import Verif.Model.BTreeEffects
/-!
# Specification: what total sets and maps and `BTreeMap` clone
-/
namespace Verif

/-- For total sets `a` and `b` whose members are almost everything (`na`, `nb`) or almost nothing: must the result of the operator `op` list an element, given that `a` and/or
`b` list it? It must if membership in the result differs there from what it is almost everywhere. -/
def Exceptional (op : Bool → Bool → Bool) (na nb inA inB : Bool) : Bool := op (na != inA) (nb != inB) != op na nb

/-- the elements to be cloned: those of `a` or of `b` that the result must list. If both sets list an element, the one of `b` if `right`, else the one of `a`. -/
def TotalClones {T : Type _} [Ord T] (op : Bool → Bool → Bool) (na nb right : Bool) (a b : List T) (x : T) : Prop :=
  (x ∈ a ∧ ¬ Has b x ∧ Exceptional op na nb true false = true) ∨
  (x ∈ b ∧ ¬ Has a x ∧ Exceptional op na nb false true = true) ∨
  (Exceptional op na nb true true = true ∧ if right then x ∈ b ∧ Has a x else x ∈ a ∧ Has b x)

/-- the answer that is there only if it differs from the default `d` -/
def differing {S X R : Type _} [BEq R] (d : R) (f : Closure S X R) : Closure S X (Option R) := fun x s =>
  match f x s with
  | (.panic, s) => (.panic, s)
  | (.ret r, s) => (.ret (if r == d then none else some r), s)

/-- clone a key and then its value -/
def thenValue {S K V : Type _} (ck : Closure S K K) (cv : Closure S V V) : Closure S (K × V) (K × V) := fun e s =>
  match ck e.1 s with
  | (.panic, s) => (.panic, s)
  | (.ret k, s) =>
    match cv e.2 s with
    | (.panic, s) => (.panic, s)
    | (.ret v, s) => (.ret (k, v), s)

/-- one call of `f`, and, unless it panics, what `g` does with its answer -/
def onReturn {S X Y : Type _} (r : Call X × S) (g : X → S → Call Y × S) : Call Y × S :=
  match r with
  | (.panic, s) => (.panic, s)
  | (.ret x, s) => g x s

/-- the larger of two values, the second if they compare equal (`std::cmp::max`) -/
def larger {V : Type _} [Ord V] (p : V × V) : V := if compare p.1 p.2 = .gt then p.1 else p.2
/-- the smaller of two values, the first if they compare equal (`std::cmp::min`) -/
def smaller {V : Type _} [Ord V] (p : V × V) : V := if compare p.1 p.2 = .gt then p.2 else p.1

/-- a new map, made by inserting the entries one after the other -/
def insertedInTurn {K R : Type _} [Ord K] (l : List (K × R)) : BTreeMap K R := l.foldl (fun m e => m.insert e.1 e.2) BTreeMap.new

end Verif
