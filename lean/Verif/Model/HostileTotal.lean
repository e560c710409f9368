import Verif.Model.Hostile
import Verif.Model.TotalVecSet
import Verif.Model.TotalVecMap
/-!
# `TotalVecSet` and `TotalVecMap` with a comparison function that obeys no law

The code of `total_vec_set.rs` and of the comparing part of `total_vec_map.rs` over the operations of `Model/Hostile.lean`: the comparison is an arbitrary stateful
function that may panic. `self.negated = ..` is assigned after the operator on the elements has returned, so a panic in that operator
leaves the old flag beside the new elements.
-/
namespace Verif
namespace Hostile
variable {W α : Type}

/-- the outcome of a method that returns `()` -/
def Outcome.done {β : Type} : Outcome β → Outcome Unit
  | .ret _ => .ret ()
  | .panic => .panic
  | .fault => .fault

/-- a call on `self.elements` in a method that does not touch `self.negated` -/
def onElements {β : Type} (n : Bool) (r : (VecSet α × Outcome β) × W) : (TotalVecSet α × Outcome Unit) × W :=
  ((⟨r.1.1, n⟩, r.1.2.done), r.2)

/-- `self.elements op= ..; self.negated = n`: `old` is the flag before; unwinding skips the second statement -/
def thenFlag (old n : Bool) (r : (VecSet α × Outcome Bool) × W) : (TotalVecSet α × Outcome Unit) × W :=
  match r.1.2 with
  | .ret _ => ((⟨r.1.1, n⟩, .ret ()), r.2)
  | .panic => ((⟨r.1.1, old⟩, .panic), r.2)
  | .fault => ((⟨r.1.1, old⟩, .fault), r.2)

/-- `Self::Output::new(&x op &y, n)` (total_vec_set.rs:86-88) -/
def newTotal (n : Bool) (r : (List α × Outcome Bool) × W) : Outcome (TotalVecSet α) × W :=
  match r.1.2 with
  | .ret _ => (.ret ⟨⟨r.1.1⟩, n⟩, r.2)
  | .panic => (.panic, r.2)
  | .fault => (.fault, r.2)

/-- the negation of a boolean merge -/
def noneFound (r : (Bool × Outcome Bool) × W) : Outcome Bool × W :=
  match r.1.2 with
  | .ret _ => (.ret (!r.1.1), r.2)
  | .panic => (.panic, r.2)
  | .fault => (.fault, r.2)

/-- `contains` (total_vec_set.rs:128-130) -/
def totalContains (cmp : Cmp W α α) (s : TotalVecSet α) (x : α) : M W Bool := do
  let b ← contains cmp s.elements x
  pure (s.negated ^^ b)

/-- `insert` (total_vec_set.rs:132-138) -/
def totalInsert (cmp : Cmp W α α) (s : TotalVecSet α) (x : α) (w : W) : (TotalVecSet α × Outcome Unit) × W :=
  if !s.negated then onElements s.negated (insert cmp s.elements x w) else onElements s.negated (remove cmp s.elements x w)

/-- `remove` (total_vec_set.rs:164-170); `clone` is the `Clone` of the elements, called only if the set is negated -/
def totalRemove (cmp : Cmp W α α) (clone : α → W → Call α × W) (s : TotalVecSet α) (x : α) (w : W) : (TotalVecSet α × Outcome Unit) × W :=
  if s.negated then
    match clone x w with
    | (.ret y, w') => onElements s.negated (insert cmp s.elements y w')
    | (.panic, w') => ((s, .panic), w')
  else onElements s.negated (remove cmp s.elements x w)

section order
variable [Ord α]

/-- `AbstractVecSet::is_subset` (vec_set.rs:135-137) -/
def isSubset (cmp : Cmp W α α) (a b : VecSet α) : M W Bool := fun w => noneFound (mergeBool cmp a.elems b.elems (setDiffOp BoolMS.mut) w)
/-- `AbstractVecSet::is_superset` (vec_set.rs:142-144) -/
def isSuperset (cmp : Cmp W α α) (a b : VecSet α) : M W Bool := isSubset cmp b a
/-- `AbstractVecSet::is_disjoint` (vec_set.rs:128-130) -/
def isDisjoint (cmp : Cmp W α α) (a b : VecSet α) : M W Bool := fun w => noneFound (mergeBool cmp a.elems b.elems (setIntersectionOp BoolMS.mut) w)

/-- `is_subset` (total_vec_set.rs:144-151) -/
def totalIsSubset (cmp : Cmp W α α) (a b : TotalVecSet α) : M W Bool :=
  match a.negated, b.negated with
  | false, false => isSubset cmp a.elements b.elements
  | false, true => isDisjoint cmp a.elements b.elements
  | true, false => pure false
  | true, true => isSuperset cmp a.elements b.elements
/-- `is_superset` (total_vec_set.rs:140-142) -/
def totalIsSuperset (cmp : Cmp W α α) (a b : TotalVecSet α) : M W Bool := do
  let r ← totalIsSubset cmp a b
  pure (!r)
/-- `is_disjoint` (total_vec_set.rs:153-160) -/
def totalIsDisjoint (cmp : Cmp W α α) (a b : TotalVecSet α) : M W Bool :=
  match a.negated, b.negated with
  | false, false => isDisjoint cmp a.elements b.elements
  | false, true => isSubset cmp a.elements b.elements
  | true, false => isSuperset cmp a.elements b.elements
  | true, true => pure false

/-- `&a & &b` etc. on `VecSet`s (vec_set.rs:382-408), elements cloned -/
def newAnd (cmp : Cmp W α α) (a b : VecSet α) (w : W) : (List α × Outcome Bool) × W :=
  mergeNew cmp a.elems b.elems (setIntersectionOp (SliceMS.mut cloneConverter cloneConverter)) w
/-- `&a | &b` -/
def newOr (cmp : Cmp W α α) (a b : VecSet α) (w : W) : (List α × Outcome Bool) × W :=
  mergeNew cmp a.elems b.elems (setUnionOp (SliceMS.mut cloneConverter cloneConverter)) w
/-- `&a ^ &b` -/
def newXor (cmp : Cmp W α α) (a b : VecSet α) (w : W) : (List α × Outcome Bool) × W :=
  mergeNew cmp a.elems b.elems (setXorOp (SliceMS.mut cloneConverter cloneConverter)) w
/-- `&a - &b` -/
def newSub (cmp : Cmp W α α) (a b : VecSet α) (w : W) : (List α × Outcome Bool) × W :=
  mergeNew cmp a.elems b.elems (setDiffOp (SliceMS.mut cloneConverter cloneConverter)) w

/-- `BitAnd for &TotalVecSet` (total_vec_set.rs:173-187) -/
def totalAnd (cmp : Cmp W α α) (a b : TotalVecSet α) (w : W) : Outcome (TotalVecSet α) × W :=
  match a.negated, b.negated with
  | false, false => newTotal false (newAnd cmp a.elements b.elements w)
  | false, true => newTotal false (newSub cmp a.elements b.elements w)
  | true, false => newTotal false (newSub cmp b.elements a.elements w)
  | true, true => newTotal true (newOr cmp b.elements a.elements w)
/-- `BitOr for &TotalVecSet` (total_vec_set.rs:218-232) -/
def totalOr (cmp : Cmp W α α) (a b : TotalVecSet α) (w : W) : Outcome (TotalVecSet α) × W :=
  match a.negated, b.negated with
  | false, false => newTotal false (newOr cmp a.elements b.elements w)
  | false, true => newTotal true (newSub cmp b.elements a.elements w)
  | true, false => newTotal true (newSub cmp a.elements b.elements w)
  | true, true => newTotal true (newAnd cmp b.elements a.elements w)
/-- `BitXor for &TotalVecSet` (total_vec_set.rs:263-268) -/
def totalXor (cmp : Cmp W α α) (a b : TotalVecSet α) (w : W) : Outcome (TotalVecSet α) × W :=
  newTotal (a.negated ^^ b.negated) (newXor cmp a.elements b.elements w)
/-- `Sub for &TotalVecSet` (total_vec_set.rs:277-292) -/
def totalSub (cmp : Cmp W α α) (a b : TotalVecSet α) (w : W) : Outcome (TotalVecSet α) × W :=
  match a.negated, b.negated with
  | false, false => newTotal false (newSub cmp a.elements b.elements w)
  | false, true => newTotal false (newAnd cmp a.elements b.elements w)
  | true, false => newTotal true (newOr cmp a.elements b.elements w)
  | true, true => newTotal false (newSub cmp b.elements a.elements w)

/-- `a &= b` on `VecSet`s, by value (vec_set.rs:410-465); `pol` is the growth of the buffer -/
def andAssign (cmp : Cmp W α α) (pol : Nat → Nat) (a b : VecSet α) (w : W) : (VecSet α × Outcome Bool) × W :=
  assign cmp a b (setIntersectionOp (SlotMS.mut pol idConverter)) w
/-- `a |= b` -/
def orAssign (cmp : Cmp W α α) (pol : Nat → Nat) (a b : VecSet α) (w : W) : (VecSet α × Outcome Bool) × W :=
  assign cmp a b (setUnionOp (SlotMS.mut pol idConverter)) w
/-- `a ^= b` -/
def xorAssign (cmp : Cmp W α α) (pol : Nat → Nat) (a b : VecSet α) (w : W) : (VecSet α × Outcome Bool) × W :=
  assign cmp a b (setXorOp (SlotMS.mut pol idConverter)) w
/-- `a -= b` -/
def subAssign (cmp : Cmp W α α) (pol : Nat → Nat) (a b : VecSet α) (w : W) : (VecSet α × Outcome Bool) × W :=
  assign cmp a b (setDiffOp (SlotMS.mut pol idConverter)) w

/-- `BitAndAssign` (total_vec_set.rs:189-216); in the case (true, false) the elements are swapped first -/
def totalAndAssign (cmp : Cmp W α α) (pol : Nat → Nat) (a b : TotalVecSet α) (w : W) : (TotalVecSet α × Outcome Unit) × W :=
  match a.negated, b.negated with
  | false, false => thenFlag a.negated false (andAssign cmp pol a.elements b.elements w)
  | false, true => thenFlag a.negated false (subAssign cmp pol a.elements b.elements w)
  | true, false => thenFlag a.negated false (subAssign cmp pol b.elements a.elements w)
  | true, true => thenFlag a.negated true (orAssign cmp pol a.elements b.elements w)
/-- `BitOrAssign` (total_vec_set.rs:234-261); in the case (false, true) the elements are swapped first -/
def totalOrAssign (cmp : Cmp W α α) (pol : Nat → Nat) (a b : TotalVecSet α) (w : W) : (TotalVecSet α × Outcome Unit) × W :=
  match a.negated, b.negated with
  | false, false => thenFlag a.negated false (orAssign cmp pol a.elements b.elements w)
  | false, true => thenFlag a.negated true (subAssign cmp pol b.elements a.elements w)
  | true, false => thenFlag a.negated true (subAssign cmp pol a.elements b.elements w)
  | true, true => thenFlag a.negated true (andAssign cmp pol a.elements b.elements w)
/-- `BitXorAssign` (total_vec_set.rs:270-275) -/
def totalXorAssign (cmp : Cmp W α α) (pol : Nat → Nat) (a b : TotalVecSet α) (w : W) : (TotalVecSet α × Outcome Unit) × W :=
  thenFlag a.negated (a.negated ^^ b.negated) (xorAssign cmp pol a.elements b.elements w)
/-- `SubAssign` (total_vec_set.rs:294-321); in the case (true, true) the elements are swapped first -/
def totalSubAssign (cmp : Cmp W α α) (pol : Nat → Nat) (a b : TotalVecSet α) (w : W) : (TotalVecSet α × Outcome Unit) × W :=
  match a.negated, b.negated with
  | false, false => thenFlag a.negated false (subAssign cmp pol a.elements b.elements w)
  | false, true => thenFlag a.negated false (andAssign cmp pol a.elements b.elements w)
  | true, false => thenFlag a.negated true (orAssign cmp pol a.elements b.elements w)
  | true, true => thenFlag a.negated false (subAssign cmp pol b.elements a.elements w)

end order

section map
variable {K V : Type}

/-- `Index` (total_vec_map.rs:263-274) -/
def totalIndex (cmp : Cmp W K K) (m : TotalVecMap K V) (key : K) : M W V := do
  let r ← get cmp m.map key
  pure (r.getD m.default)

variable [Ord K] [BEq V]

/-- the closure passed to `outer_join` in `combine_ref` (total_vec_map.rs:217-227) -/
def combineArg (da db rd : V) (f : V → V → Call V) (arg : OuterJoinArg K V V) : Call (Option V) :=
  match (match arg with
    | .left _ v => f v db
    | .right _ x => f da x
    | .both _ v x => f v x) with
  | .panic => .panic
  | .ret r => .ret (if r != rd then some r else none)

/-- `combine_ref` (total_vec_map.rs:213-229); the keys are compared with `cmp` -/
def totalCombine (cmp : Cmp W K K) (a b : TotalVecMap K V) (f : V → V → Call V) (w : W) : Outcome (TotalVecMap K V) × W :=
  match f a.default b.default with
  | .panic => (.panic, w)
  | .ret rd =>
    match mergeNew (fun (x y : K × V) w => cmp x.1 y.1 w) a.map.entries b.map.entries (outerJoinOp (combineArg a.default b.default rd f)) w with
    | ((r, .ret _), w') => (.ret ⟨⟨r⟩, rd⟩, w')
    | ((_, .panic), w') => (.panic, w')
    | ((_, .fault), w') => (.fault, w')

end map
end Hostile
end Verif
