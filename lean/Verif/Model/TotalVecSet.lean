import Verif.Model.VecSet
/-!
# Model of /repo/src/total_vec_set.rs

`TotalVecSet` = a `VecSet` plus a negation flag. Operations that go through the merge machinery also return its `Flow`, so that
"never panics" is a statement about them.
-/
namespace Verif

/-- `struct TotalVecSet { elements, negated }` (total_vec_set.rs:23-26) -/
structure TotalVecSet (T : Type _) where
  elements : VecSet T
  negated : Bool

namespace TotalVecSet
variable {T : Type _} [Ord T]

/-- `new` (total_vec_set.rs:86-88, private) -/
def new (r : VecSet T × Flow) (negated : Bool) : TotalVecSet T × Flow := (⟨r.1, negated⟩, r.2)
/-- `is_empty` (total_vec_set.rs:90-92) -/
def isEmpty (s : TotalVecSet T) : Bool := !s.negated && s.elements.isEmpty
/-- `is_all` (total_vec_set.rs:94-96) -/
def isAll (s : TotalVecSet T) : Bool := s.negated && s.elements.isEmpty
/-- `constant`, `From<bool>` (total_vec_set.rs:98-100, 115-119) -/
def constant (value : Bool) : TotalVecSet T := ⟨VecSet.empty, value⟩
/-- `empty` (total_vec_set.rs:102-104) -/
def empty : TotalVecSet T := constant false
/-- `all` (total_vec_set.rs:106-108) -/
def all : TotalVecSet T := constant true
/-- `From<VecSet>` (total_vec_set.rs:121-125) -/
def fromVecSet (value : VecSet T) : TotalVecSet T := ⟨value, false⟩
/-- `contains` (total_vec_set.rs:128-130) -/
def contains (s : TotalVecSet T) (x : T) : Bool := s.negated ^^ s.elements.contains x
/-- `insert` (total_vec_set.rs:132-138) -/
def insert (s : TotalVecSet T) (x : T) : TotalVecSet T :=
  if !s.negated then { s with elements := (s.elements.insert x).1 } else { s with elements := (s.elements.remove x).1 }
/-- `is_subset` (total_vec_set.rs:144-151) -/
def isSubset (a b : TotalVecSet T) : Bool :=
  match a.negated, b.negated with
  | false, false => a.elements.isSubset b.elements
  | false, true => a.elements.isDisjoint b.elements
  | true, false => false
  | true, true => a.elements.isSuperset b.elements
/-- `is_superset` (total_vec_set.rs:140-142) -/
def isSuperset (a b : TotalVecSet T) : Bool := !a.isSubset b
/-- `is_disjoint` (total_vec_set.rs:153-160) -/
def isDisjoint (a b : TotalVecSet T) : Bool :=
  match a.negated, b.negated with
  | false, false => a.elements.isDisjoint b.elements
  | false, true => a.elements.isSubset b.elements
  | true, false => a.elements.isSuperset b.elements
  | true, true => false
/-- `remove` (total_vec_set.rs:164-170) -/
def remove (s : TotalVecSet T) (x : T) : TotalVecSet T :=
  if s.negated then { s with elements := (s.elements.insert x).1 } else { s with elements := (s.elements.remove x).1 }

/-- `BitAnd for &TotalVecSet` (total_vec_set.rs:173-187) -/
def bitand (a b : TotalVecSet T) : TotalVecSet T × Flow :=
  match a.negated, b.negated with
  | false, false => new (a.elements.intersection b.elements) false
  | false, true => new (a.elements.difference b.elements) false
  | true, false => new (b.elements.difference a.elements) false
  | true, true => new (b.elements.union a.elements) true
/-- `BitAndAssign` (total_vec_set.rs:189-216). A panic in the merge would skip the assignment to `negated`. -/
def bitandAssign (a b : TotalVecSet T) : TotalVecSet T × Flow :=
  match a.negated, b.negated with
  | false, false => assign a (a.elements.bitandAssign b.elements) false
  | false, true => assign a (a.elements.subAssign b.elements) false
  | true, false => assign a (b.elements.subAssign a.elements) false
  | true, true => assign a (a.elements.bitorAssign b.elements) true
where
  /-- `self.elements op= ..; self.negated = n` -/
  assign (a : TotalVecSet T) (r : VecSet T × Flow) (n : Bool) : TotalVecSet T × Flow :=
    match r.2 with
    | .panic => (⟨r.1, a.negated⟩, .panic)
    | f => (⟨r.1, n⟩, f)
/-- `BitOr for &TotalVecSet` (total_vec_set.rs:218-232) -/
def bitor (a b : TotalVecSet T) : TotalVecSet T × Flow :=
  match a.negated, b.negated with
  | false, false => new (a.elements.union b.elements) false
  | false, true => new (b.elements.difference a.elements) true
  | true, false => new (a.elements.difference b.elements) true
  | true, true => new (b.elements.intersection a.elements) true
/-- `BitOrAssign` (total_vec_set.rs:234-261) -/
def bitorAssign (a b : TotalVecSet T) : TotalVecSet T × Flow :=
  match a.negated, b.negated with
  | false, false => bitandAssign.assign a (a.elements.bitorAssign b.elements) false
  | false, true => bitandAssign.assign a (b.elements.subAssign a.elements) true
  | true, false => bitandAssign.assign a (a.elements.subAssign b.elements) true
  | true, true => bitandAssign.assign a (a.elements.bitandAssign b.elements) true
/-- `BitXor for &TotalVecSet` (total_vec_set.rs:263-268) -/
def bitxor (a b : TotalVecSet T) : TotalVecSet T × Flow :=
  new (a.elements.symmetricDifference b.elements) (a.negated ^^ b.negated)
/-- `BitXorAssign` (total_vec_set.rs:270-275) -/
def bitxorAssign (a b : TotalVecSet T) : TotalVecSet T × Flow :=
  bitandAssign.assign a (a.elements.bitxorAssign b.elements) (a.negated ^^ b.negated)
/-- `Sub for &TotalVecSet` (total_vec_set.rs:277-292) -/
def sub (a b : TotalVecSet T) : TotalVecSet T × Flow :=
  match a.negated, b.negated with
  | false, false => new (a.elements.difference b.elements) false
  | false, true => new (a.elements.intersection b.elements) false
  | true, false => new (a.elements.union b.elements) true
  | true, true => new (b.elements.difference a.elements) false
/-- `SubAssign` (total_vec_set.rs:294-321) -/
def subAssign (a b : TotalVecSet T) : TotalVecSet T × Flow :=
  match a.negated, b.negated with
  | false, false => bitandAssign.assign a (a.elements.subAssign b.elements) false
  | false, true => bitandAssign.assign a (a.elements.bitandAssign b.elements) false
  | true, false => bitandAssign.assign a (a.elements.bitorAssign b.elements) true
  | true, true => bitandAssign.assign a (b.elements.subAssign a.elements) false
/-- `Not` (total_vec_set.rs:323-335), by value and by reference -/
def not (a : TotalVecSet T) : TotalVecSet T := ⟨a.elements, !a.negated⟩

/-- `PartialEq` (total_vec_set.rs:68-72) -/
def eq (a b : TotalVecSet T) : Bool := a.elements.eq b.elements && a.negated == b.negated
/-- `Hash` (total_vec_set.rs:61-66): the data fed to the hasher -/
def hashFeed {H : Type _} (h : T → H) (a : TotalVecSet T) : (Nat × List H) × Bool := (a.elements.hashFeed h, a.negated)
/-- `Serialize` (total_vec_set.rs:31-39): the pair (elements, negated) -/
def serialize (a : TotalVecSet T) : List T × Bool := (a.elements.serialize, a.negated)
/-- `Deserialize` (total_vec_set.rs:41-50): an element sequence, then the flag -/
def deserialize {E : Type _} (seq : List (Except E T)) (negated : Except E Bool) : Except E (TotalVecSet T) :=
  match VecSet.visitSeq seq with
  | .error e => .error e
  | .ok s => match negated with
    | .error e => .error e
    | .ok n => .ok ⟨s, n⟩

end TotalVecSet
end Verif
