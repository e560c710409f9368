import Verif.Model.VecSet
import Verif.Spec.Order
import Verif.Spec.Retain
/-!
# Specification vocabulary for sets: public histories and the mathematical set they denote
-/
namespace Verif

/-- Every way the public API of the crate can produce (or leave behind) a `VecSet`. In-place operations are included even
when they end in a panic (the object is still there afterwards); `retain` is included when it returns. -/
inductive Built {T : Type _} [Ord T] : VecSet T → Prop
  | empty : Built VecSet.empty
  | single (x : T) : Built (VecSet.single x)
  | fromVec (l : List T) : Built (VecSet.fromVec l)
  | fromIter (l : List T) : Built (VecSet.fromIter l)
  /-- the elements of a `BTreeSet` come out strictly ascending -/
  | fromBTreeSet (l : List T) (h : Ascending l) : Built (VecSet.fromBTreeSet l)
  | deserialized {E : Type} (seq : List (Except E T)) {s : VecSet T} (h : VecSet.visitSeq seq = .ok s) : Built s
  | validated (valid : T → Bool) (l : List T) {s : VecSet T} (h : VecSet.checkBytes valid l = .ok s) : Built s
  | insert {s : VecSet T} (h : Built s) (x : T) : Built (s.insert x).1
  | remove {s : VecSet T} (h : Built s) (x : T) : Built (s.remove x).1
  | retain {s : VecSet T} (h : Built s) {P : Type} (f : P → T → Call (P × Bool)) (p : P)
      (hr : (s.retain f p).2.2 ≠ .panic) : Built (s.retain f p).1
  | extend {s : VecSet T} (h : Built s) (l : List T) : Built (s.extend l).1
  | union {a b : VecSet T} (ha : Built a) (hb : Built b) : Built (a.union b).1
  | intersection {a b : VecSet T} (ha : Built a) (hb : Built b) : Built (a.intersection b).1
  | difference {a b : VecSet T} (ha : Built a) (hb : Built b) : Built (a.difference b).1
  | symmetricDifference {a b : VecSet T} (ha : Built a) (hb : Built b) : Built (a.symmetricDifference b).1
  | bitandAssign {a b : VecSet T} (ha : Built a) (hb : Built b) : Built (a.bitandAssign b).1
  | bitandAssignRef {a b : VecSet T} (ha : Built a) (hb : Built b) : Built (a.bitandAssignRef b).1
  | bitorAssign {a b : VecSet T} (ha : Built a) (hb : Built b) : Built (a.bitorAssign b).1
  | bitorAssignRef {a b : VecSet T} (ha : Built a) (hb : Built b) : Built (a.bitorAssignRef b).1
  | bitxorAssign {a b : VecSet T} (ha : Built a) (hb : Built b) : Built (a.bitxorAssign b).1
  | bitxorAssignRef {a b : VecSet T} (ha : Built a) (hb : Built b) : Built (a.bitxorAssignRef b).1
  | subAssign {a b : VecSet T} (ha : Built a) (hb : Built b) : Built (a.subAssign b).1
  | subAssignRef {a b : VecSet T} (ha : Built a) (hb : Built b) : Built (a.subAssignRef b).1
  | unionWith {a b : VecSet T} (ha : Built a) (hb : Built b) : Built (a.unionWith b).1
  | intersectionWith {a b : VecSet T} (ha : Built a) (hb : Built b) : Built (a.intersectionWith b).1
  | xorWith {a b : VecSet T} (ha : Built a) (hb : Built b) : Built (a.xorWith b).1
  | differenceWith {a b : VecSet T} (ha : Built a) (hb : Built b) : Built (a.differenceWith b).1

/-- Operations a client can apply to one set variable; binary operations take a second set. -/
inductive SetOp (T : Type _) where
  | insert (x : T)
  | remove (x : T)
  | retain (p : T → Bool)
  | extend (l : List T)
  | orAssign (owned : Bool) (b : VecSet T)
  | andAssign (owned : Bool) (b : VecSet T)
  | xorAssign (owned : Bool) (b : VecSet T)
  | subAssign (owned : Bool) (b : VecSet T)
  | contains (x : T)
  | len
  | isEmpty

/-- What the client sees. -/
inductive SetOut where
  | unit
  | bool (b : Bool)
  | nat (n : Nat)
  | panicked
deriving DecidableEq, Repr

/-- unit result of an in-place operation -/
def SetOut.ofFlow : Flow → SetOut
  | .panic => .panicked
  | _ => .unit

/-- run one operation of the implementation model -/
def SetOp.exec {T : Type _} [Ord T] (s : VecSet T) : SetOp T → VecSet T × SetOut
  | .insert x => ((s.insert x).1, .bool (s.insert x).2)
  | .remove x => ((s.remove x).1, .bool (s.remove x).2)
  | .retain p => ((s.retain (fun _ x => .ret ((), p x)) ()).1, .ofFlow (s.retain (fun _ x => .ret ((), p x)) ()).2.2)
  | .extend l => ((s.extend l).1, .ofFlow (s.extend l).2)
  | .orAssign true b => ((s.bitorAssign b).1, .ofFlow (s.bitorAssign b).2)
  | .orAssign false b => ((s.bitorAssignRef b).1, .ofFlow (s.bitorAssignRef b).2)
  | .andAssign true b => ((s.bitandAssign b).1, .ofFlow (s.bitandAssign b).2)
  | .andAssign false b => ((s.bitandAssignRef b).1, .ofFlow (s.bitandAssignRef b).2)
  | .xorAssign true b => ((s.bitxorAssign b).1, .ofFlow (s.bitxorAssign b).2)
  | .xorAssign false b => ((s.bitxorAssignRef b).1, .ofFlow (s.bitxorAssignRef b).2)
  | .subAssign true b => ((s.subAssign b).1, .ofFlow (s.subAssign b).2)
  | .subAssign false b => ((s.subAssignRef b).1, .ofFlow (s.subAssignRef b).2)
  | .contains x => (s, .bool (s.contains x))
  | .len => (s, .nat s.len)
  | .isEmpty => (s, .bool s.isEmpty)

/-- run a sequence of operations, recording what the client sees -/
def execSet {T : Type _} [Ord T] : VecSet T → List (SetOp T) → VecSet T × List SetOut
  | s, [] => (s, [])
  | s, op :: ops =>
    let r := op.exec s
    let rest := execSet r.1 ops
    (rest.1, r.2 :: rest.2)

/-- Admissible operands: second sets come from the public API; a retain predicate does not separate equal elements. -/
def SetOp.Ok {T : Type _} [Ord T] : SetOp T → Prop
  | .retain p => ∀ x y, compare x y = .eq → p x = p y
  | .orAssign _ b | .andAssign _ b | .xorAssign _ b | .subAssign _ b => Built b
  | _ => True

/-- The mathematical effect of an operation on a set of elements (closed under `=` of the order). -/
def SetOp.next {T : Type _} [Ord T] (S : T → Prop) : SetOp T → (T → Prop)
  | .insert x => fun y => S y ∨ compare x y = .eq
  | .remove x => fun y => S y ∧ compare x y ≠ .eq
  | .retain p => fun y => S y ∧ p y = true
  | .extend l => fun y => S y ∨ Has l y
  | .orAssign _ b => fun y => S y ∨ Has b.asSlice y
  | .andAssign _ b => fun y => S y ∧ Has b.asSlice y
  | .xorAssign _ b => fun y => ¬ (S y ↔ Has b.asSlice y)
  | .subAssign _ b => fun y => S y ∧ ¬ Has b.asSlice y
  | .contains _ | .len | .isEmpty => S

/-- `l` lists the elements of `S`, each exactly once. -/
def Enumerates {T : Type _} [Ord T] (l : List T) (S : T → Prop) : Prop :=
  l.Pairwise (fun x y => compare x y ≠ .eq) ∧ ∀ x, S x ↔ Has l x

/-- The answer the mathematical set gives. -/
def SetOp.answers {T : Type _} [Ord T] (S : T → Prop) : SetOp T → SetOut → Prop
  | .insert x, o => ∃ b, o = .bool b ∧ (b = true ↔ ¬ S x)
  | .remove x, o => ∃ b, o = .bool b ∧ (b = true ↔ S x)
  | .contains x, o => ∃ b, o = .bool b ∧ (b = true ↔ S x)
  | .len, o => ∃ n, o = .nat n ∧ (∃ l, Enumerates l S) ∧ ∀ l, Enumerates l S → l.length = n
  | .isEmpty, o => ∃ b, o = .bool b ∧ (b = true ↔ ∀ x, ¬ S x)
  | _, o => o = .unit

/-- The observations `outs` are those of the mathematical set that starts as `S` and ends as `S'`. -/
inductive SetRun {T : Type _} [Ord T] : (T → Prop) → List (SetOp T) → List SetOut → (T → Prop) → Prop
  | nil {S} : SetRun S [] [] S
  | cons {S S' op ops o os} : op.answers S o → SetRun (op.next S) ops os S' → SetRun S (op :: ops) (o :: os) S'

end Verif
