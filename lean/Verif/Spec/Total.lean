import Verif.Model.TotalVecSet
import Verif.Spec.SetHistory
/-!
# Specification vocabulary for total sets
-/
namespace Verif

/-- Every way the public API can produce (or leave behind) a `TotalVecSet`. -/
inductive BuiltTotal {T : Type _} [Ord T] : TotalVecSet T → Prop
  | constant (b : Bool) : BuiltTotal (.constant b)
  | fromVecSet {s : VecSet T} (h : Built s) : BuiltTotal (.fromVecSet s)
  | deserialized {E : Type} (seq : List (Except E T)) (n : Except E Bool) {s : TotalVecSet T}
      (h : TotalVecSet.deserialize seq n = .ok s) : BuiltTotal s
  | insert {s : TotalVecSet T} (h : BuiltTotal s) (x : T) : BuiltTotal (s.insert x)
  | remove {s : TotalVecSet T} (h : BuiltTotal s) (x : T) : BuiltTotal (s.remove x)
  | not {s : TotalVecSet T} (h : BuiltTotal s) : BuiltTotal s.not
  | bitand {a b : TotalVecSet T} (ha : BuiltTotal a) (hb : BuiltTotal b) : BuiltTotal (a.bitand b).1
  | bitor {a b : TotalVecSet T} (ha : BuiltTotal a) (hb : BuiltTotal b) : BuiltTotal (a.bitor b).1
  | bitxor {a b : TotalVecSet T} (ha : BuiltTotal a) (hb : BuiltTotal b) : BuiltTotal (a.bitxor b).1
  | sub {a b : TotalVecSet T} (ha : BuiltTotal a) (hb : BuiltTotal b) : BuiltTotal (a.sub b).1
  | bitandAssign {a b : TotalVecSet T} (ha : BuiltTotal a) (hb : BuiltTotal b) : BuiltTotal (a.bitandAssign b).1
  | bitorAssign {a b : TotalVecSet T} (ha : BuiltTotal a) (hb : BuiltTotal b) : BuiltTotal (a.bitorAssign b).1
  | bitxorAssign {a b : TotalVecSet T} (ha : BuiltTotal a) (hb : BuiltTotal b) : BuiltTotal (a.bitxorAssign b).1
  | subAssign {a b : TotalVecSet T} (ha : BuiltTotal a) (hb : BuiltTotal b) : BuiltTotal (a.subAssign b).1

/-- The element type has infinitely many elements (up to equality in the order): every finite list misses one. -/
def InfiniteOrd (T : Type _) [Ord T] : Prop := ∀ l : List T, ∃ x, ¬ Has l x

/-- Operations on one total set variable. -/
inductive TotalOp (T : Type _) where
  | insert (x : T)
  | remove (x : T)
  | not
  | andAssign (b : TotalVecSet T)
  | orAssign (b : TotalVecSet T)
  | xorAssign (b : TotalVecSet T)
  | subAssign (b : TotalVecSet T)

/-- run one operation of the implementation model -/
def TotalOp.exec {T : Type _} [Ord T] (s : TotalVecSet T) : TotalOp T → TotalVecSet T × Flow
  | .insert x => (s.insert x, .cont)
  | .remove x => (s.remove x, .cont)
  | .not => (s.not, .cont)
  | .andAssign b => s.bitandAssign b
  | .orAssign b => s.bitorAssign b
  | .xorAssign b => s.bitxorAssign b
  | .subAssign b => s.subAssign b

/-- run a sequence of operations; stops with the flow of the first operation that does not return -/
def execTotal {T : Type _} [Ord T] : TotalVecSet T → List (TotalOp T) → TotalVecSet T × Flow
  | s, [] => (s, .cont)
  | s, op :: ops => match op.exec s with
    | (s', .cont) => execTotal s' ops
    | r => r

/-- second operands come from the public API -/
def TotalOp.Ok {T : Type _} [Ord T] : TotalOp T → Prop
  | .andAssign b | .orAssign b | .xorAssign b | .subAssign b => BuiltTotal b
  | _ => True

/-- The mathematical effect on the characteristic function of a (possibly infinite) set. -/
def TotalOp.next {T : Type _} [Ord T] (χ : T → Bool) : TotalOp T → (T → Bool)
  | .insert x => fun y => if compare x y = .eq then true else χ y
  | .remove x => fun y => if compare x y = .eq then false else χ y
  | .not => fun y => !χ y
  | .andAssign b => fun y => χ y && b.contains y
  | .orAssign b => fun y => χ y || b.contains y
  | .xorAssign b => fun y => χ y ^^ b.contains y
  | .subAssign b => fun y => χ y && !b.contains y

end Verif
