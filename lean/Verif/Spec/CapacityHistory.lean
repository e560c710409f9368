import Verif.Spec.SetHistory
import Verif.Model.Capacity
/-! Histories of one set variable together with the capacity of its vector (C92). -/
namespace Verif

/-- the capacity after one operation on a set of capacity `cap`; `remove` and `retain` keep it (`SmallVec::remove`, `SmallVec::retain`; vec_set.rs:323-335), as do operations that only read -/
def SetOp.capAfter {T : Type _} [Ord T] (s : VecSet T) (cap : Nat) : SetOp T → Nat
  | .insert x => VecSet.insertCap s cap x
  | .extend l => VecSet.extendCap cap s l
  | .orAssign owned b => VecSet.bitorAssignCap (if owned then idConverter else cloneConverter) cap s b
  | .andAssign owned b => VecSet.bitandAssignCap (if owned then idConverter else cloneConverter) cap s b
  | .xorAssign owned b => VecSet.bitxorAssignCap (if owned then idConverter else cloneConverter) cap s b
  | .subAssign owned b => VecSet.subAssignCap (if owned then idConverter else cloneConverter) cap s b
  | .remove _ | .retain _ | .contains _ | .len | .isEmpty => cap

/-- the set and the capacity of its vector after a sequence of operations -/
def runCap {T : Type _} [Ord T] : VecSet T → Nat → List (SetOp T) → VecSet T × Nat
  | s, cap, [] => (s, cap)
  | s, cap, op :: ops => runCap (op.exec s).1 (op.capAfter s cap) ops

/-- how many elements the set has room for at least: as many as it has after the operation, and `^=` as many as the union has -/
def SetOp.need {T : Type _} [Ord T] (s : VecSet T) : SetOp T → Nat
  | .xorAssign _ b => (s.union b).1.len
  | op => (op.exec s).1.len

/-- the largest need on the way -/
def peakNeed {T : Type _} [Ord T] : VecSet T → List (SetOp T) → Nat
  | s, [] => s.len
  | s, op :: ops => max s.len (max (op.need s) (peakNeed (op.exec s).1 ops))

end Verif
