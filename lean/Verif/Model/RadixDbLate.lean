import Verif.Model.RadixDb
/-!
# A rename that took place although it reports an error

`vacuum` (examples/radix_db.rs:371-394) leaves `pos` and `serializers` as they are when `storage.mv` returns an error. The file system may
report an error after the file was moved (for example a network file system whose answer is lost), then the file is the new one while the
registry still refers to the old one.
-/
namespace Verif.Shared
variable {K V : Type _}

/-- `vacuum`, radix_db.rs:371-394, where `append` succeeds and `mv` moves the file and then returns an error (:389 returns early). -/
def Db.vacuumLate (d : Db K V) : Option (Db K V) :=
  match d.st.regs[0]? with
  | some (some n) => do
    let r ← serialize d.st.heap 0 [] n
    let q ← allArcs d.st.heap [] n
    some { d with name := d.tmp ++ r.2, tmp := [], st := { d.st with heap := q.1.drop (q.2.map holder) } }
  | _ => some d

/-- what can happen to a database, with this kind of failure -/
inductive LateOp (K V : Type _) where
  | std (op : DbOp K V)
  | vacuumLate

/-- one operation -/
def Db.stepLate (d : Db K V) : LateOp K V → Option (Db K V × List (Obs K V))
  | .std op => d.step op
  | .vacuumLate => match d.vacuumLate with | some d' => some (d', []) | none => none

/-- a history of operations, with everything that was observed -/
def Db.historyLate : List (LateOp K V) → Db K V → Option (Db K V × List (List (Obs K V)))
  | [], d => some (d, [])
  | op :: ops, d =>
    match d.stepLate op with
    | none => none
    | some (d1, o) => match Db.historyLate ops d1 with | none => none | some (d2, os) => some (d2, o :: os)

end Verif.Shared
