import Verif.Model.RadixDbLate
import Verif.Spec.RadixDb
/-!
# What a database promises when a rename can report an error although it took place

`stale`: such a rename happened, and there was no successful `vacuum` and no restart since. Nothing is promised about a `flush` in this situation.
-/
namespace Verif.Shared
variable {K V : Type _}

structure SpecLate (K V : Type _) where
  db : SpecDb K V
  stale : Bool

/-- the standard operation, with the situation afterwards -/
def SpecLate.lift (s : SpecLate K V) (op : DbOp K V) (stale : Bool) : Option (SpecLate K V × List (Obs K V)) :=
  match s.db.step op with
  | some (σ, o) => some (⟨σ, stale⟩, o)
  | none => none

/-- A late error makes the current tree durable. A successful `vacuum` and a restart end the stale situation, where `flush` must not be used. (If the
program has moved the tree out of variable 0 there is no tree to save, and `vacuum` does nothing.) -/
def SpecLate.step (s : SpecLate K V) : LateOp K V → Option (SpecLate K V × List (Obs K V))
  | .vacuumLate =>
    match s.db.vars[0]? with
    | some (some t) => some (⟨{ s.db with durable := some t }, true⟩, [])
    | _ => some (s, [])
  | .std (.flush io) => if s.stale then none else s.lift (.flush io) false
  | .std (.vacuum .ok) =>
    match s.db.vars[0]? with
    | some (some _) => s.lift (.vacuum .ok) false
    | _ => some (s, [])
  | .std .restart => s.lift .restart false
  | .std op => s.lift op s.stale

/-- a history; `none` if nothing is promised -/
def SpecLate.history : List (LateOp K V) → SpecLate K V → Option (SpecLate K V × List (List (Obs K V)))
  | [], s => some (s, [])
  | op :: ops, s =>
    match s.step op with
    | none => none
    | some (s1, o) => match SpecLate.history ops s1 with | none => none | some (s2, os) => some (s2, o :: os)

/-- a new database -/
def SpecLate.new : SpecLate K V := ⟨SpecDb.new, false⟩

end Verif.Shared
