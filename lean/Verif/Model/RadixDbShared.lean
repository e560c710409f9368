import Verif.Model.RadixDb
/-!
# Several databases on one storage

`RadixDb::load(storage, name)` (examples/radix_db.rs:302-342) takes a storage and a name; the storage is `Clone` (`MemStorage` shares one map, radix_db.rs:168-171,
`FileStorage` one directory, radix_db.rs:214-217) and every file is addressed by its name, so any number of databases can be open on one storage. Database
`name` uses the files `{name}` and `{name}.tmp` (radix_db.rs:387).
-/
namespace Verif.Shared
variable {K V : Type _}

/-- An open database without its files: `RadixDb` (radix_db.rs:264-275). -/
structure Conn (K V : Type _) where
  nm : String
  st : St K V
  ser : Option (List (Nat × Nat) × List Nat)
  pos : Nat

/-- The storage (a missing file is the same as an empty one, radix_db.rs:159-161) and the databases opened so far. -/
structure World (K V : Type _) where
  files : String → File K V
  dbs : List (Conn K V)

/-- the name of the temporary file, radix_db.rs:387 -/
def tmpName (nm : String) : String := nm ++ ".tmp"

/-- the database with the files it uses -/
def Conn.onFiles (c : Conn K V) (files : String → File K V) : Db K V := ⟨files c.nm, files (tmpName c.nm), c.st, c.ser, c.pos⟩

/-- write a file -/
def putFile (files : String → File K V) (nm : String) (f : File K V) : String → File K V := fun x => if x = nm then f else files x

/-- the files after an operation of the database `nm` -/
def putFiles (files : String → File K V) (nm : String) (d : Db K V) : String → File K V := putFile (putFile files nm d.name) (tmpName nm) d.tmp

/-- What can happen: a database is opened (`RadixDb::load`), or something happens to the `i`-th database opened (an operation, its user program, or a
restart of its process). -/
inductive WorldOp (K V : Type _) where
  | opened (nm : String)
  | on (i : Nat) (op : DbOp K V)

/-- One step; the second component says which database observed what. `none` as in `Db.step`. An operation on a database that is not open does
nothing. -/
def World.step (w : World K V) : WorldOp K V → Option (World K V × List (Nat × List (Obs K V)))
  | .opened nm =>
    match Db.load (w.files nm) (w.files (tmpName nm)) with
    | none => none
    | some d => some ({ files := w.files, dbs := w.dbs ++ [⟨nm, d.st, d.ser, d.pos⟩] }, [])
  | .on i op =>
    match w.dbs[i]? with
    | none => some (w, [])
    | some c =>
      match (c.onFiles w.files).step op with
      | none => none
      | some (d, o) => some ({ files := putFiles w.files c.nm d, dbs := w.dbs.set i ⟨c.nm, d.st, d.ser, d.pos⟩ }, [(i, o)])

/-- a history of steps with everything that was observed -/
def World.history : List (WorldOp K V) → World K V → Option (World K V × List (Nat × List (Obs K V)))
  | [], w => some (w, [])
  | op :: ops, w =>
    match w.step op with
    | none => none
    | some (w1, o) => match World.history ops w1 with | none => none | some (w2, os) => some (w2, o ++ os)

/-- an empty storage, nothing open -/
def World.start : World K V := { files := fun _ => [], dbs := [] }

end Verif.Shared
