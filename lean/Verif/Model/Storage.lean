import Verif.Spec.Storage
/-!
# The storages of `examples/radix_db.rs`

A directory (`FileStorage`) and the `BTreeMap<String, AlignedVec>` of `MemStorage` are modelled as functions from names to optional contents. For
`FileStorage`, `Fault` says which system call fails and how; a crash in the middle of an operation leaves what a failing system call leaves.
Simplifications: paths are names in one existing directory, no directories among the files, no other process.
-/
namespace Verif.Store
variable {N B : Type} [DecidableEq N]

/-- existing files with their contents -/
abbrev Dir (N B : Type) := N → Option (List B)

/-- create, replace or remove one file -/
def Dir.set (d : Dir N B) (n : N) (o : Option (List B)) : Dir N B := fun m => if m = n then o else d m

/-! ## `MemStorage` -/

/-- `MemStorage::append` (radix_db.rs:174-185): `get_mut`, else `entry(..).or_default()`; then extend -/
def memAppend (d : Dir N B) (n : N) (chunk : List B) : Dir N B × Out B :=
  if chunk.isEmpty then (d, .ok)
  else
    match d n with
    | some v => (d.set n (some (v ++ chunk)), .ok)
    | none => (d.set n (some ([] ++ chunk)), .ok)

/-- `MemStorage::load` (radix_db.rs:187-195) -/
def memLoad (d : Dir N B) (n : N) : Dir N B × Out B :=
  match d n with
  | some v => (d, .data v)
  | none => (d, .data [])

/-- `MemStorage::mv` (radix_db.rs:197-211) -/
def memMv (d : Dir N B) (a b : N) : Dir N B × Out B :=
  if a ≠ b then
    match d a with
    | some v => if !v.isEmpty then ((d.set a none).set b (some v), .ok) else ((d.set a none).set b none, .ok)
    | none => ((d.set a none).set b none, .ok)
  else (d, .ok)

/-- one operation -/
def memStep (d : Dir N B) : Op N B → Dir N B × Out B
  | .append n chunk => memAppend d n chunk
  | .load n => memLoad d n
  | .mv a b => memMv d a b

/-- a history -/
def memRun (d : Dir N B) : List (Op N B) → Dir N B × List (Out B)
  | [] => (d, [])
  | op :: ops => ((memRun (memStep d op).1 ops).1, (memStep d op).2 :: (memRun (memStep d op).1 ops).2)

/-! ## `FileStorage` -/

/-- which system call goes wrong: `open` fails; `write_all` fails after `k` bytes; `read`, `rename`, `remove_file` fail (with an error other
than "not found") -/
inductive Fault where
  | none
  | openFails
  | writeFails (k : Nat)
  | readFails
  | renameFails
  | removeFails

/-- `fs::rename` inside the directory; `none`: the error "not found" -/
def rename (d : Dir N B) (a b : N) : Option (Dir N B) :=
  match d a with
  | some v => some ((d.set a none).set b (some v))
  | none => none

/-- `fs::remove_file`; a missing file is an error -/
def removeFile (d : Dir N B) (n : N) : Dir N B × Out B :=
  match d n with
  | some _ => (d.set n none, .ok)
  | none => (d, .err)

/-- `FileStorage::append` (radix_db.rs:228-237): open with `create` and `append`, then `write_all` -/
def fileAppend (fl : Fault) (d : Dir N B) (n : N) (chunk : List B) : Dir N B × Out B :=
  if chunk.isEmpty then (d, .ok)
  else
    match fl with
    | .openFails => (d, .err)
    | .writeFails k => (d.set n (some ((d n).getD [] ++ chunk.take k)), .err)
    | _ => (d.set n (some ((d n).getD [] ++ chunk)), .ok)

/-- `FileStorage::load` (radix_db.rs:239-246) -/
def fileLoad (fl : Fault) (d : Dir N B) (n : N) : Dir N B × Out B :=
  match fl with
  | .readFails => (d, .err)
  | _ => match d n with
    | some v => (d, .data v)
    | none => (d, .data [])

/-- `FileStorage::mv` (radix_db.rs:248-262): `rename`; if that says "not found", `remove_file(to)?` -/
def fileMv (fl : Fault) (d : Dir N B) (a b : N) : Dir N B × Out B :=
  if a ≠ b then
    match fl with
    | .renameFails => (d, .err)
    | _ => match rename d a b with
      | some d' => (d', .ok)
      | none => match fl with
        | .removeFails => (d, .err)
        | _ => removeFile d b
  else (d, .ok)

/-- one operation -/
def fileStep (fl : Fault) (d : Dir N B) : Op N B → Dir N B × Out B
  | .append n chunk => fileAppend fl d n chunk
  | .load n => fileLoad fl d n
  | .mv a b => fileMv fl d a b

/-- a history, each operation with what goes wrong in it -/
def fileRun (d : Dir N B) : List (Fault × Op N B) → Dir N B × List (Out B)
  | [] => (d, [])
  | op :: ops => ((fileRun (fileStep op.1 d op.2).1 ops).1, (fileStep op.1 d op.2).2 :: (fileRun (fileStep op.1 d op.2).1 ops).2)

/-! ## `MemStorage` used by several threads

`MemStorage` is `Clone`: clones share one `Arc<Mutex<..>>`. `append` of a non-empty chunk, `load` and `mv` of different names hold the lock from
their first access to the map to their last one; the other calls do not touch the map. -/

/-- where a thread is inside its current call -/
inductive Phase (N B : Type) where
  /-- between calls -/
  | idle
  /-- has the lock, nothing done yet -/
  | locked
  /-- `append`: the entry exists (radix_db.rs:177-181), the chunk is not added yet -/
  | entry
  /-- `mv`: the source was removed from the map (radix_db.rs:200), the target not changed yet -/
  | removed (v : Option (List B))
  /-- the work is done, the lock still held -/
  | finished (o : Out B)

/-- a thread: the calls it has still to do (the first one is the current one), its phase, and what it saw so far -/
structure Thread (N B : Type) where
  todo : List (Op N B)
  phase : Phase N B
  seen : List (Out B)

/-- the map, who has the lock, the threads -/
structure Sys (N B : Type) where
  data : Dir N B
  owner : Option Nat
  threads : Nat → Thread N B

/-- calls that do not take the lock (radix_db.rs:175, 198) -/
def noLock : Op N B → Bool
  | .append _ chunk => chunk.isEmpty
  | .load _ => false
  | .mv a b => decide (a = b)

/-- one step of the owner of the lock in the middle of a call: the new map and phase -/
def inside (d : Dir N B) : Op N B → Phase N B → Option (Dir N B × Phase N B)
  | .append n _, .locked =>
    match d n with
    | some _ => some (d, .entry)
    | none => some (d.set n (some []), .entry)
  | .append n chunk, .entry => some (d.set n (some ((d n).getD [] ++ chunk)), .finished .ok)
  | .load n, .locked => some (d, .finished (.data ((d n).getD [])))
  | .mv a _, .locked => some (d.set a none, .removed (d a))
  | .mv _ b, .removed (some v) => if !v.isEmpty then some (d.set b (some v), .finished .ok) else some (d.set b none, .finished .ok)
  | .mv _ b, .removed none => some (d.set b none, .finished .ok)
  | _, _ => none

/-- one step of thread `i`; `none` if it has nothing to do or waits for the lock -/
def Sys.step (s : Sys N B) (i : Nat) : Option (Sys N B) :=
  match (s.threads i).todo with
  | [] => none
  | op :: rest =>
    match (s.threads i).phase with
    | .idle =>
      if noLock op then
        some { s with threads := fun j => if j = i then ⟨rest, .idle, (s.threads i).seen ++ [.ok]⟩ else s.threads j }
      else if s.owner = none then
        some { s with owner := some i, threads := fun j => if j = i then ⟨op :: rest, .locked, (s.threads i).seen⟩ else s.threads j }
      else none
    | .finished o =>
      some { s with owner := none, threads := fun j => if j = i then ⟨rest, .idle, (s.threads i).seen ++ [o]⟩ else s.threads j }
    | ph =>
      match inside s.data op ph with
      | some (d, ph') => some { s with data := d, threads := fun j => if j = i then ⟨op :: rest, ph', (s.threads i).seen⟩ else s.threads j }
      | none => none

/-- run a schedule; a thread that cannot step just waits -/
def Sys.run (s : Sys N B) : List Nat → Sys N B
  | [] => s
  | i :: is => match s.step i with | some s' => s'.run is | none => s.run is

end Verif.Store
