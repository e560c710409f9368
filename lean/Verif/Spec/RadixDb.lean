import Verif.Model.RadixDb
import Verif.Spec.HeapView
/-!
# What a database has to do

`SpecDb` has no heap, no sharing, no registry and no file format: the variables of the program hold plain trees (variable 0 is
`db.tree`), and `durable` is the tree a restart gets back (`none`: no promise, after a failed append that wrote a part of its data).

`FileDen` says what a file stands for, independently of the functions that write and read it.
-/
namespace Verif.Shared
variable {K V : Type _}

structure SpecDb (K V : Type _) where
  vars : Vars K V
  durable : Option (Tree K V)

/-- a new database: one variable with the empty tree, which is what a restart gets as well -/
def SpecDb.new : SpecDb K V := { vars := [some ⟨[], none, []⟩], durable := some ⟨[], none, []⟩ }

/-- One operation. A successful `flush` or `vacuum` makes the current tree durable; a failed `vacuum` changes nothing, wherever it failed;
a failed `flush` that wrote nothing changes nothing; `restart` loses all variables and gets the durable tree back. -/
def SpecDb.step (d : SpecDb K V) : DbOp K V → Option (SpecDb K V × List (Obs K V))
  | .prog p => some ({ d with vars := (d.vars.run p).1 }, (d.vars.run p).2)
  | .flush io =>
    match d.vars[0]?, io with
    | some (some t), .ok => some ({ d with durable := some t }, [])
    | some (some _), .fail 0 => some (d, [])
    | some (some _), .fail (_ + 1) => some ({ d with durable := none }, [])
    | _, _ => some (d, [])
  | .vacuum io =>
    match d.vars[0]?, io with
    | some (some t), .ok => some ({ d with durable := some t }, [])
    | _, _ => some (d, [])
  | .restart => match d.durable with | some t => some ({ vars := [some t], durable := some t }, []) | none => none

/-- a history; `none` if it restarts when nothing is promised -/
def SpecDb.history : List (DbOp K V) → SpecDb K V → Option (SpecDb K V × List (List (Obs K V)))
  | [], d => some (d, [])
  | op :: ops, d =>
    match d.step op with
    | none => none
    | some (d1, o) => match SpecDb.history ops d1 with | none => none | some (d2, os) => some (d2, o :: os)

mutual
/-- the child vector archived at position `p` of the file stands for these trees -/
inductive ADen (f : File K V) : Nat → List (Tree K V) → Prop
  | vec {p as ts} : f[p]? = some (.vec as) → ANodes f p as ts → ADen f p ts
/-- the archived nodes, in the slot at position `p`, stand for these trees -/
inductive ANodes (f : File K V) : Nat → List (ANode K V) → List (Tree K V) → Prop
  | nil (p) : ANodes f p [] []
  | cons {p as ts us} (a : ANode K V) : a.off ≤ p → ADen f (p - a.off) us → ANodes f p as ts →
      ANodes f p (a :: as) (⟨a.pre, a.val, us⟩ :: ts)
end

/-- the file stands for this tree: an empty (or missing) file for the empty tree, otherwise the root is the last thing in the file -/
def FileDen (f : File K V) (t : Tree K V) : Prop :=
  (f = [] ∧ t = ⟨[], none, []⟩) ∨
  ∃ a us, f.getLast? = some (.root a) ∧ a.off ≤ f.length - 1 ∧ ADen f (f.length - 1 - a.off) us ∧ t = ⟨a.pre, a.val, us⟩

/-- the vector with address `id` is reachable from the node -/
inductive NReach (h : Heap K V) : Node K V → Nat → Prop
  | here {n id} : n.kids = .arc id → NReach h n id
  | deeper {n j r ns m id} : n.kids = .arc j → h.cell j = some (r, ns) → m ∈ ns → NReach h m id → NReach h n id

/-- no node reachable from `n` (including `n`) has children that are not loaded -/
def NoRaw (h : Heap K V) (n : Node K V) : Prop :=
  (∀ ts, n.kids ≠ .raw ts) ∧ ∀ id, NReach h n id → ∀ r ns, h.cell id = some (r, ns) → ∀ m ∈ ns, ∀ ts, m.kids ≠ .raw ts

/-- The program never gets hold of an unloaded slice of an archive: it is a program on `ArcRadixTree`, which has no such constructor. -/
inductive Prog.arcOnly : Prog K V → Prop
  | done : Prog.arcOnly .done
  | cmd {c k} : (∀ t, c ≠ .lazyRoot t) → (∀ o, (k o).arcOnly) → Prog.arcOnly (.cmd c k)

/-- all programs in the history are `ArcRadixTree` programs -/
def arcOps (ops : List (DbOp K V)) : Prop := ∀ p, .prog p ∈ ops → p.arcOnly

/-- what a crash in `vacuum` leaves: the current tree if the move was done, otherwise the durable one -/
def VacuumIo.left : VacuumIo → (current durable : Tree K V) → Tree K V
  | .ok, t, _ => t
  | .fail _, _, u => u
  | .failMv, _, u => u

end Verif.Shared
