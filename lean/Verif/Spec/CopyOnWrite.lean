import Verif.Model.CopyOnWrite
import Verif.Spec.RadixDepth
/-!
# What counts in the copy-on-write trees
-/
namespace Verif.Cow
variable {K V : Type}

mutual
/-- The vectors of a tree that do not belong to this tree alone: those that are not loaded or shared, and everything below them -/
def foreign : CTree K V → Nat
  | ⟨_, _, .own, ks⟩ => foreigns ks
  | ⟨_, _, .raw, ks⟩ => 1 + Tree.nodes.nodesL (plains ks)
  | ⟨_, _, .shared, ks⟩ => 1 + Tree.nodes.nodesL (plains ks)
/-- in a list of trees -/
def foreigns : List (CTree K V) → Nat
  | [] => 0
  | c :: cs => foreign c + foreigns cs
end

mutual
/-- the vectors of a tree that are not loaded -/
def unloaded : CTree K V → Nat
  | ⟨_, _, h, ks⟩ => (if h = .raw then 1 else 0) + unloadeds ks
/-- in a list of trees -/
def unloadeds : List (CTree K V) → Nat
  | [] => 0
  | c :: cs => unloaded c + unloadeds cs
end

/-- Bounds: at most `c` vectors are copied, each with at most `w` elements, `l` are loaded and `f` are new. -/
structure Within (w c l f : Nat) (m : Mem) : Prop where
  copies : m.copies ≤ c
  cloned : m.cloned ≤ c * w
  loads : m.loads ≤ l
  fresh : m.fresh ≤ f

/-- an update of a tree in place, or a lookup -/
inductive Update (K V : Type) where
  | outer (b : Tree K V) (f : Tree.MutFn V V)
  | inner (b : Tree K V) (f : Tree.MutFn V V)
  | left (b : Tree K V) (f : Tree.MutFn V V)
  | removePrefix (b : Tree K V) (f : V → Bool)
  | retainPrefix (b : Tree K V) (f : V → Bool)
  | insert (k : List K) (v : V)
  | remove (k : List K)
  | get (k : List K)

variable [Ord K] [DecidableEq K]

/-- carry it out -/
def Update.run (t : CTree K V) : Update K V → Charged (CTree K V)
  | .outer b f => t.outerCombineWith b f
  | .inner b f => t.innerCombineWith b f
  | .left b f => t.leftCombineWith b f
  | .removePrefix b f => t.removePrefixWith b f
  | .retainPrefix b f => t.retainPrefixWith b f
  | .insert k v => t.insert k v
  | .remove k => t.remove k
  | .get k => ⟨(t.get k).mem, (t.get k).res.2⟩

/-- carry out several -/
def runAll (t : CTree K V) : List (Update K V) → Charged (CTree K V)
  | [] => pure t
  | u :: us => do
    let t ← u.run t
    runAll t us

/-! ### Several trees -/

/-- a step of a program that uses several trees, given by their positions: clone a tree, update it by a key, look up a key, take the part below a prefix, drop a tree -/
inductive Act (K V : Type) where
  | clone (i : Nat)
  | insert (i : Nat) (k : List K) (v : V)
  | remove (i : Nat) (k : List K)
  | get (i : Nat) (k : List K)
  | filterPrefix (i : Nat) (p : List K)
  | drop (i : Nat)

/-- the length of the key that a step is about -/
def Act.keyLength : Act K V → Nat
  | .clone _ | .drop _ => 0
  | .insert _ k _ | .remove _ k | .get _ k | .filterPrefix _ k => k.length + 1

/-- carry it out; positions out of range do nothing -/
def Act.run (ts : List (CTree K V)) : Act K V → Charged (List (CTree K V))
  | .clone i => match ts[i]? with
    | none => pure ts
    | some t => pure (ts.set i t.share ++ [t.share])
  | .insert i k v => match ts[i]? with
    | none => pure ts
    | some t => do
      let t ← t.insert k v
      pure (ts.set i t)
  | .remove i k => match ts[i]? with
    | none => pure ts
    | some t => do
      let t ← t.remove k
      pure (ts.set i t)
  | .get i k => match ts[i]? with
    | none => pure ts
    | some t => do
      let r ← t.get k
      pure (ts.set i r.2)
  | .filterPrefix i p => match ts[i]? with
    | none => pure ts
    | some t => do
      let r ← t.filterPrefix p
      pure (ts.set i r.2 ++ [r.1])
  | .drop i => pure (ts.eraseIdx i)

/-- the whole program -/
def runProgram (ts : List (CTree K V)) : List (Act K V) → Charged (List (CTree K V))
  | [] => pure ts
  | a :: as => do
    let ts ← a.run ts
    runProgram ts as

/-- the same step on plain trees, each of which is a value of its own -/
def Act.plainly (ts : List (Tree K V)) : Act K V → List (Tree K V)
  | .clone i => match ts[i]? with
    | none => ts
    | some t => ts ++ [t]
  | .insert i k v => match ts[i]? with
    | none => ts
    | some t => ts.set i (t.insert k v).1
  | .remove i k => match ts[i]? with
    | none => ts
    | some t => ts.set i (t.differenceWith (Tree.single k ())).1
  | .get _ _ => ts
  | .filterPrefix i p => match ts[i]? with
    | none => ts
    | some t => match t.filterPrefix p with
      | .ret r => ts ++ [r]
      | .panic => ts
  | .drop i => ts.eraseIdx i

end Verif.Cow
