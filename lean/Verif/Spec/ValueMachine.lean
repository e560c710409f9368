import Verif.Model.SharedHeap
/-!
# The same commands with value semantics

The specification of `Model/SharedHeap.lean`: variables hold plain trees, cloning copies, moving moves, and a change of one
variable changes nothing else. There is no heap, no sharing, no reference counting and no laziness.
-/
namespace Verif.Shared
variable {K V : Type _}

/-- the subtree at a path -/
def treeAt : List Nat → Tree K V → Option (Tree K V)
  | [], t => some t
  | i :: is, t => match t.kids[i]? with | some c => treeAt is c | none => none

/-- replace the subtree at a path -/
def putAt (u : Tree K V) : List Nat → Tree K V → Tree K V
  | [], _ => u
  | i :: is, t => match t.kids[i]? with | some c => { t with kids := t.kids.set i (putAt u is c) } | none => t

/-- variables holding plain trees -/
abbrev Vars (K V : Type _) := List (Option (Tree K V))

/-- the tree at a place -/
def Vars.at (ts : Vars K V) (l : Loc) : Option (Tree K V) :=
  match ts[l.reg]? with | some (some t) => treeAt l.path t | _ => none

/-- overwrite the tree at a place -/
def Vars.put (ts : Vars K V) (l : Loc) (u : Tree K V) : Vars K V :=
  match ts[l.reg]? with | some (some t) => ts.set l.reg (some (putAt u l.path t)) | _ => ts

/-- move the trees out of variables -/
def takeVars (ts : Vars K V) : List Nat → Option (List (Tree K V) × Vars K V)
  | [] => some ([], ts)
  | r :: rs =>
    match ts[r]? with
    | some (some t) =>
      match takeVars (ts.set r none) rs with
      | some (us, ts') => some (t :: us, ts')
      | none => none
    | _ => none

/-- one command, on values -/
def Vars.step (ts : Vars K V) : Cmd K V → Vars K V × Obs K V
  | .new p v children =>
    match takeVars ts children with
    | none => (ts, .bad)
    | some (us, ts') => (ts' ++ [some ⟨p, v, us⟩], .ok)
  | .default => (ts ++ [some ⟨[], none, []⟩], .ok)
  | .lazyRoot t => (ts ++ [some t], .ok)
  | .eager _ t => (ts ++ [some t], .ok)
  | .clone src => match ts.at src with | some t => (ts ++ [some t], .ok) | none => (ts, .bad)
  | .drop r => match ts[r]? with | some (some _) => (ts.set r none, .ok) | _ => (ts, .bad)
  | .setVal dst v => match ts.at dst with | some t => (ts.put dst { t with val := v }, .ok) | none => (ts, .bad)
  | .setPre dst p => match ts.at dst with | some t => (ts.put dst { t with pre := p }, .ok) | none => (ts, .bad)
  | .swap dst r =>
    if dst.reg = r then (ts, .bad)
    else
      match ts.at dst, ts[r]? with
      | some t, some (some u) => ((ts.put dst u).set r (some t), .ok)
      | _, _ => (ts, .bad)
  | .insertKid dst i r =>
    if dst.reg = r then (ts, .bad)
    else
      match ts.at dst, ts[r]? with
      | some t, some (some u) =>
        if i ≤ t.kids.length then ((ts.put dst { t with kids := t.kids.take i ++ u :: t.kids.drop i }).set r none, .ok)
        else (ts, .bad)
      | _, _ => (ts, .bad)
  | .removeKid dst i =>
    match ts.at dst with
    | some t =>
      match t.kids[i]? with
      | some u => (ts.put dst { t with kids := t.kids.take i ++ t.kids.drop (i + 1) } ++ [some u], .ok)
      | none => (ts, .bad)
    | none => (ts, .bad)
  | .look src => match ts.at src with | some t => (ts, .seen t.pre t.val t.kids.length) | none => (ts, .bad)

/-- run a program on values -/
def Vars.run (ts : Vars K V) : Prog K V → Vars K V × List (Obs K V)
  | .done => (ts, [])
  | .cmd c k => (((ts.step c).1.run (k (ts.step c).2)).1, (ts.step c).2 :: ((ts.step c).1.run (k (ts.step c).2)).2)

/-- the commands a program executes, given what it observed -/
def Prog.executed : Prog K V → List (Obs K V) → List (Cmd K V)
  | .cmd c k, o :: os => c :: (k o).executed os
  | _, _ => []

/-- the variables a command writes to or moves out of -/
def Cmd.writes : Cmd K V → List Nat
  | .new _ _ children => children
  | .default | .lazyRoot _ | .eager _ _ | .clone _ | .look _ => []
  | .drop r => [r]
  | .setVal dst _ | .setPre dst _ | .removeKid dst _ => [dst.reg]
  | .swap dst r | .insertKid dst _ r => [dst.reg, r]

end Verif.Shared
