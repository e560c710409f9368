import Verif.Spec.ValueMachine
/-!
# Calls on tree variables, each taking effect at once

The specification for programs with several threads: there is one set of variables, each empty or holding a plain tree. A call does all it has to
do in a single step. There is no heap, no sharing and no reference count.
-/
namespace Verif.Threads
open Verif.Shared
variable {K V : Type _}

/-- What a thread can call: the interface of `Model/SharedHeap.lean`, but the variable for the result is named in the call. -/
inductive Call (K V : Type _) where
  /-- `let dst = Default::default()` -/
  | default (dst : Nat)
  /-- `let dst = Self::new(prefix, value, children)`, the children being moved out of variables -/
  | new (p : List K) (v : Option V) (children : List Nat) (dst : Nat)
  /-- `let dst = ` a root whose children are an unloaded slice of an archive -/
  | load (t : Tree K V) (dst : Nat)
  /-- `let dst = src.clone()` for a node reached through shared references -/
  | clone (src : Loc) (dst : Nat)
  /-- the variable goes out of scope -/
  | drop (r : Nat)
  /-- `*x.value_mut() = v` -/
  | setVal (at_ : Loc) (v : Option V)
  /-- `*x.prefix_mut() = p` -/
  | setPre (at_ : Loc) (p : List K)
  /-- `mem::swap(x, &mut y)` for a place and a variable -/
  | swap (at_ : Loc) (r : Nat)
  /-- `x.children_mut().insert(i, y)` with `y` moved out of a variable -/
  | insertKid (at_ : Loc) (i : Nat) (r : Nat)
  /-- `let dst = x.children_mut().remove(i)` -/
  | removeKid (at_ : Loc) (i : Nat) (dst : Nat)
  /-- read `prefix`, `value` and the number of children of a node reached through shared references -/
  | look (src : Loc)

/-- the effect of a call, on values; `bad`: the place does not exist (a panic), nothing changes -/
def Call.on (ts : Vars K V) : Call K V → Vars K V × Obs K V
  | .default dst => (ts.set dst (some ⟨[], none, []⟩), .ok)
  | .new p v children dst =>
    match takeVars ts children with
    | none => (ts, .bad)
    | some (us, ts') => (ts'.set dst (some ⟨p, v, us⟩), .ok)
  | .load t dst => (ts.set dst (some t), .ok)
  | .clone src dst => match ts.at src with | some t => (ts.set dst (some t), .ok) | none => (ts, .bad)
  | .drop r => (ts.set r none, .ok)
  | .setVal l v => match ts.at l with | some t => (ts.put l { t with val := v }, .ok) | none => (ts, .bad)
  | .setPre l p => match ts.at l with | some t => (ts.put l { t with pre := p }, .ok) | none => (ts, .bad)
  | .swap l r =>
    match ts.at l, ts[r]? with
    | some t, some (some u) => ((ts.put l u).set r (some t), .ok)
    | _, _ => (ts, .bad)
  | .insertKid l i r =>
    match ts.at l, ts[r]? with
    | some t, some (some u) =>
      if i ≤ t.kids.length then ((ts.put l { t with kids := t.kids.take i ++ u :: t.kids.drop i }).set r none, .ok) else (ts, .bad)
    | _, _ => (ts, .bad)
  | .removeKid l i dst =>
    match ts.at l with
    | some t =>
      match t.kids[i]? with
      | some u => ((ts.put l { t with kids := t.kids.take i ++ t.kids.drop (i + 1) }).set dst (some u), .ok)
      | none => (ts, .bad)
    | none => (ts, .bad)
  | .look src => match ts.at src with | some t => (ts, .seen t.pre t.val t.kids.length) | none => (ts, .bad)

/-- a sequence of calls, one after the other; also returns what each of them observed -/
def Call.onAll (ts : Vars K V) : List (Call K V) → Vars K V × List (Obs K V)
  | [] => (ts, [])
  | c :: cs => ((Call.onAll (c.on ts).1 cs).1, (c.on ts).2 :: (Call.onAll (c.on ts).1 cs).2)

/-- the variables a call needs for itself (`&mut`, moved out of, or assigned to) -/
def Call.excl : Call K V → List Nat
  | .default dst | .load _ dst | .clone _ dst => [dst]
  | .new _ _ children dst => dst :: children
  | .drop r => [r]
  | .setVal l _ | .setPre l _ => [l.reg]
  | .swap l r | .insertKid l _ r => [l.reg, r]
  | .removeKid l _ dst => [l.reg, dst]
  | .look _ => []

/-- the variables a call only reads (`&`) -/
def Call.shared : Call K V → List Nat
  | .clone src _ | .look src => [src.reg]
  | _ => []

/-- the variables that must hold a tree when the call begins, and must differ from each other (Rust's compiler checks this) -/
def Call.full : Call K V → List Nat
  | .default _ | .load _ _ => []
  | .new _ _ children _ => children
  | .clone src _ | .look src => [src.reg]
  | .drop r => [r]
  | .setVal l _ | .setPre l _ | .removeKid l _ _ => [l.reg]
  | .swap l r | .insertKid l _ r => [l.reg, r]

/-- the variables that must be empty when the call begins -/
def Call.empty : Call K V → List Nat
  | .default dst | .load _ dst | .clone _ dst | .new _ _ _ dst | .removeKid _ _ dst => [dst]
  | _ => []

/-- Rust's borrow rules: two calls may be under way at the same time only if neither needs for itself a variable that the other uses. -/
def Call.compatible (c d : Call K V) : Prop :=
  (∀ x ∈ c.excl, x ∉ d.excl ∧ x ∉ d.shared) ∧ ∀ x ∈ c.shared, x ∉ d.excl

instance (c d : Call K V) : Decidable (c.compatible d) := inferInstanceAs (Decidable (_ ∧ _))

/-- number of nodes of a tree -/
def nodes : Tree K V → Nat
  | ⟨_, _, ks⟩ => 1 + nodesL ks
where
  /-- number of nodes of several trees -/
  nodesL : List (Tree K V) → Nat
    | [] => 0
    | c :: cs => nodes c + nodesL cs

/-- the place a call works on -/
def Call.loc : Call K V → Option Loc
  | .default _ | .new _ _ _ _ | .load _ _ => none
  | .drop r => some ⟨r, []⟩
  | .clone l _ | .look l | .setVal l _ | .setPre l _ | .swap l _ | .insertKid l _ _ | .removeKid l _ _ => some l

/-- An upper bound for the number of steps a call takes: on every level of the path, a vector may have to be copied, and the old one
may have to be dropped with everything below it. -/
def Call.cost (ts : Vars K V) (c : Call K V) : Nat :=
  match c.loc with
  | none => 1
  | some l => match ts[l.reg]? with | some (some t) => (l.path.length + 1) * (2 * nodes t + 3) + 2 | _ => 1

end Verif.Threads
