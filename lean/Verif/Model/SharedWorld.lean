import Verif.Model.SharedPure
import Verif.Spec.SharedHistory
/-! # Histories of calls on tree handles, executed on the reference counted heap

This is not code of the library: it is the user's program, reduced to the calls it makes. Handles are numbered in the order in which they come
into being. -/
namespace Verif.Shared

section
variable {K V : Type} [Ord K] [DecidableEq K]

/-- The state of a program that works with handles: the heap and, for each handle, the variable that holds its tree. -/
structure HeapWorld (K V : Type) where
  st : St K V
  vars : List (Option Nat)

/-- execute `m`, which makes one variable, and give it to a new handle -/
def HeapWorld.make (w : HeapWorld K V) (c : Cmd K V) : HeapWorld K V := ⟨w.st.runAct (Shared.make c), w.vars ++ [some w.st.regs.length]⟩
/-- execute a program part on the tree of handle `i`, if there is such a handle -/
def HeapWorld.on (w : HeapWorld K V) (i : Nat) (m : Loc → Act K V Unit) : HeapWorld K V :=
  match w.vars[i]? with
  | some (some a) => { w with st := w.st.runAct (m ⟨a, []⟩) }
  | _ => w
/-- execute a program part on the trees of two different handles -/
def HeapWorld.on2 (w : HeapWorld K V) (i j : Nat) (m : Loc → Loc → Act K V Unit) : HeapWorld K V :=
  if i = j then w
  else
    match w.vars[j]? with
    | some (some b) => w.on i (fun l => m l ⟨b, []⟩)
    | _ => w

/-- a query, whose answer is ignored -/
def ignore {α : Type} (m : Act K V α) : Act K V Unit := do
  let _ ← m
  pure ()
/-- execute a query on the trees of two handles, which may be the same -/
def HeapWorld.ask2 {α : Type} (w : HeapWorld K V) (i j : Nat) (m : Loc → Loc → Act K V α) : HeapWorld K V :=
  match w.vars[j]? with
  | some (some b) => w.on i (fun l => ignore (m l ⟨b, []⟩))
  | _ => w

/-- `let v = m;`: the result of `m` is moved into a new variable, which is the last one -/
def letP (m : Act K V Nat) : Act K V Unit := do
  let r ← m
  let v ← Shared.make .default
  exec (.swap ⟨v, []⟩ r)
  exec (.drop r)

/-- execute a program part that makes a tree from the tree of handle `i`, and give the result to a new handle -/
def HeapWorld.derive (w : HeapWorld K V) (i : Nat) (m : Loc → Act K V Nat) : HeapWorld K V :=
  match w.vars[i]? with
  | some (some a) => ⟨w.st.runAct (letP (m ⟨a, []⟩)), w.vars ++ [some ((w.st.runAct (letP (m ⟨a, []⟩))).regs.length - 1)]⟩
  | _ => w
/-- the same for two handles, which may be the same -/
def HeapWorld.derive2 (w : HeapWorld K V) (i j : Nat) (m : Loc → Loc → Act K V Nat) : HeapWorld K V :=
  match w.vars[j]? with
  | some (some b) => w.derive i (fun l => m l ⟨b, []⟩)
  | _ => w

/-- a call on handles, executed by the programs above -/
def HeapWorld.apply (fuel : Nat) (w : HeapWorld K V) : HandleOp K V → HeapWorld K V
  | .empty => w.make .default
  | .single k v => w.make (.new k (some v) [])
  | .load t => w.make (.lazyRoot t)
  | .convert t => w.make (.eager false t)
  | .clone i =>
    match w.vars[i]? with
    | some (some a) => w.make (.clone ⟨a, []⟩)
    | _ => w
  | .drop i =>
    match w.vars[i]? with
    | some (some a) => ⟨w.st.runAct (exec (.drop a)), w.vars.set i none⟩
    | _ => w
  | .insert i k v => w.on i fun l => insertP fuel l k v
  | .prepend i p => w.on i fun l => prependP l p
  | .filterPrefix i p => w.derive i fun l => filterPrefixP fuel l p
  | .union i j => w.derive2 i j (unionP fuel)
  | .intersection i j => w.derive2 i j (intersectionP fuel)
  | .difference i j => w.derive2 i j (differenceP fuel)
  | .outerCombine i j f => w.derive2 i j (outerP f fuel)
  | .innerCombine i j f => w.derive2 i j (innerP f fuel)
  | .unionWith i j => w.on2 i j (unionWithP fuel)
  | .intersectionWith i j => w.on2 i j (intersectionWithP fuel)
  | .differenceWith i j => w.on2 i j (differenceWithP fuel)
  | .outerCombineWith i j f => w.on2 i j (outerWithP (fun v w => Tree.kept (f v w)) fuel)
  | .innerCombineWith i j f => w.on2 i j (innerWithP (fun v w => Tree.kept (f v w)) fuel)
  | .leftCombineWith i j f => w.on2 i j (leftWithP (fun v w => Tree.kept (f v w)) fuel)
  | .removePrefixWith i j f => w.on2 i j (removePrefixP f fuel)
  | .retainPrefixWith i j f => w.on2 i j (retainPrefixP f fuel)
  | .get i k => w.on i fun l => ignore (getP fuel l k)
  | .containsKey i k => w.on i fun l => ignore (containsKeyP fuel l k)
  | .iter i => w.on i fun l => ignore (entriesP fuel l)
  | .values i => w.on i fun l => ignore (valuesP fuel l)
  | .scanPrefix i p => w.on i fun l => ignore (scanPrefixP fuel l p)
  | .intersects i j => w.ask2 i j (intersectsP fuel)
  | .isSubset i j => w.ask2 i j (isSubsetP fuel)

/-- a history of calls -/
def HeapWorld.run (fuel : Nat) : HeapWorld K V → List (HandleOp K V) → HeapWorld K V
  | w, [] => w
  | w, op :: ops => HeapWorld.run fuel (w.apply fuel op) ops

/-- the initial state (`arc`: the `ArcRadixTree` flavour, otherwise `LazyRadixTree`) -/
def HeapWorld.start (arc : Bool) : HeapWorld K V := ⟨St.start arc, []⟩
end

end Verif.Shared
