import Verif.Model.MergeDriver
/-!
# Specification of merging, independent of any driver

* `Ev`, `Legal`: what a legal sequence of callback invocations ("schedule") for two ascending inputs is.
* `joinRef`: the textbook element-by-element merge with per-element callbacks that may emit results, ask to stop, or panic.
-/
namespace Verif

/-- One callback invocation by a merge driver. -/
inductive Ev where
  | a (n : Nat)
  | b (n : Nat)
  | c
deriving DecidableEq, Repr

/-- `Legal cmp as bs evs`: the schedule `evs` consumes exactly `as` and `bs`; elements are only taken from one side when they
are smaller than everything that remains on the other side, and a collision is only announced for equal heads. -/
inductive Legal {A B : Type _} (cmp : A → B → Ordering) : List A → List B → List Ev → Prop
  | done : Legal cmp [] [] []
  | a {as bs evs} (n : Nat) : 1 ≤ n → n ≤ as.length →
      (∀ x ∈ as.take n, ∀ y ∈ bs, cmp x y = .lt) →
      Legal cmp (as.drop n) bs evs → Legal cmp as bs (.a n :: evs)
  | b {as bs evs} (n : Nat) : 1 ≤ n → n ≤ bs.length →
      (∀ y ∈ bs.take n, ∀ x ∈ as, cmp x y = .gt) →
      Legal cmp as (bs.drop n) evs → Legal cmp as bs (.b n :: evs)
  | c {x y as bs evs} : cmp x y = .eq → Legal cmp as bs evs →
      Legal cmp (x :: as) (y :: bs) (.c :: evs)

/-- Execute a schedule against a merge operation, stopping when a callback returns `false` or panics. -/
def runEvs {σ A B : Type _} (op : MergeOp σ A B) : σ → List Ev → σ × Flow
  | s, [] => (s, .cont)
  | s, .a n :: evs => andThen (op.fromA s n) (fun s => runEvs op s evs)
  | s, .b n :: evs => andThen (op.fromB s n) (fun s => runEvs op s evs)
  | s, .c :: evs => andThen (op.collision s) (fun s => runEvs op s evs)

/-- What processing one element does: results appended to the output, and how it ended. -/
abbrev Emit (R : Type _) := List R × Flow

/-- do `x`, then (unless it stopped or panicked) `y` -/
def Emit.seq {R : Type _} (x y : Emit R) : Emit R :=
  match x.2 with
  | .cont => (x.1 ++ y.1, y.2)
  | _ => x

/-- emit an optional result and continue -/
def Emit.ret {R : Type _} (o : Option R) : Emit R := (o.toList, .cont)

/-- process a list of elements from left to right -/
def collect {A R : Type _} (f : A → Emit R) : List A → Emit R
  | [] => ([], .cont)
  | x :: xs => (f x).seq (collect f xs)

/-- the textbook merge -/
def joinRef {A B R : Type _} (cmp : A → B → Ordering) (fa : A → Emit R) (fb : B → Emit R)
    (fc : A → B → Emit R) : List A → List B → Emit R
  | [], bs => collect fb bs
  | a :: as, [] => collect fa (a :: as)
  | a :: as, b :: bs =>
    match cmp a b with
    | .lt => (fa a).seq (joinRef cmp fa fb fc as (b :: bs))
    | .gt => (fb b).seq (joinRef cmp fa fb fc (a :: as) bs)
    | .eq => (fc a b).seq (joinRef cmp fa fb fc as bs)
termination_by as bs => as.length + bs.length

end Verif
