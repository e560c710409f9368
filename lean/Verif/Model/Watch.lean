import Verif.Model.RadixTree
/-!
# Watching a database: `watch`, `watch_prefix`, `notify` and `Batch` of `examples/radix_db.rs`

`T` is what a database publishes: its tree (as a value; that clones are independent of later changes is C53). A channel is the unbounded channel of
`futures::channel::mpsc`: a queue, and whether the receiver still exists. Sending fails iff the receiver is gone.
-/
namespace Verif.Watch

/-- one channel: what was sent and not yet received, and whether the receiver is still there -/
structure Chan (T : Type) where
  queue : List T
  alive : Bool

/-- The part of `RadixDb` (radix_db.rs:265-276) that matters here: the current tree and the senders (`watchers`, by channel number) -/
structure Db (T : Type) where
  tree : T
  watchers : List Nat
  chans : List (Chan T)

/-- what happens: the program changes the tree (`tree_mut`); `flush` or `vacuum` returns `Ok` or an error; `watch`; the owner of receiver `i` takes the
next item if there is one, or drops the receiver -/
inductive Ev (T : Type) where
  | set (t : T)
  | save (ok : Bool)
  | watch
  | recv (i : Nat)
  | drop (i : Nat)

variable {T : Type}

/-- `unbounded_send(tree.clone()).is_ok()` on channel `i`: the channels afterwards and the result -/
def send (chans : List (Chan T)) (i : Nat) (t : T) : List (Chan T) × Bool :=
  match chans[i]? with
  | some c => if c.alive then (chans.set i { c with queue := c.queue ++ [t] }, true) else (chans, false)
  | none => (chans, false)

/-- the loop of `retain` in `notify` (radix_db.rs:344-348): the channels afterwards and the senders that are kept -/
def notifyGo (t : T) : List (Chan T) → List Nat → List (Chan T) × List Nat
  | chans, [] => (chans, [])
  | chans, w :: ws =>
    if (send chans w t).2 then ((notifyGo t (send chans w t).1 ws).1, w :: (notifyGo t (send chans w t).1 ws).2)
    else notifyGo t (send chans w t).1 ws

/-- `notify` -/
def Db.notify (d : Db T) : Db T :=
  { d with chans := (notifyGo d.tree d.chans d.watchers).1, watchers := (notifyGo d.tree d.chans d.watchers).2 }

/-- one event; the second component is what a `recv` returned, with the number of its receiver. `flush` and `vacuum` call `notify` at the end, and not if
they return an error before (radix_db.rs:388-393, 409-413). `watch`: radix_db.rs:416-420. -/
def Db.step (d : Db T) : Ev T → Db T × List (Nat × T)
  | .set t => ({ d with tree := t }, [])
  | .save ok => if ok then (d.notify, []) else (d, [])
  | .watch => ({ d with watchers := d.watchers ++ [d.chans.length], chans := d.chans ++ [⟨[], true⟩] }, [])
  | .recv i =>
    match d.chans[i]? with
    | some ⟨t :: q, a⟩ => ({ d with chans := d.chans.set i ⟨q, a⟩ }, [(i, t)])
    | _ => (d, [])
  | .drop i =>
    match d.chans[i]? with
    | some _ => ({ d with chans := d.chans.set i ⟨[], false⟩ }, [])
    | none => (d, [])

/-- a history -/
def Db.run (d : Db T) : List (Ev T) → Db T × List (Nat × T)
  | [] => (d, [])
  | e :: es => (((d.step e).1.run es).1, (d.step e).2 ++ ((d.step e).1.run es).2)

/-- a database without watchers -/
def Db.start (t : T) : Db T := ⟨t, [], []⟩

/-! ## Batches -/
variable {K V : Type} [Ord K] [DecidableEq K]

/-- `Batch` (radix_db.rs:33-36) -/
structure Batch (K V : Type) where
  v0 : Tree K V
  v1 : Tree K V

/-- `Batch::added` (radix_db.rs:39-43) -/
def Batch.added (b : Batch K V) : Tree K V × Flow := b.v1.differenceWith b.v0
/-- `Batch::removed` (radix_db.rs:44-48) -/
def Batch.removed (b : Batch K V) : Tree K V × Flow := b.v0.differenceWith b.v1

/-- the closure of `scan` in `watch_prefix` (radix_db.rs:143-147): the new state and the batch. It does not assign to `prev`. -/
def scanStep (pre : List K) (prev curr : Tree K V) : Call (Tree K V × Batch K V) :=
  match prev.filterPrefix pre with
  | .panic => .panic
  | .ret v0 => match curr.filterPrefix pre with
    | .panic => .panic
    | .ret v1 => .ret (prev, ⟨v0, v1⟩)

/-- the stream that `watch_prefix` (radix_db.rs:140-150) makes of the trees that arrive -/
def scan (pre : List K) : Tree K V → List (Tree K V) → Call (List (Batch K V))
  | _, [] => .ret []
  | prev, t :: ts =>
    match scanStep pre prev t with
    | .panic => .panic
    | .ret (prev', b) => match scan pre prev' ts with
      | .panic => .panic
      | .ret bs => .ret (b :: bs)

end Verif.Watch
