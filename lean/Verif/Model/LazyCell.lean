import Verif.Spec.LazyTrace
/-!
# `Lazy<A, B>` of `lazy_radix_tree.rs` as a small-step machine

Any number of threads (thread ids are natural numbers), any number of cells, every interleaving of the individual
lock / test / run / write / unlock / read steps. The memory model is sequential consistency; this is justified by
`C55_no_data_race` (data-race-free programs only have sequentially consistent behaviours).
-/
namespace Verif.LazyCell

/-- src/radix_tree/lazy_radix_tree.rs:235-239 `struct Lazy { mutex, data }`. `holder` is the thread that holds the mutex. -/
structure Cell (A B : Type) where
  holder : Option Nat
  data : Content A B

/-- Where a thread is. Each constructor is the point *before* the statement named in its comment. -/
inductive Pc (A B : Type) where
  | idle
  /-- lazy_radix_tree.rs:291 `let guard = self.mutex.lock()` in `get` -/
  | getLock (c : Nat)
  /-- :292-298 `if let Either::B(b) = &*self.data.get()` -/
  | getRead (c : Nat)
  /-- :299-300 `drop(guard); res` -/
  | getUnlock (c : Nat) (r : Option B)
  /-- :305 `let guard = self.mutex.lock()` in `get_or_create` -/
  | gocLock (c : Nat) (f : A → Option B)
  /-- :306-307 / :275 `if let Either::A(a) = self` in `a_to_b` -/
  | gocTest (c : Nat) (f : A → Option B)
  /-- :276 the call `f(*a)` -/
  | gocRun (c : Nat) (f : A → Option B) (a : A)
  /-- :276 the assignment `*self = Either::B(..)` -/
  | gocWrite (c : Nat) (b : B)
  /-- `f` panicked: unwinding drops `guard` (parking_lot mutexes are not poisoned) -/
  | gocUnwind (c : Nat)
  /-- :308 `drop(guard)` -/
  | gocUnlock (c : Nat)
  /-- :309-313 `if let Either::B(data) = &*self.data.get() { data } else { panic!() }`, without the lock -/
  | gocRead (c : Nat)
  /-- :251 `let guard = self.mutex.lock()` in `clone` -/
  | cloneLock (c : Nat)
  /-- :252 `(&*self.data.get()).clone()` -/
  | cloneRead (c : Nat)
  /-- :253-257 `drop(guard); Self { mutex: Mutex::new(()), data: UnsafeCell::new(data) }` -/
  | cloneUnlock (c : Nat) (d : Content A B)

/-- A thread: its position, and the cells into which it holds a shared reference `&B` returned by `get`/`get_or_create`,
together with the value it was told is there. -/
structure Thread (A B : Type) where
  pc : Pc A B
  refs : List (Nat × B)

/-- The whole machine. `hist` is the history so far, newest event first. Cells `≥ cells` do not exist yet. -/
structure Config (A B : Type) where
  cell : Nat → Cell A B
  cells : Nat
  thread : Nat → Thread A B
  hist : List (Event A B)

variable {A B : Type}

/-- update one point of a function -/
def upd {X : Type} (g : Nat → X) (i : Nat) (x : X) : Nat → X := fun j => if j = i then x else g j

/-- move thread `t` to `pc` -/
def Config.goto (s : Config A B) (t : Nat) (pc : Pc A B) : Config A B :=
  { s with thread := upd s.thread t { s.thread t with pc := pc } }
/-- thread `t` returns to `idle` and additionally holds a reference into `c` -/
def Config.retRef (s : Config A B) (t c : Nat) (b : B) : Config A B :=
  { s with thread := upd s.thread t { pc := .idle, refs := (c, b) :: (s.thread t).refs } }
/-- acquire the mutex -/
def Config.lock (s : Config A B) (t c : Nat) : Config A B :=
  { s with cell := upd s.cell c { s.cell c with holder := some t } }
/-- release the mutex -/
def Config.unlock (s : Config A B) (c : Nat) : Config A B :=
  { s with cell := upd s.cell c { s.cell c with holder := none } }
/-- overwrite the data -/
def Config.write (s : Config A B) (c : Nat) (d : Content A B) : Config A B :=
  { s with cell := upd s.cell c { s.cell c with data := d } }
/-- record an event -/
def Config.log (s : Config A B) (e : Event A B) : Config A B := { s with hist := e :: s.hist }

/-- the cell an operation in progress works on -/
def Pc.on : Pc A B → Option Nat
  | .idle => none
  | .getLock c | .getRead c | .getUnlock c _ | .gocLock c _ | .gocTest c _ | .gocRun c _ _ | .gocWrite c _ | .gocUnwind c
  | .gocUnlock c | .gocRead c | .cloneLock c | .cloneRead c | .cloneUnlock c _ => some c

/-- thread `t` currently borrows cell `c` (it is inside a call on `c`, or still holds a reference into `c`) -/
def Config.borrows (s : Config A B) (t c : Nat) : Prop :=
  (s.thread t).pc.on = some c ∨ ∃ b, (c, b) ∈ (s.thread t).refs

/-- One step of one thread. -/
inductive Step : Config A B → Config A B → Prop
  /-- an idle thread calls `get` (:290), `get_or_create` (:303) or `clone` (:250) on any existing cell -/
  | callGet (s t c) : (s.thread t).pc = .idle → c < s.cells →
      Step s ((s.goto t (.getLock c)).log (.called t c .get))
  | callGoc (s t c f) : (s.thread t).pc = .idle → c < s.cells →
      Step s ((s.goto t (.gocLock c f)).log (.called t c (.getOrCreate f)))
  | callClone (s t c) : (s.thread t).pc = .idle → c < s.cells →
      Step s ((s.goto t (.cloneLock c)).log (.called t c .clone))
  /-- `get` :291 -/
  | getLock (s t c) : (s.thread t).pc = .getLock c → (s.cell c).holder = none →
      Step s ((s.lock t c).goto t (.getRead c))
  /-- `get` :292-298 -/
  | getReadRaw (s t c a) : (s.thread t).pc = .getRead c → (s.cell c).data = .raw a →
      Step s (s.goto t (.getUnlock c none))
  | getReadMade (s t c b) : (s.thread t).pc = .getRead c → (s.cell c).data = .made b →
      Step s (s.goto t (.getUnlock c (some b)))
  /-- `get` :299-300 -/
  | getUnlockNone (s t c) : (s.thread t).pc = .getUnlock c none →
      Step s (((s.unlock c).goto t .idle).log (.gotten t c none))
  | getUnlockSome (s t c b) : (s.thread t).pc = .getUnlock c (some b) →
      Step s (((s.unlock c).retRef t c b).log (.gotten t c (some b)))
  /-- `get_or_create` :305 -/
  | gocLock (s t c f) : (s.thread t).pc = .gocLock c f → (s.cell c).holder = none →
      Step s ((s.lock t c).goto t (.gocTest c f))
  /-- `a_to_b` :275, raw input: start the initialiser -/
  | gocTestRaw (s t c f a) : (s.thread t).pc = .gocTest c f → (s.cell c).data = .raw a →
      Step s ((s.goto t (.gocRun c f a)).log (.initStarted t c f a))
  /-- `a_to_b` :275, already made: nothing to do -/
  | gocTestMade (s t c f b) : (s.thread t).pc = .gocTest c f → (s.cell c).data = .made b →
      Step s (s.goto t (.gocUnlock c))
  /-- :276 the initialiser returns -/
  | gocRunOk (s t c f a b) : (s.thread t).pc = .gocRun c f a → f a = some b →
      Step s (s.goto t (.gocWrite c b))
  /-- :276 the initialiser panics -/
  | gocRunPanic (s t c f a) : (s.thread t).pc = .gocRun c f a → f a = none →
      Step s (s.goto t (.gocUnwind c))
  /-- :276 the assignment -/
  | gocWrite (s t c b) : (s.thread t).pc = .gocWrite c b →
      Step s (((s.write c (.made b)).goto t (.gocUnlock c)).log (.stored t c b))
  /-- unwinding drops the guard -/
  | gocUnwind (s t c) : (s.thread t).pc = .gocUnwind c →
      Step s (((s.unlock c).goto t .idle).log (.initPanicked t c))
  /-- :308 -/
  | gocUnlock (s t c) : (s.thread t).pc = .gocUnlock c →
      Step s ((s.unlock c).goto t (.gocRead c))
  /-- :309-310 -/
  | gocReadMade (s t c b) : (s.thread t).pc = .gocRead c → (s.cell c).data = .made b →
      Step s ((s.retRef t c b).log (.created t c b))
  /-- :311-312 `panic!()` -/
  | gocReadRaw (s t c a) : (s.thread t).pc = .gocRead c → (s.cell c).data = .raw a →
      Step s ((s.goto t .idle).log (.crashed t c))
  /-- `clone` :251 -/
  | cloneLock (s t c) : (s.thread t).pc = .cloneLock c → (s.cell c).holder = none →
      Step s ((s.lock t c).goto t (.cloneRead c))
  /-- `clone` :252 -/
  | cloneRead (s t c) : (s.thread t).pc = .cloneRead c →
      Step s (s.goto t (.cloneUnlock c (s.cell c).data))
  /-- `clone` :253-257: the new cell is the next unused one -/
  | cloneUnlock (s t c d) : (s.thread t).pc = .cloneUnlock c d →
      Step s ({ (((s.unlock c).goto t .idle).log (.cloned t c s.cells d)) with
        cell := upd (s.unlock c).cell s.cells ⟨none, d⟩, cells := s.cells + 1 })
  /-- a thread uses a reference it holds -/
  | deref (s t c b) : (c, b) ∈ (s.thread t).refs → Step s (s.log (.deref t c b (s.cell c).data))
  /-- a thread gives up a reference it holds -/
  | release (s t refs) : refs.Sublist (s.thread t).refs →
      Step s { s with thread := upd s.thread t { s.thread t with refs := refs } }
  /-- `get_or_create_mut` :317-329 followed by any use of the returned `&mut B`. It needs `&mut self`, so by Rust's
  borrow rules nobody borrows the cell; that exclusivity also makes the whole call one step. The initialiser, if
  needed, succeeds; the owner then leaves an arbitrary value `b` behind. -/
  | exclusive (s t c b) : c < s.cells → (∀ u, ¬ s.borrows u c) →
      Step s ((s.write c (.made b)).log (.mutated t c b))

/-- any finite execution -/
inductive Steps : Config A B → Config A B → Prop
  | refl (s) : Steps s s
  | tail {s u v} : Steps s u → Step u v → Steps s v

/-- a starting configuration: no thread inside a call, no outstanding references, all mutexes free, no history -/
structure Config.Initial (s : Config A B) : Prop where
  idle : ∀ t, (s.thread t).pc = .idle
  norefs : ∀ t, (s.thread t).refs = []
  free : ∀ c, (s.cell c).holder = none
  hist : s.hist = []

/-- The memory access a thread is about to make to the data of a cell: `some true` = write, `some false` = read. -/
def Pc.access : Pc A B → Nat → Option Bool
  | .getRead c, d | .gocTest c _, d | .gocRead c, d | .cloneRead c, d => if c = d then some false else none
  | .gocWrite c _, d => if c = d then some true else none
  | _, _ => none

/-- thread `t` may read or write (`w = true`) the data of cell `c` in its next step -/
def Config.mayAccess (s : Config A B) (t c : Nat) (w : Bool) : Prop :=
  (s.thread t).pc.access c = some w ∨ (w = false ∧ ∃ b, (c, b) ∈ (s.thread t).refs)

end Verif.LazyCell
