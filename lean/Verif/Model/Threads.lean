import Verif.Spec.Threads
/-!
# Several threads on one reference counted heap

`Model/SharedHeap.lean` executes each command in one go. Here the commands are cut into the individual accesses to shared memory, and the steps of
any number of threads are interleaved in any order. The threads work on trees that may share child vectors, as it happens when clones of an
`ArcRadixTree` are sent to other threads (or a reference to a tree is shared). A *step* is one access to a reference count (`Arc::clone`: fetch-add;
`Arc::drop`: fetch-sub; the uniqueness check of `Arc::make_mut`: compare-and-swap), one read of an element of a shared vector, or one loading of a
lazy node (an atomic step because of the lock in `Lazy`: C55).

A vector that `make_mut` hands out for mutation is *checked out* of the heap until the borrow ends. So the model notices when some other thread
accesses it meanwhile (a data race) or after it was freed: such an access leads to `Phase.fault`.

Simplifications: steps are sequentially consistent (by C74 the only conflicting accesses to plain memory are ordered by the reference counts, whose
memory orderings are those of `std::sync::Arc`). A call walks from the variable to the node it works on; code that keeps a reference to an inner node across several
calls is represented by calls with the same path, which find the same node.
-/
namespace Verif.Threads
open Verif.Shared
variable {K V : Type _}

/-- a node on the way from the variable to the node that is being mutated: its child vector is checked out, without the child on the way -/
structure Frame (K V : Type _) where
  pre : List K
  val : Option V
  id : Nat
  left : List (Node K V)
  right : List (Node K V)

/-- What a thread is doing. -/
inductive Phase (K V : Type _) where
  /-- no call is under way -/
  | idle
  /-- the call has begun, no step has been made -/
  | start (c : Call K V)
  /-- it has got to the node at `σ` through shared references (`children()`, arc_radix_tree.rs:66-68, lazy_radix_tree.rs:55-57), `rest` is still to go -/
  | read (c : Call K V) (σ : Site) (rest : List Nat)
  /-- it has got to the node `cur` through exclusive references (`children_mut()`, arc_radix_tree.rs:89-96, lazy_radix_tree.rs:78-80) -/
  | mut (c : Call K V) (fs : List (Frame K V)) (rest : List Nat) (cur : Node K V)
  /-- in `Arc::make_mut` for the children of `cur`, which are shared: clones of the first elements have been made -/
  | copy (c : Call K V) (fs : List (Frame K V)) (rest : List Nat) (cur : Node K V) (clones : List (Node K V))
  /-- the children `ns` of the node are checked out; `work` (the old vector, after a copy) is still to be dropped -/
  | own (c : Call K V) (fs : List (Frame K V)) (rest : List Nat) (p : List K) (v : Option V) (id : Nat) (ns work : List (Node K V))
  /-- dropping a variable; `work` is still to be dropped -/
  | drop (c : Call K V) (work : List (Node K V))
  /-- an access to memory that is not there, or that another thread has exclusive access to -/
  | fault

/-- the call that is under way -/
def Phase.call : Phase K V → Option (Call K V)
  | .idle | .fault => none
  | .start c | .read c _ _ | .mut c _ _ _ | .copy c _ _ _ _ | .own c _ _ _ _ _ _ _ | .drop c _ => some c

/-- `Clone` of a node (arc_radix_tree.rs:34, lazy_radix_tree.rs:249-259): a fetch-add on the count of its children; `none`: they are not there -/
def cloneStep (h : Heap K V) (n : Node K V) : Option (Heap K V) :=
  match n.kids with
  | .raw _ => some h
  | .arc id => match h.cell id with | some _ => some (h.inc id) | none => none

/-- `Arc::drop` for the children of a node: a fetch-sub on the count; the last one frees the vector, and its elements have to be dropped next -/
def dropStep (h : Heap K V) (n : Node K V) : Option (Heap K V × List (Node K V)) :=
  match n.kids with
  | .raw _ => some (h, [])
  | .arc id =>
    match h.cell id with
    | none => none
    | some (r, ms) => if r = 1 then some (h.set id none, ms) else some (h.dec id, [])

/-- the exclusive borrows end: the vectors on the way are back in the heap (no step of the program) -/
def close (h : Heap K V) (n : Node K V) : List (Frame K V) → Heap K V × Node K V
  | [] => (h, n)
  | f :: fs => close (h.set f.id (some (1, f.left ++ n :: f.right))) ⟨f.pre, f.val, .arc f.id⟩ fs

/-- … and the variable `r` holds the root again -/
def closeIn (s : St K V) (r : Nat) (n : Node K V) (fs : List (Frame K V)) : St K V :=
  { s with heap := (close s.heap n fs).1, regs := s.regs.set r (some (close s.heap n fs).2) }

/-- the same, starting with a node whose children are checked out -/
def closeOwn (s : St K V) (r : Nat) (p : List K) (v : Option V) (id : Nat) (ns : List (Node K V)) (fs : List (Frame K V)) : St K V :=
  closeIn { s with heap := s.heap.set id (some (1, ns)) } r ⟨p, v, .arc id⟩ fs

/-- the call cannot go on -/
def faulty (s : St K V) : St K V × Phase K V × Option (Obs K V) := (s, .fault, none)
/-- the call goes on -/
def goOn (s : St K V) (p : Phase K V) : St K V × Phase K V × Option (Obs K V) := (s, p, none)
/-- the call is complete -/
def complete (s : St K V) (o : Obs K V) : St K V × Phase K V × Option (Obs K V) := (s, .idle, some o)

/-- the first step of a call -/
def startStep (s : St K V) (c : Call K V) : St K V × Phase K V × Option (Obs K V) :=
  match c with
  | .default dst =>
    match s.static with
    | some e => complete { s with heap := s.heap.inc e, regs := s.regs.set dst (some ⟨[], none, .arc e⟩) } .ok
    | none => complete { s with regs := s.regs.set dst (some ⟨[], none, .raw []⟩) } .ok
  | .new p v children dst =>
    match takeRegs s.regs children with
    | none => faulty s
    | some (ns, regs) =>
      complete { s with heap := (wrap s.static s.heap ns).1, regs := regs.set dst (some ⟨p, v, (wrap s.static s.heap ns).2⟩) } .ok
  | .load t dst => complete { s with regs := s.regs.set dst (some (rawNode t)) } .ok
  | .clone l _ | .look l => goOn s (.read c (.reg l.reg) l.path)
  | .drop r =>
    match s.regs[r]? with
    | some (some n) => goOn { s with regs := s.regs.set r none } (.drop c [n])
    | _ => faulty s
  | .setVal l _ | .setPre l _ | .swap l _ | .insertKid l _ _ | .removeKid l _ _ =>
    match s.regs[l.reg]? with
    | some (some n) => goOn { s with regs := s.regs.set l.reg none } (.mut c [] l.path n)
    | _ => faulty s

/-- a step on the way through shared references -/
def readStep (s : St K V) (c : Call K V) (σ : Site) (rest : List Nat) : St K V × Phase K V × Option (Obs K V) :=
  match s.node σ with
  | none => faulty s
  | some n =>
    match rest, n.kids with
    | _ :: _, .raw _ => goOn (s.force σ) (.read c σ rest)
    | i :: is, .arc id =>
      match s.heap.cell id with
      | none => faulty s
      | some (_, ns) => if i < ns.length then goOn s (.read c (.elem id i) is) else complete s .bad
    | [], k =>
      match c with
      | .clone _ dst =>
        match cloneStep s.heap n with
        | none => faulty s
        | some h => complete { s with heap := h, regs := s.regs.set dst (some n) } .ok
      | .look _ =>
        match k with
        | .raw _ => goOn (s.force σ) (.read c σ [])
        | .arc id =>
          match s.heap.cell id with
          | none => faulty s
          | some (_, ns) => complete s (.seen n.pre n.val ns.length)
      | _ => faulty s

/-- `Arc::make_mut` for the children of `cur`: the uniqueness check; for children that are not loaded, `Lazy::get_mut` (lazy_radix_tree.rs:105-107) loads them -/
def makeMut (s : St K V) (c : Call K V) (fs : List (Frame K V)) (rest : List Nat) (cur : Node K V) : St K V × Phase K V × Option (Obs K V) :=
  match cur.kids with
  | .raw ts => goOn { s with heap := { s.heap with next := s.heap.next + 1 } } (.own c fs rest cur.pre cur.val s.heap.next (ts.map rawNode) [])
  | .arc id =>
    match s.heap.cell id with
    | none => faulty s
    | some (r, ns) =>
      if r = 1 then goOn { s with heap := s.heap.set id none } (.own c fs rest cur.pre cur.val id ns [])
      else goOn s (.copy c fs rest cur [])

/-- a step at the node `cur`, which is exclusively borrowed -/
def mutStep (s : St K V) (c : Call K V) (fs : List (Frame K V)) (rest : List Nat) (cur : Node K V) : St K V × Phase K V × Option (Obs K V) :=
  match rest, c with
  | [], .setVal l v => complete (closeIn s l.reg { cur with val := v } fs) .ok
  | [], .setPre l p => complete (closeIn s l.reg { cur with pre := p } fs) .ok
  | [], .swap l r =>
    match s.regs[r]? with
    | some (some m) => complete (closeIn { s with regs := s.regs.set r (some cur) } l.reg m fs) .ok
    | _ => faulty s
  | _, _ => makeMut s c fs rest cur

/-- a step of the copying loop in `Arc::make_mut` (`Vec::clone`); when it is finished, the copy is the new child vector, and the old one is dropped -/
def copyStep (s : St K V) (c : Call K V) (fs : List (Frame K V)) (rest : List Nat) (cur : Node K V) (clones : List (Node K V)) :
    St K V × Phase K V × Option (Obs K V) :=
  match cur.kids with
  | .raw _ => faulty s
  | .arc id =>
    match s.heap.cell id with
    | none => faulty s
    | some (_, ns) =>
      match ns[clones.length]? with
      | some n => match cloneStep s.heap n with | none => faulty s | some h => goOn { s with heap := h } (.copy c fs rest cur (clones ++ [n]))
      | none =>
        goOn { s with heap := { s.heap with next := s.heap.next + 1 } } (.own c fs rest cur.pre cur.val s.heap.next clones [⟨[], none, .arc id⟩])

/-- a step with the children `ns` of a node checked out -/
def ownStep (s : St K V) (c : Call K V) (fs : List (Frame K V)) (rest : List Nat) (p : List K) (v : Option V) (id : Nat) (ns work : List (Node K V)) :
    St K V × Phase K V × Option (Obs K V) :=
  match work with
  | w :: ws =>
    match dropStep s.heap w with
    | none => faulty s
    | some (h, more) => goOn { s with heap := h } (.own c fs rest p v id ns (more ++ ws))
  | [] =>
    match rest, c with
    | i :: is, .setVal l _ | i :: is, .setPre l _ | i :: is, .swap l _ | i :: is, .insertKid l _ _ | i :: is, .removeKid l _ _ =>
      match ns[i]? with
      | some n => goOn s (.mut c (⟨p, v, id, ns.take i, ns.drop (i + 1)⟩ :: fs) is n)
      | none => complete (closeOwn s l.reg p v id ns fs) .bad
    | [], .insertKid l i r =>
      match s.regs[r]? with
      | some (some m) =>
        if i ≤ ns.length then complete (closeOwn { s with regs := s.regs.set r none } l.reg p v id (ns.take i ++ m :: ns.drop i) fs) .ok
        else complete (closeOwn s l.reg p v id ns fs) .bad
      | _ => faulty s
    | [], .removeKid l i dst =>
      match ns[i]? with
      | some m => complete (closeOwn { s with regs := s.regs.set dst (some m) } l.reg p v id (ns.take i ++ ns.drop (i + 1)) fs) .ok
      | none => complete (closeOwn s l.reg p v id ns fs) .bad
    | _, _ => faulty s

/-- a step of dropping a variable -/
def dropVarStep (s : St K V) (c : Call K V) (work : List (Node K V)) : St K V × Phase K V × Option (Obs K V) :=
  match work with
  | [] => complete s .ok
  | w :: ws =>
    match dropStep s.heap w with
    | none => faulty s
    | some (h, more) => goOn { s with heap := h } (.drop c (more ++ ws))

/-- one step of a thread; the observation is there if the step completes the call -/
def microStep (s : St K V) : Phase K V → St K V × Phase K V × Option (Obs K V)
  | .idle => goOn s .idle
  | .fault => faulty s
  | .start c => startStep s c
  | .read c σ rest => readStep s c σ rest
  | .mut c fs rest cur => mutStep s c fs rest cur
  | .copy c fs rest cur clones => copyStep s c fs rest cur clones
  | .own c fs rest p v id ns work => ownStep s c fs rest p v id ns work
  | .drop c work => dropVarStep s c work

/-- The state of the whole program: memory, what every thread is doing, and the completed calls (thread, call, observation) in the order of
their completion. -/
structure State (K V : Type _) where
  st : St K V
  threads : List (Phase K V)
  log : List (Nat × Call K V × Obs K V)

/-- is there a tree in variable `r`? (`none`: there is no such variable) -/
def isFull (regs : List (Option (Node K V))) (r : Nat) : Option Bool :=
  match regs[r]? with | some (some _) => some true | some none => some false | none => none

/-- what the compiler checks: the arguments are there, no variable is moved out of twice, and the variable for the result is empty -/
def ready (regs : List (Option (Node K V))) (c : Call K V) : Prop :=
  (∀ x ∈ c.full, isFull regs x = some true) ∧ (∀ x ∈ c.empty, isFull regs x = some false) ∧ c.full.Nodup

instance (regs : List (Option (Node K V))) (c : Call K V) : Decidable (ready regs c) := inferInstanceAs (Decidable (_ ∧ _ ∧ _))

/-- all calls that are under way are compatible with `c` -/
def allowed (threads : List (Phase K V)) (c : Call K V) : Prop := ∀ ph ∈ threads, ∀ d ∈ ph.call, c.compatible d

instance (threads : List (Phase K V)) (c : Call K V) : Decidable (allowed threads c) := inferInstanceAs (Decidable (∀ ph ∈ threads, _))

/-- what the scheduler can do next: let an idle thread begin a call, or let a thread make a step -/
inductive Move (K V : Type _) where
  | call (t : Nat) (c : Call K V)
  | step (t : Nat)

/-- one move; a call that Rust's rules do not allow at this moment does not begin -/
def State.move (w : State K V) : Move K V → State K V
  | .call t c =>
    match w.threads[t]? with
    | some .idle => if ready w.st.regs c ∧ allowed w.threads c then { w with threads := w.threads.set t (.start c) } else w
    | _ => w
  | .step t =>
    match w.threads[t]? with
    | none => w
    | some ph =>
      match microStep w.st ph with
      | (s, ph', none) => { w with st := s, threads := w.threads.set t ph' }
      | (s, ph', some o) =>
        { st := s, threads := w.threads.set t ph', log := w.log ++ (match ph.call with | some c => [(t, c, o)] | none => []) }

/-- a schedule -/
def State.run (w : State K V) : List (Move K V) → State K V
  | [] => w
  | m :: ms => (w.move m).run ms

/-- `nt` threads and `nv` variables, all empty (`arc`: the `ArcRadixTree` flavour, otherwise `LazyRadixTree`) -/
def State.start (arc : Bool) (nt nv : Nat) : State K V :=
  { st := { St.start arc with regs := List.replicate nv none }, threads := List.replicate nt .idle, log := [] }

/-! ## what can be said about a state -/

/-- The `nv` variables, if the completed calls had been executed one after the other, each in one go, on plain trees. -/
def State.replay (w : State K V) (nv : Nat) : Vars K V := (Call.onAll (List.replicate nv none) (w.log.map (·.2.1))).1
/-- what the calls would have observed then -/
def State.replayObs (w : State K V) (nv : Nat) : List (Obs K V) := (Call.onAll (List.replicate nv none) (w.log.map (·.2.1))).2
/-- the nodes a thread holds, in local variables or in vectors that are checked out -/
def Phase.holds : Phase K V → List (Node K V)
  | .idle | .start _ | .read _ _ _ | .fault => []
  | .mut _ fs _ cur => cur :: fs.flatMap fun f => f.left ++ f.right
  | .copy _ fs _ cur clones => cur :: (clones ++ fs.flatMap fun f => f.left ++ f.right)
  | .own _ fs _ _ _ _ ns work => work ++ (ns ++ fs.flatMap fun f => f.left ++ f.right)
  | .drop _ work => work
/-- the addresses of the vectors that are checked out, that is, to which the thread has exclusive access -/
def Phase.owns : Phase K V → List Nat
  | .idle | .start _ | .read _ _ _ | .fault | .drop _ _ => []
  | .mut _ fs _ _ | .copy _ fs _ _ _ => fs.map Frame.id
  | .own _ fs _ _ _ id _ _ => id :: fs.map Frame.id
/-- a call that is under way has the variable for itself -/
def State.inUse (w : State K V) (x : Nat) : Prop := ∃ ph ∈ w.threads, ∃ c, ph.call = some c ∧ x ∈ c.excl
/-- the call that begins with this move, if one does -/
def State.begins (w : State K V) (t : Nat) : Move K V → List (Call K V)
  | .call u c =>
    match w.threads[u]? with
    | some .idle => if u = t ∧ ready w.st.regs c ∧ allowed w.threads c then [c] else []
    | _ => []
  | .step _ => []
/-- all calls that thread `t` begins -/
def State.begun (w : State K V) (t : Nat) : List (Move K V) → List (Call K V)
  | [] => []
  | m :: ms => w.begins t m ++ (w.move m).begun t ms
/-- the completed calls of thread `t` -/
def State.done (w : State K V) (t : Nat) : List (Call K V) := (w.log.filter (·.1 = t)).map (·.2.1)
/-- the call of thread `t` that is under way -/
def State.current (w : State K V) (t : Nat) : List (Call K V) := match w.threads[t]? with | some ph => ph.call.toList | none => []
/-- a step of thread `t` -/
def Move.isStep (t : Nat) : Move K V → Bool
  | .step u => u == t
  | .call _ _ => false

end Verif.Threads
