/-!
# Specification of a lazily initialised cell, as a property of observable histories

A history is the list of observable events in the order they happened. The specification is the sequential one: a cell
holds either its raw input (`raw a`) or the computed value (`made b`).
-/
namespace Verif.LazyCell

/-- what a cell holds: the raw input, or the value made from it -/
inductive Content (A B : Type) where
  | raw (a : A)
  | made (b : B)
deriving DecidableEq, Repr

/-- the operations of the shared (`&self`) interface -/
inductive Call (A B : Type) where
  | get
  | getOrCreate (f : A → Option B)
  | clone

/-- Observable events. `t` is a thread, `c` a cell. `f a = none` stands for an initialiser that panics. -/
inductive Event (A B : Type) where
  /-- thread `t` calls an operation on cell `c` -/
  | called (t c : Nat) (op : Call A B)
  /-- the initialiser `f` passed by `t` is started on the raw input `a` of `c` -/
  | initStarted (t c : Nat) (f : A → Option B) (a : A)
  /-- the value `b` made by the initialiser of `t` is stored in `c` -/
  | stored (t c : Nat) (b : B)
  /-- the initialiser passed by `t` panicked and the call unwound -/
  | initPanicked (t c : Nat)
  /-- `get` returned -/
  | gotten (t c : Nat) (r : Option B)
  /-- `get_or_create` returned a reference to `b` -/
  | created (t c : Nat) (b : B)
  /-- `get_or_create` hit its own `panic!()` -/
  | crashed (t c : Nat)
  /-- `clone` returned the new cell `c'` holding `d` -/
  | cloned (t c c' : Nat) (d : Content A B)
  /-- a reference into `c`, which `t` was told points to `b` when it obtained it, is dereferenced and finds `d` -/
  | deref (t c : Nat) (b : B) (d : Content A B)
  /-- exclusive (`&mut`) access: `get_or_create_mut` with initialiser `f`, after which the owner leaves value `b` -/
  | mutated (t c : Nat) (b : B)

/-- the thread an event belongs to -/
def Event.thread {A B : Type} : Event A B → Nat
  | .called t _ _ | .initStarted t _ _ _ | .stored t _ _ | .initPanicked t _ | .gotten t _ _ | .created t _ _
  | .crashed t _ | .cloned t _ _ _ | .deref t _ _ _ | .mutated t _ _ => t

/-- The content of cell `c` after a history (**newest event first**), starting from contents `init`. -/
def contentAt {A B : Type} (init : Nat → Content A B) : List (Event A B) → Nat → Content A B
  | [], c => init c
  | .stored _ c' b :: h, c => if c' = c then .made b else contentAt init h c
  | .mutated _ c' b :: h, c => if c' = c then .made b else contentAt init h c
  | .cloned _ _ c' d :: h, c => if c' = c then d else contentAt init h c
  | .called _ _ _ :: h, c | .initStarted _ _ _ _ :: h, c | .initPanicked _ _ :: h, c | .gotten _ _ _ :: h, c
  | .created _ _ _ :: h, c | .crashed _ _ :: h, c | .deref _ _ _ _ :: h, c => contentAt init h c

/-- how often a value was stored in `c` by an initialiser -/
def storeCount {A B : Type} (c : Nat) : List (Event A B) → Nat
  | [] => 0
  | .stored _ c' _ :: h => (if c' = c then 1 else 0) + storeCount c h
  | _ :: h => storeCount c h

/-- how often an initialiser was started on `c` -/
def startCount {A B : Type} (c : Nat) : List (Event A B) → Nat
  | [] => 0
  | .initStarted _ c' _ _ :: h => (if c' = c then 1 else 0) + startCount c h
  | _ :: h => startCount c h

/-- how often an initialiser panicked on `c` -/
def panicCount {A B : Type} (c : Nat) : List (Event A B) → Nat
  | [] => 0
  | .initPanicked _ c' :: h => (if c' = c then 1 else 0) + panicCount c h
  | _ :: h => panicCount c h

/-- The last call made by thread `t` before this point was `op` on `c`, and `before` is the history up to that call. -/
def LastCall {A B : Type} (h : List (Event A B)) (t c : Nat) (op : Call A B) (before : List (Event A B)) : Prop :=
  ∃ mid, h = mid ++ .called t c op :: before ∧ ∀ c' op', .called t c' op' ∉ mid

/-- What each event is allowed to look like after the history `h`: the sequential meaning of the interface. -/
def Allowed {A B : Type} (init : Nat → Content A B) (h : List (Event A B)) : Event A B → Prop
  | .called _ _ _ => True
  /- an initialiser only ever starts on a cell that still holds its raw input, and on that input -/
  | .initStarted t c f a => contentAt init h c = .raw a ∧ ∃ h', LastCall h t c (.getOrCreate f) h'
  /- what is stored was made from the raw input by the function the caller passed -/
  | .stored t c b => ∃ f a h', contentAt init h c = .raw a ∧ f a = some b ∧ LastCall h t c (.getOrCreate f) h'
  | .initPanicked t c => ∃ f a h', contentAt init h c = .raw a ∧ f a = none ∧ LastCall h t c (.getOrCreate f) h'
  /- `get` may only answer "not there" if the cell was still raw when `get` was called … -/
  | .gotten t c none => ∃ a h', LastCall h t c .get h' ∧ contentAt init h' c = .raw a
  /- … and if it answers with a value, this is the current one -/
  | .gotten t c (some b) => contentAt init h c = .made b ∧ ∃ h', LastCall h t c .get h'
  | .created t c b => contentAt init h c = .made b ∧ ∃ f h', LastCall h t c (.getOrCreate f) h'
  /- `get_or_create` never reaches its own `panic!()` -/
  | .crashed _ _ => False
  /- a clone holds what the original holds -/
  | .cloned t c _ d => contentAt init h c = d ∧ ∃ h', LastCall h t c .clone h'
  /- references stay valid: they point to the value they were handed out for -/
  | .deref _ _ b d => d = .made b
  | .mutated _ _ _ => True

/-- every event of the history is allowed at the point where it happened (newest event first) -/
def Legal {A B : Type} (init : Nat → Content A B) : List (Event A B) → Prop
  | [] => True
  | e :: h => Allowed init h e ∧ Legal init h

/-- the value a content stands for if `f` is used to initialise it -/
def Content.value {A B : Type} (f : A → Option B) : Content A B → Option B
  | .raw a => f a
  | .made b => some b

end Verif.LazyCell
