import Verif.Model.VecMap
/-!
# Slot-level model of the in-place builder behind /repo/src/merge_state.rs

`InPlaceMergeState`, `InPlaceSmallVecMergeStateRef` and `InPlaceVecMergeStateRef` (merge_state.rs:23-224) keep the left input
and the result in one buffer, through the dependency `inplace-vec-builder` (`InPlaceSmallVecBuilder`, `InPlaceVecBuilder`). That
crate's source is not in /repo; this file writes down the algorithm it documents: a target part `[0, t1)`, a gap `[t1, s0)` of
logically uninitialised slots, and a source part `[s0, len)`.

A slot is `some x` while it owns the value `x` and `none` while it is logically uninitialised. Every unsafe primitive checks what it
relies on and raises the ghost flag `fault` otherwise: reading, moving or dropping a slot that owns nothing, overwriting a
slot that owns something (a leak), and touching a slot outside the buffer. The ghost list `drops` records every destructor call.
-/
namespace Verif

/-- `InPlaceVecBuilder { v, t1, s0 }` / `InPlaceSmallVecBuilder` (used at merge_state.rs:29, 90, 165) -/
structure Builder (α : Type _) where
  slots : List (Option α)
  t1 : Nat
  s0 : Nat
  /-- ghost: destructor calls made so far, in order -/
  drops : List α
  /-- ghost: an unsafe primitive was misused -/
  fault : Bool

namespace Builder
variable {α : Type _}

/-- `From<&mut Vec<T>>` / `From<&mut SmallVec<A>>` (`a.into()`, merge_state.rs:37, 98, 173): everything is source -/
def new (v : List α) : Builder α := { slots := v.map some, t1 := 0, s0 := 0, drops := [], fault := false }

/-- `source_slice()` (merge_state.rs:50, 111, 183) -/
def sourceSlice (b : Builder α) : List α := (b.slots.drop b.s0).filterMap id

/-- move the value out of slot `i` (`ptr::read`) -/
def moveOut (b : Builder α) (i : Nat) : Option α × Builder α :=
  match b.slots[i]? with
  | some (some x) => (some x, { b with slots := b.slots.set i none })
  | _ => (none, { b with fault := true })

/-- `ptr::write` of `x` into slot `i` -/
def write (b : Builder α) (i : Nat) (x : α) : Builder α :=
  match b.slots[i]? with
  | some none => { b with slots := b.slots.set i (some x) }
  | _ => { b with fault := true }

/-- `drop_in_place` of slot `i` -/
def dropAt (b : Builder α) (i : Nat) : Builder α :=
  match b.slots[i]? with
  | some (some x) => { b with slots := b.slots.set i none, drops := b.drops ++ [x] }
  | _ => { b with fault := true }

/-- `reserve(n)`: unless the gap already has room for `n`, let the vector grow (to a capacity of at least `len + n`; `pol` is the
allocator's choice of what to add on top) and move the source to the very end of the new buffer -/
def reserve (pol : Nat → Nat) (b : Builder α) (n : Nat) : Builder α :=
  if b.t1 + n > b.s0 then
    { b with
      slots := b.slots.take b.s0 ++ List.replicate (n + pol (b.slots.length + n)) none ++ b.slots.drop b.s0
      s0 := b.s0 + (n + pol (b.slots.length + n)) }
  else b

/-- `push_unsafe(x)`: write to the end of the target; the caller has reserved -/
def pushUnsafe (b : Builder α) (x : α) : Builder α :=
  if b.t1 < b.s0 then { b.write b.t1 x with t1 := b.t1 + 1 } else { b with fault := true }

/-- `push(x)` (vec_map.rs:332, 342, 352, 374, 384, 394, 452, 466, 528, 538, 598) -/
def push (pol : Nat → Nat) (b : Builder α) (x : α) : Builder α := (b.reserve pol 1).pushUnsafe x

/-- `pop_front()` (vec_map.rs:330, 349, 372, 391, 450, 463, 535, 595) -/
def popFront (b : Builder α) : Option α × Builder α :=
  if b.s0 < b.slots.length then
    let r := b.moveOut b.s0
    (r.1, { r.2 with s0 := b.s0 + 1 })
  else (none, b)

/-- one step of the overlapping `ptr::copy(s0, t1, n)` in `consume(n, true)`: as `t1 ≤ s0` it may go upwards. When source and
target touch there is nothing to move. -/
def takeOne (b : Builder α) : Builder α :=
  if b.t1 = b.s0 then { b with t1 := b.t1 + 1, s0 := b.s0 + 1 }
  else
    match b.moveOut b.s0 with
    | (some x, b') => { b'.write b'.t1 x with t1 := b.t1 + 1, s0 := b.s0 + 1 }
    | (none, b') => b'

/-- one step of the dropping loop in `consume(n, false)` -/
def dropOne (b : Builder α) : Builder α := { b.dropAt b.s0 with s0 := b.s0 + 1 }

/-- repeat a step `n` times -/
def iter (f : Builder α → Builder α) : Nat → Builder α → Builder α
  | 0, b => b
  | n + 1, b => iter f n (f b)

/-- `consume(n, take)` (merge_state.rs:61, 124, 195; vec_map.rs:521, 587): at most as many as there are -/
def consume (b : Builder α) (n : Nat) (take : Bool) : Builder α :=
  iter (if take then takeOne else dropOne) (min n (b.slots.length - b.s0)) b

/-- `Drop` of the builder: drop what is left of the source, then `set_len(t1)` -/
def finish (b : Builder α) : Builder α :=
  let b' := iter dropOne (b.slots.length - b.s0) b
  { b' with slots := b'.slots.take b'.t1 }

end Builder

/-- The in-place merge states (merge_state.rs:23-32, 84-94, 162-169) over the slot-level builder. `bdrops` is a ghost: the right
elements that have been dropped (skipped, or lost to a panicking converter). -/
structure SlotMS (A B : Type _) where
  bld : Builder A
  b : List B
  bdrops : List B

instance {A B : Type _} : MergeState (SlotMS A B) A B where
  aSlice s := s.bld.sourceSlice
  bSlice s := s.b

namespace SlotMS
variable {A B : Type _}

/-- the loop of `extend_from_iter(iter, n)` (merge_state.rs:66, 129, 200) after `reserve(n)` -/
def extendLoop (conv : B → Call A) : SlotMS A B → Nat → SlotMS A B × Flow
  | s, 0 => (s, .cont)
  | s, n + 1 =>
    match s.b with
    | [] => (s, .cont)
    | x :: xs =>
      match conv x with
      | .panic => ({ s with b := xs, bdrops := s.bdrops ++ [x] }, .panic)
      | .ret y => extendLoop conv { s with bld := s.bld.pushUnsafe y, b := xs } n

/-- `extend_from_iter(iter, n)` (merge_state.rs:66, 129, 200) -/
def extendFromIter (pol : Nat → Nat) (conv : B → Call A) (s : SlotMS A B) (n : Nat) : SlotMS A B × Flow :=
  if n = 0 then (s, .cont) else extendLoop conv { s with bld := s.bld.reserve pol n } n

/-- `for _ in 0..n { let _ = self.b.next(); }` (merge_state.rs:68-70, 131-133, 202-204) -/
def skipB : SlotMS A B → Nat → SlotMS A B
  | s, 0 => s
  | s, n + 1 => skipB { s with b := s.b.tail, bdrops := s.bdrops ++ s.b.take 1 } n

/-- `MergeStateMut` of the in-place states (merge_state.rs:57-74, 118-137, 190-208) -/
def «mut» (pol : Nat → Nat) (conv : B → Call A) : MergeStateMut (SlotMS A B) where
  advanceA s n take := ({ s with bld := s.bld.consume n take }, .cont)
  advanceB s n take := if take then s.extendFromIter pol conv n else (s.skipB n, .cont)

/-- `Self::new(a, b)` (merge_state.rs:35-41, 96-102, 171-177) -/
def new (a : List A) (b : List B) : SlotMS A B := { bld := Builder.new a, b := b, bdrops := [] }

/-- end of the merge (also by unwinding): the builder and the right iterator are dropped -/
def finish (s : SlotMS A B) : SlotMS A B := { bld := s.bld.finish, b := [], bdrops := s.bdrops ++ s.b }

/-- the vector left behind; only meaningful when every remaining slot owns a value -/
def result (s : SlotMS A B) : List A := s.bld.slots.filterMap id

/-! The callback bodies of the in-place map joins, over slots -/

/-- vec_map.rs:328-337, 370-379, 448-457 -/
def loopA (pol : Nat → Nat) (g : A → Call (Option A)) : SlotMS A B → Nat → SlotMS A B × Flow
  | s, 0 => (s, .cont)
  | s, n + 1 =>
    match s.bld.popFront with
    | (none, bld) => loopA pol g { s with bld := bld } n
    | (some x, bld) =>
      match g x with
      | .panic => ({ s with bld := bld }, .panic)
      | .ret none => loopA pol g { s with bld := bld } n
      | .ret (some y) => loopA pol g { s with bld := bld.push pol y } n

/-- vec_map.rs:338-347, 380-389, 524-533 -/
def loopB (pol : Nat → Nat) (g : B → Call (Option A)) : SlotMS A B → Nat → SlotMS A B × Flow
  | s, 0 => (s, .cont)
  | s, n + 1 =>
    match s.b with
    | [] => loopB pol g s n
    | x :: bs =>
      match g x with
      | .panic => ({ s with b := bs }, .panic)
      | .ret none => loopB pol g { s with b := bs } n
      | .ret (some y) => loopB pol g { s with b := bs, bld := s.bld.push pol y } n

/-- vec_map.rs:348-357, 390-399, 462-471, 534-543, 594-603 -/
def both (pol : Nat → Nat) (g : A → B → Call (Option A)) (s : SlotMS A B) : SlotMS A B × Flow :=
  match s.bld.popFront with
  | (none, bld) => ({ s with bld := bld }, .cont)
  | (some x, bld) =>
    match s.b with
    | [] => ({ s with bld := bld }, .cont)
    | y :: bs =>
      match g x y with
      | .panic => ({ s with bld := bld, b := bs }, .panic)
      | .ret none => ({ s with bld := bld, b := bs }, .cont)
      | .ret (some z) => ({ s with bld := bld.push pol z, b := bs }, .cont)

/-- `m.b.drop_front(n)` (vec_map.rs:459, 591) -/
def dropB (s : SlotMS A B) (n : Nat) : SlotMS A B × Flow :=
  if s.b.length < n then (s, .panic) else ({ s with b := s.b.drop n }, .cont)

end SlotMS

section joins
variable {K V W : Type _} [Ord K]

/-- `OuterJoinOp` in place (vec_map.rs:318-400) over slots -/
def slotOuterJoinOp (pol : Nat → Nat) (f : OuterJoinArg K V W → Call (Option V)) :
    MergeOp (SlotMS (K × V) (K × W)) (K × V) (K × W) where
  cmp a b := compare a.1 b.1
  fromA s n := s.loopA pol (fun x => (f (.left x.1 x.2)).withKey x.1) n
  fromB s n := s.loopB pol (fun y => (f (.right y.1 y.2)).withKey y.1) n
  collision s := s.both pol (fun x y => (f (.both x.1 x.2 y.2)).withKey x.1)

/-- `LeftJoinOp` in place (vec_map.rs:438-472) over slots -/
def slotLeftJoinOp (pol : Nat → Nat) (f : K → V → Option W → Call (Option V)) :
    MergeOp (SlotMS (K × V) (K × W)) (K × V) (K × W) where
  cmp a b := compare a.1 b.1
  fromA s n := s.loopA pol (fun x => (f x.1 x.2 none).withKey x.1) n
  fromB s n := s.dropB n
  collision s := s.both pol (fun x y => (f x.1 x.2 (some y.2)).withKey x.1)

/-- `RightJoinOp` in place (vec_map.rs:510-544) over slots -/
def slotRightJoinOp (pol : Nat → Nat) (f : K → Option V → W → Call (Option V)) :
    MergeOp (SlotMS (K × V) (K × W)) (K × V) (K × W) where
  cmp a b := compare a.1 b.1
  fromA s n := ({ s with bld := s.bld.consume n false }, .cont)
  fromB s n := s.loopB pol (fun y => (f y.1 none y.2).withKey y.1) n
  collision s := s.both pol (fun x y => (f x.1 (some x.2) y.2).withKey x.1)

/-- `InnerJoinOp` in place (vec_map.rs:576-604) over slots -/
def slotInnerJoinOp (pol : Nat → Nat) (f : K → V → W → Call (Option V)) :
    MergeOp (SlotMS (K × V) (K × W)) (K × V) (K × W) where
  cmp a b := compare a.1 b.1
  fromA s n := ({ s with bld := s.bld.consume n false }, .cont)
  fromB s n := s.dropB n
  collision s := s.both pol (fun x y => (f x.1 x.2 y.2).withKey x.1)

end joins
end Verif
