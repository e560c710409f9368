import Verif.Model.MergeDriver
/-!
# Model of /repo/src/merge_state.rs and /repo/src/iterators.rs

Slices, `Vec` and `SmallVec` are `List`s. `SliceIterator` (iterators.rs:51-81) is the list of the elements it has not
yet yielded.
-/
namespace Verif

/-! ### Converters (merge_state.rs:295-324) -/

/-- `NoConverter::convert` panics (merge_state.rs:302-306) -/
def noConverter {B A : Type _} : B → Call A := fun _ => .panic
/-- `CloneConverter::convert` (merge_state.rs:311-315); `Clone` yields an equal value -/
def cloneConverter {A : Type _} : A → Call A := fun x => .ret x
/-- `IdConverter::convert` (merge_state.rs:320-324) -/
def idConverter {A : Type _} : A → Call A := fun x => .ret x

/-! ### Merging into a new vector: `SmallVecMergeState` (merge_state.rs:326-400) and `VecMergeState` (402-482) -/

/-- `SmallVecMergeState { a, b, r }` (merge_state.rs:327-332) and `VecMergeState` (403-408): two slice iterators and a result
vector. The marker types become the converter arguments of `SliceMS.mut`. -/
structure SliceMS (A B R : Type _) where
  a : List A
  b : List B
  r : List R

instance {A B R : Type _} : MergeState (SliceMS A B R) A B where
  aSlice s := s.a
  bSlice s := s.b

/-- `for e in slice.iter() { r.push(C::convert(e)) }` (merge_state.rs:381-383, 392-394, 463-465, 474-476) -/
def pushAll {A R : Type _} (conv : A → Call R) : List R → List A → List R × Flow
  | r, [] => (r, .cont)
  | r, x :: xs =>
    match conv x with
    | .panic => (r, .panic)
    | .ret y => pushAll conv (r ++ [y]) xs

/-- `MergeStateMut for SmallVecMergeState` (merge_state.rs:375-400, `ca` = clone) and `for VecMergeState` (457-482).
`take_front`/`drop_front` (iterators.rs:72-80) panic when `n` exceeds the remaining length. -/
def SliceMS.mut {A B R : Type _} (ca : A → Call R) (cb : B → Call R) :
    MergeStateMut (SliceMS A B R) where
  advanceA s n take :=
    if s.a.length < n then (s, .panic)
    else if take then
      let (r, fl) := pushAll ca s.r (s.a.take n)
      ({ s with a := s.a.drop n, r := r }, fl)
    else ({ s with a := s.a.drop n }, .cont)
  advanceB s n take :=
    if s.b.length < n then (s, .panic)
    else if take then
      let (r, fl) := pushAll cb s.r (s.b.take n)
      ({ s with b := s.b.drop n, r := r }, fl)
    else ({ s with b := s.b.drop n }, .cont)

/-! ### Merging in place: `InPlaceMergeState` (23-81), `InPlaceSmallVecMergeStateRef` (83-160), `InPlaceVecMergeStateRef` (162-224) -/

/-- The three in-place merge states. `tgt` and `src` are the target and source parts of the `inplace-vec-builder` that
wraps the vector `a` (between them there may be a gap; slot-level model: `Verif/Model/InPlaceBuilder.lean`, refinement: C57); `b` holds the elements not yet
yielded by the right hand iterator (`smallvec::IntoIter` or `SliceIterator`). -/
structure InPlaceMS (A B : Type _) where
  tgt : List A
  src : List A
  b : List B

instance {A B : Type _} : MergeState (InPlaceMS A B) A B where
  aSlice s := s.src
  bSlice s := s.b

/-- inplace-vec-builder `consume(n, take)`: moves (or drops) up to `n` source elements -/
def InPlaceMS.consume {A B : Type _} (s : InPlaceMS A B) (n : Nat) (take : Bool) : InPlaceMS A B :=
  let n := min n s.src.length
  if take then { s with tgt := s.tgt ++ s.src.take n, src := s.src.drop n }
  else { s with src := s.src.drop n }

/-- inplace-vec-builder `extend_from_iter(iter, n)` with `iter = b.map(C::convert)` (merge_state.rs:66,129,200) -/
def InPlaceMS.extendFromIter {A B : Type _} (conv : B → Call A) :
    InPlaceMS A B → Nat → InPlaceMS A B × Flow
  | s, 0 => (s, .cont)
  | s, n + 1 =>
    match s.b with
    | [] => (s, .cont)
    | x :: xs =>
      match conv x with
      | .panic => ({ s with b := xs }, .panic)
      | .ret y => extendFromIter conv { s with tgt := s.tgt ++ [y], b := xs } n

/-- `for _ in 0..n { let _ = self.b.next(); }` (merge_state.rs:68-70, 131-133, 202-204) -/
def InPlaceMS.skipB {A B : Type _} : InPlaceMS A B → Nat → InPlaceMS A B
  | s, 0 => s
  | s, n + 1 => skipB { s with b := s.b.tail } n

/-- `MergeStateMut for InPlaceMergeState` (merge_state.rs:57-74), `InPlaceSmallVecMergeStateRef` (118-137),
`InPlaceVecMergeStateRef` (190-208) -/
def InPlaceMS.mut {A B : Type _} (conv : B → Call A) : MergeStateMut (InPlaceMS A B) where
  advanceA s n take := (s.consume n take, .cont)
  advanceB s n take := if take then s.extendFromIter conv n else (s.skipB n, .cont)

/-- `InPlace…::merge(a, b, o, c)` (merge_state.rs:76-81, 150-160, 219-224): wrap `a` in a builder, merge, drop the builder, which
drops what is left of the source and truncates to the target. The `Flow` tells whether the merge panicked; the drop
runs during unwinding as well. -/
def InPlaceMS.merge {A B : Type _} (a : List A) (b : List B) (o : MergeOp (InPlaceMS A B) A B) :
    List A × Flow :=
  let r := mergeAll o { tgt := [], src := a, b := b }
  (r.1.tgt, r.2)

/-- `SmallVecMergeState::merge` (merge_state.rs:354-359), `VecMergeState::merge` (432-443). On a panic the result is dropped; the
list is still returned here so that the caller decides. -/
def SliceMS.merge {A B R : Type _} (a : List A) (b : List B) (o : MergeOp (SliceMS A B R) A B) :
    List R × Flow :=
  let r := mergeAll o { a := a, b := b, r := [] }
  (r.1.r, r.2)

/-! ### Boolean merge: `BoolOpMergeState` (merge_state.rs:226-293) -/

/-- `BoolOpMergeState { a, b, r }` (merge_state.rs:227-231) -/
structure BoolMS (A B : Type _) where
  a : List A
  b : List B
  r : Bool

instance {A B : Type _} : MergeState (BoolMS A B) A B where
  aSlice s := s.a
  bSlice s := s.b

/-- `MergeStateMut for BoolOpMergeState` (merge_state.rs:274-293) -/
def BoolMS.mut {A B : Type _} : MergeStateMut (BoolMS A B) where
  advanceA s n take :=
    if take then ({ s with r := true }, .stop)
    else if s.a.length < n then (s, .panic)
    else ({ s with a := s.a.drop n }, .cont)
  advanceB s n take :=
    if take then ({ s with r := true }, .stop)
    else if s.b.length < n then (s, .panic)
    else ({ s with b := s.b.drop n }, .cont)

/-- `BoolOpMergeState::merge` (merge_state.rs:256-260); the `Flow` is only used to show absence of panics -/
def BoolMS.merge {A B : Type _} (a : List A) (b : List B) (o : MergeOp (BoolMS A B) A B) :
    Bool × Flow :=
  let r := mergeAll o { a := a, b := b, r := false }
  (r.1.r, r.2)

end Verif
