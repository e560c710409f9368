import Verif.Model.TotalVecMap
/-!
# The joins of /repo/src/vec_map.rs and the combinators of /repo/src/total_vec_map.rs for closures with side effects

`Verif/Model/VecMap.lean` models a closure as a function of its arguments. Here a closure also has a state `S` that every call may
read and change (`F: Fn`/`FnMut` capturing a `Cell`, a counter, a log, ...), so that the order and the number of the calls matter. The
merge states, the driver and the layout of the operations are the same; only the closure's state is carried along.
-/
namespace Verif

/-- the closure's state travels beside the merge state -/
instance {σ S A B : Type _} [MergeState σ A B] : MergeState (σ × S) A B where
  aSlice s := MergeState.aSlice s.1
  bSlice s := MergeState.bSlice s.1

/-- `if let Some(res) = f(..) { push((k, res)) }`: attach the key to what the closure answered (vec_map.rs:286-290 and the other
callback bodies) -/
def keyed {K R S : Type _} (k : K) (r : Call (Option R) × S) : Call (Option (K × R)) × S := (r.1.withKey k, r.2)

/-- the callback loop over `m.a` (vec_map.rs:283-293, 412-421) -/
def SliceMS.loopAE {A B R S : Type _} (g : A → S → Call (Option R) × S) : SliceMS A B R × S → Nat → (SliceMS A B R × S) × Flow
  | s, 0 => (s, .cont)
  | s, n + 1 =>
    match s.1.a with
    | [] => loopAE g s n
    | x :: as =>
      match g x s.2 with
      | (.panic, c) => (({ s.1 with a := as }, c), .panic)
      | (.ret o, c) => loopAE g ({ s.1 with a := as, r := s.1.r ++ o.toList }, c) n

/-- the callback loop over `m.b` (vec_map.rs:294-304, 488-497) -/
def SliceMS.loopBE {A B R S : Type _} (g : B → S → Call (Option R) × S) : SliceMS A B R × S → Nat → (SliceMS A B R × S) × Flow
  | s, 0 => (s, .cont)
  | s, n + 1 =>
    match s.1.b with
    | [] => loopBE g s n
    | x :: bs =>
      match g x s.2 with
      | (.panic, c) => (({ s.1 with b := bs }, c), .panic)
      | (.ret o, c) => loopBE g ({ s.1 with b := bs, r := s.1.r ++ o.toList }, c) n

/-- the `collision` bodies (vec_map.rs:305-315, 426-435, 498-507, 564-573) -/
def SliceMS.bothE {A B R S : Type _} (g : A → B → S → Call (Option R) × S) (s : SliceMS A B R × S) : (SliceMS A B R × S) × Flow :=
  match s.1.a with
  | [] => (s, .cont)
  | x :: as =>
    match s.1.b with
    | [] => (({ s.1 with a := as }, s.2), .cont)
    | y :: bs =>
      match g x y s.2 with
      | (.panic, c) => (({ s.1 with a := as, b := bs }, c), .panic)
      | (.ret o, c) => (({ a := as, b := bs, r := s.1.r ++ o.toList }, c), .cont)

/-- a callback that does not call the closure leaves its state alone -/
def quiet {σ S : Type _} (k : σ → σ × Flow) (s : σ × S) : (σ × S) × Flow := (((k s.1).1, s.2), (k s.1).2)

/-- the in-place callback loop over the source (vec_map.rs:328-337, 370-379, 448-457) -/
def InPlaceMS.loopAE {A B S : Type _} (g : A → S → Call (Option A) × S) : InPlaceMS A B × S → Nat → (InPlaceMS A B × S) × Flow
  | s, 0 => (s, .cont)
  | s, n + 1 =>
    match s.1.src with
    | [] => loopAE g s n
    | x :: as =>
      match g x s.2 with
      | (.panic, c) => (({ s.1 with src := as }, c), .panic)
      | (.ret o, c) => loopAE g ({ s.1 with src := as, tgt := s.1.tgt ++ o.toList }, c) n

/-- the in-place callback loop over `m.b` (vec_map.rs:338-347, 380-389, 524-533) -/
def InPlaceMS.loopBE {A B S : Type _} (g : B → S → Call (Option A) × S) : InPlaceMS A B × S → Nat → (InPlaceMS A B × S) × Flow
  | s, 0 => (s, .cont)
  | s, n + 1 =>
    match s.1.b with
    | [] => loopBE g s n
    | x :: bs =>
      match g x s.2 with
      | (.panic, c) => (({ s.1 with b := bs }, c), .panic)
      | (.ret o, c) => loopBE g ({ s.1 with b := bs, tgt := s.1.tgt ++ o.toList }, c) n

/-- the in-place `collision` bodies (vec_map.rs:348-357, 390-399, 462-471, 534-543, 594-603) -/
def InPlaceMS.bothE {A B S : Type _} (g : A → B → S → Call (Option A) × S) (s : InPlaceMS A B × S) : (InPlaceMS A B × S) × Flow :=
  match s.1.src with
  | [] => (s, .cont)
  | x :: as =>
    match s.1.b with
    | [] => (({ s.1 with src := as }, s.2), .cont)
    | y :: bs =>
      match g x y s.2 with
      | (.panic, c) => (({ s.1 with src := as, b := bs }, c), .panic)
      | (.ret o, c) => (({ src := as, b := bs, tgt := s.1.tgt ++ o.toList }, c), .cont)

/-! ### The join operations -/
section joins
variable {K V W R S : Type _} [Ord K]

/-- `OuterJoinOp` for `SmallVecMergeState` (vec_map.rs:273-316) -/
def outerJoinOpE (f : OuterJoinArg K V W → S → Call (Option R) × S) :
    MergeOp (SliceMS (K × V) (K × W) (K × R) × S) (K × V) (K × W) where
  cmp a b := compare a.1 b.1
  fromA s n := SliceMS.loopAE (fun x c => keyed x.1 (f (.left x.1 x.2) c)) s n
  fromB s n := SliceMS.loopBE (fun y c => keyed y.1 (f (.right y.1 y.2) c)) s n
  collision s := SliceMS.bothE (fun x y c => keyed x.1 (f (.both x.1 x.2 y.2) c)) s

/-- `LeftJoinOp` for `SmallVecMergeState` (vec_map.rs:402-436) -/
def leftJoinOpE (f : K × V × Option W → S → Call (Option R) × S) :
    MergeOp (SliceMS (K × V) (K × W) (K × R) × S) (K × V) (K × W) where
  cmp a b := compare a.1 b.1
  fromA s n := SliceMS.loopAE (fun x c => keyed x.1 (f (x.1, x.2, none) c)) s n
  fromB s n := quiet (fun m => m.dropB n) s
  collision s := SliceMS.bothE (fun x y c => keyed x.1 (f (x.1, x.2, some y.2) c)) s

/-- `RightJoinOp` for `SmallVecMergeState` (vec_map.rs:474-508) -/
def rightJoinOpE (f : K × Option V × W → S → Call (Option R) × S) :
    MergeOp (SliceMS (K × V) (K × W) (K × R) × S) (K × V) (K × W) where
  cmp a b := compare a.1 b.1
  fromA s n := quiet (fun m => m.dropA n) s
  fromB s n := SliceMS.loopBE (fun y c => keyed y.1 (f (y.1, none, y.2) c)) s n
  collision s := SliceMS.bothE (fun x y c => keyed x.1 (f (x.1, some x.2, y.2) c)) s

/-- `InnerJoinOp` for `SmallVecMergeState` (vec_map.rs:546-574) -/
def innerJoinOpE (f : K × V × W → S → Call (Option R) × S) :
    MergeOp (SliceMS (K × V) (K × W) (K × R) × S) (K × V) (K × W) where
  cmp a b := compare a.1 b.1
  fromA s n := quiet (fun m => m.dropA n) s
  fromB s n := quiet (fun m => m.dropB n) s
  collision s := SliceMS.bothE (fun x y c => keyed x.1 (f (x.1, x.2, y.2) c)) s

/-- `OuterJoinOp` for `InPlaceSmallVecMergeStateRef` (vec_map.rs:318-358) and for `InPlaceMergeState` (360-400) -/
def outerJoinWithOpE (f : OuterJoinArg K V W → S → Call (Option V) × S) :
    MergeOp (InPlaceMS (K × V) (K × W) × S) (K × V) (K × W) where
  cmp a b := compare a.1 b.1
  fromA s n := InPlaceMS.loopAE (fun x c => keyed x.1 (f (.left x.1 x.2) c)) s n
  fromB s n := InPlaceMS.loopBE (fun y c => keyed y.1 (f (.right y.1 y.2) c)) s n
  collision s := InPlaceMS.bothE (fun x y c => keyed x.1 (f (.both x.1 x.2 y.2) c)) s

/-- `LeftJoinOp` for `InPlaceSmallVecMergeStateRef` (vec_map.rs:438-472) -/
def leftJoinWithOpE (f : K × V × Option W → S → Call (Option V) × S) :
    MergeOp (InPlaceMS (K × V) (K × W) × S) (K × V) (K × W) where
  cmp a b := compare a.1 b.1
  fromA s n := InPlaceMS.loopAE (fun x c => keyed x.1 (f (x.1, x.2, none) c)) s n
  fromB s n := quiet (fun m => m.dropB n) s
  collision s := InPlaceMS.bothE (fun x y c => keyed x.1 (f (x.1, x.2, some y.2) c)) s

/-- `RightJoinOp` for `InPlaceSmallVecMergeStateRef` (vec_map.rs:510-544) -/
def rightJoinWithOpE (f : K × Option V × W → S → Call (Option V) × S) :
    MergeOp (InPlaceMS (K × V) (K × W) × S) (K × V) (K × W) where
  cmp a b := compare a.1 b.1
  fromA s n := quiet (fun m => (m.consume n false, .cont)) s
  fromB s n := InPlaceMS.loopBE (fun y c => keyed y.1 (f (y.1, none, y.2) c)) s n
  collision s := InPlaceMS.bothE (fun x y c => keyed x.1 (f (x.1, some x.2, y.2) c)) s

/-- `InnerJoinOp` for `InPlaceSmallVecMergeStateRef` (vec_map.rs:576-604) -/
def innerJoinWithOpE (f : K × V × W → S → Call (Option V) × S) :
    MergeOp (InPlaceMS (K × V) (K × W) × S) (K × V) (K × W) where
  cmp a b := compare a.1 b.1
  fromA s n := quiet (fun m => (m.consume n false, .cont)) s
  fromB s n := quiet (fun m => m.dropB n) s
  collision s := InPlaceMS.bothE (fun x y c => keyed x.1 (f (x.1, x.2, y.2) c)) s

end joins

/-- `SmallVecMergeState::merge` (merge_state.rs:354-359): the result vector, the closure's state, how it ended -/
def SliceMS.mergeE {A B R S : Type _} (a : List A) (b : List B) (o : MergeOp (SliceMS A B R × S) A B) (c : S) : List R × S × Flow :=
  match mergeAll o ({ a := a, b := b, r := [] }, c) with
  | (s, fl) => (s.1.r, s.2, fl)

/-- `InPlace…::merge` (merge_state.rs:76-81, 150-160): the vector afterwards (also after a panic), the closure's state, how it ended -/
def InPlaceMS.mergeE {A B S : Type _} (a : List A) (b : List B) (o : MergeOp (InPlaceMS A B × S) A B) (c : S) : List A × S × Flow :=
  match mergeAll o ({ tgt := [], src := a, b := b }, c) with
  | (s, fl) => (s.1.tgt, s.2, fl)

namespace VecMap
variable {K V W R S : Type _} [Ord K]

/-- `outer_join` (vec_map.rs:61-73) -/
def outerJoinE (a : VecMap K V) (b : VecMap K W) (f : OuterJoinArg K V W → S → Call (Option R) × S) (c : S) : VecMap K R × S × Flow :=
  match SliceMS.mergeE a.entries b.entries (outerJoinOpE f) c with
  | (r, c, fl) => (⟨r⟩, c, fl)
/-- `left_join` (vec_map.rs:75-87) -/
def leftJoinE (a : VecMap K V) (b : VecMap K W) (f : K × V × Option W → S → Call (Option R) × S) (c : S) : VecMap K R × S × Flow :=
  match SliceMS.mergeE a.entries b.entries (leftJoinOpE f) c with
  | (r, c, fl) => (⟨r⟩, c, fl)
/-- `right_join` (vec_map.rs:89-101) -/
def rightJoinE (a : VecMap K V) (b : VecMap K W) (f : K × Option V × W → S → Call (Option R) × S) (c : S) : VecMap K R × S × Flow :=
  match SliceMS.mergeE a.entries b.entries (rightJoinOpE f) c with
  | (r, c, fl) => (⟨r⟩, c, fl)
/-- `inner_join` (vec_map.rs:103-115) -/
def innerJoinE (a : VecMap K V) (b : VecMap K W) (f : K × V × W → S → Call (Option R) × S) (c : S) : VecMap K R × S × Flow :=
  match SliceMS.mergeE a.entries b.entries (innerJoinOpE f) c with
  | (r, c, fl) => (⟨r⟩, c, fl)
/-- `outer_join_with` (vec_map.rs:716-727) -/
def outerJoinWithE (a : VecMap K V) (b : VecMap K W) (f : OuterJoinArg K V W → S → Call (Option V) × S) (c : S) :
    VecMap K V × S × Flow :=
  match InPlaceMS.mergeE a.entries b.entries (outerJoinWithOpE f) c with
  | (r, c, fl) => (⟨r⟩, c, fl)
/-- `left_join_with` (vec_map.rs:690-701) -/
def leftJoinWithE (a : VecMap K V) (b : VecMap K W) (f : K × V × Option W → S → Call (Option V) × S) (c : S) :
    VecMap K V × S × Flow :=
  match InPlaceMS.mergeE a.entries b.entries (leftJoinWithOpE f) c with
  | (r, c, fl) => (⟨r⟩, c, fl)
/-- `right_join_with` (vec_map.rs:703-714) -/
def rightJoinWithE (a : VecMap K V) (b : VecMap K W) (f : K × Option V × W → S → Call (Option V) × S) (c : S) :
    VecMap K V × S × Flow :=
  match InPlaceMS.mergeE a.entries b.entries (rightJoinWithOpE f) c with
  | (r, c, fl) => (⟨r⟩, c, fl)
/-- `inner_join_with` (vec_map.rs:677-688) -/
def innerJoinWithE (a : VecMap K V) (b : VecMap K W) (f : K × V × W → S → Call (Option V) × S) (c : S) : VecMap K V × S × Flow :=
  match InPlaceMS.mergeE a.entries b.entries (innerJoinWithOpE f) c with
  | (r, c, fl) => (⟨r⟩, c, fl)

/-- wrap the answer in `Some` (vec_map.rs:745) -/
def someOf {R S : Type _} : Call R × S → Call (Option R) × S
  | (.panic, c) => (.panic, c)
  | (.ret r, c) => (.ret (some r), c)

/-- the closure that `combine_with` hands to the join (vec_map.rs:745-750): only collisions reach the user's closure -/
def combineArgE (f : V × V → S → Call V × S) : OuterJoinArg K V V → S → Call (Option V) × S
  | .left _ v, c => (.ret (some v), c)
  | .right _ w, c => (.ret (some w), c)
  | .both _ v w, c => someOf (f (v, w) c)

/-- `combine_with` (vec_map.rs:737-754) -/
def combineWithE (a b : VecMap K V) (f : V × V → S → Call V × S) (c : S) : VecMap K V × S × Flow :=
  a.outerJoinWithE b (combineArgE f) c

/-- the `map(..).collect()` of `map_values` (vec_map.rs:608-615): the entries done so far, the closure's state, how it ended. A panic drops
the entries. -/
def mapEntriesE (f : V → S → Call R × S) : List (K × V) → S → List (K × R) × S × Flow
  | [], c => ([], c, .cont)
  | e :: es, c =>
    match f e.2 c with
    | (.panic, c) => ([], c, .panic)
    | (.ret r, c) => ((e.1, r) :: (mapEntriesE f es c).1, (mapEntriesE f es c).2)
/-- `map_values` (vec_map.rs:608-615) -/
def mapValuesE (m : VecMap K V) (f : V → S → Call R × S) (c : S) : VecMap K R × S × Flow :=
  match mapEntriesE f m.entries c with
  | (r, c, fl) => (⟨r⟩, c, fl)

end VecMap

namespace TotalVecMap
variable {K V W S : Type _} [Ord K]

/-- `if r != r_default { Some(r) } else { None }` (total_vec_map.rs:221-225) -/
def unlessDefault [BEq W] (d : W) : Call W × S → Call (Option W) × S
  | (.panic, c) => (.panic, c)
  | (.ret r, c) => (.ret (if r != d then some r else none), c)

/-- the closure that `combine_ref` hands to the join (total_vec_map.rs:215-226) -/
def combineArgE [BEq V] (da db rd : V) (f : V × V → S → Call V × S) : OuterJoinArg K V V → S → Call (Option V) × S
  | .left _ v, c => unlessDefault rd (f (v, db) c)
  | .right _ w, c => unlessDefault rd (f (da, w) c)
  | .both _ v w, c => unlessDefault rd (f (v, w) c)

/-- `combine_ref` (total_vec_map.rs:213-229): the defaults first, then the entries; no result after a panic -/
def combineRefE [BEq V] (a b : TotalVecMap K V) (f : V × V → S → Call V × S) (c : S) : Call (TotalVecMap K V) × S :=
  match f (a.default, b.default) c with
  | (.panic, c) => (.panic, c)
  | (.ret rd, c) =>
    match a.map.outerJoinE b.map (combineArgE a.default b.default rd f) c with
    | (_, c, .panic) => (.panic, c)
    | (m, c, _) => (.ret ⟨m, rd⟩, c)

/-- the `filter_map(..).collect()` of `map_values` (total_vec_map.rs:247-258) -/
def mapEntriesE [BEq W] (f : V → S → Call W × S) (d : W) : List (K × V) → S → List (K × W) × S × Flow
  | [], c => ([], c, .cont)
  | e :: es, c =>
    match f e.2 c with
    | (.panic, c) => ([], c, .panic)
    | (.ret w, c) =>
      if w != d then ((e.1, w) :: (mapEntriesE f d es c).1, (mapEntriesE f d es c).2) else mapEntriesE f d es c
/-- `map_values` (total_vec_map.rs:242-260): the default first -/
def mapValuesE [BEq W] (m : TotalVecMap K V) (f : V → S → Call W × S) (c : S) : Call (TotalVecMap K W) × S :=
  match f m.default c with
  | (.panic, c) => (.panic, c)
  | (.ret d, c) =>
    match mapEntriesE f d m.map.entries c with
    | (_, c, .panic) => (.panic, c)
    | (r, c, _) => (.ret ⟨⟨r⟩, d⟩, c)

end TotalVecMap
end Verif
