import Verif.Model.Effects
/-!
# Sets and maps whose elements or keys have an untrusted `Clone`

The operators on references clone the elements they put into the result (`CloneConverter`, merge_state.rs:311-315), the joins clone the keys. The other
models take for granted that a clone is equal to the original; here `clone` has a state `S` of its own (shared with the closure of a join), may return
anything, and may panic.
-/
namespace Verif

/-! ### Sets: the merge states with a converter that has effects -/
section states
variable {A B R S : Type _}

/-- `for e in slice.iter() { r.push(C::convert(e)) }` (merge_state.rs:381-383, 392-394) -/
def pushAllC (cl : A → S → Call R × S) : List R × S → List A → (List R × S) × Flow
  | r, [] => (r, .cont)
  | r, x :: xs =>
    match cl x r.2 with
    | (.panic, c) => ((r.1, c), .panic)
    | (.ret y, c) => pushAllC cl (r.1 ++ [y], c) xs

/-- `MergeStateMut for SmallVecMergeState` (merge_state.rs:375-400); `take_front` and `drop_front` panic when `n` exceeds the remaining length -/
def SliceMS.mutC (ca : A → S → Call R × S) (cb : B → S → Call R × S) : MergeStateMut (SliceMS A B R × S) where
  advanceA s n take :=
    if s.1.a.length < n then (s, .panic)
    else if take then
      match pushAllC ca (s.1.r, s.2) (s.1.a.take n) with
      | ((r, c), fl) => (({ s.1 with a := s.1.a.drop n, r := r }, c), fl)
    else (({ s.1 with a := s.1.a.drop n }, s.2), .cont)
  advanceB s n take :=
    if s.1.b.length < n then (s, .panic)
    else if take then
      match pushAllC cb (s.1.r, s.2) (s.1.b.take n) with
      | ((r, c), fl) => (({ s.1 with b := s.1.b.drop n, r := r }, c), fl)
    else (({ s.1 with b := s.1.b.drop n }, s.2), .cont)

/-- inplace-vec-builder `extend_from_iter(iter, n)` with `iter = b.map(C::convert)` (merge_state.rs:129) -/
def InPlaceMS.extendFromIterC (conv : B → S → Call A × S) : InPlaceMS A B × S → Nat → (InPlaceMS A B × S) × Flow
  | s, 0 => (s, .cont)
  | s, n + 1 =>
    match s.1.b with
    | [] => (s, .cont)
    | x :: xs =>
      match conv x s.2 with
      | (.panic, c) => (({ s.1 with b := xs }, c), .panic)
      | (.ret y, c) => extendFromIterC conv ({ s.1 with tgt := s.1.tgt ++ [y], b := xs }, c) n

/-- `MergeStateMut for InPlaceSmallVecMergeStateRef` (merge_state.rs:118-137) -/
def InPlaceMS.mutC (conv : B → S → Call A × S) : MergeStateMut (InPlaceMS A B × S) where
  advanceA s n take := ((s.1.consume n take, s.2), .cont)
  advanceB s n take := if take then extendFromIterC conv s n else ((s.1.skipB n, s.2), .cont)

/-- a function that returns a new vector: on a panic the vector is dropped -/
def resultC {X Y : Type _} (wrap : X → Y) : X × S × Flow → Call Y × S
  | (_, c, .panic) => (.panic, c)
  | (r, c, _) => (.ret (wrap r), c)

end states

namespace VecSet
variable {T S : Type _} [Ord T]

/-- `union`, `BitOr` on references (vec_set.rs:146-156, 389-394, 720-727) -/
def unionCl (a b : VecSet T) (cl : T → S → Call T × S) (c : S) : Call (VecSet T) × S :=
  resultC VecSet.mk (SliceMS.mergeE a.elems b.elems (setUnionOp (SliceMS.mutC cl cl)) c)
/-- `intersection`, `BitAnd` on references (vec_set.rs:158-168, 382-387, 729-736) -/
def intersectionCl (a b : VecSet T) (cl : T → S → Call T × S) (c : S) : Call (VecSet T) × S :=
  resultC VecSet.mk (SliceMS.mergeE a.elems b.elems (setIntersectionOp (SliceMS.mutC cl cl)) c)
/-- `symmetric_difference`, `BitXor` on references (vec_set.rs:170-180, 396-401, 738-745) -/
def symmetricDifferenceCl (a b : VecSet T) (cl : T → S → Call T × S) (c : S) : Call (VecSet T) × S :=
  resultC VecSet.mk (SliceMS.mergeE a.elems b.elems (setXorOp (SliceMS.mutC cl cl)) c)
/-- `difference`, `Sub` on references (vec_set.rs:182-192, 403-408, 747-754) -/
def differenceCl (a b : VecSet T) (cl : T → S → Call T × S) (c : S) : Call (VecSet T) × S :=
  resultC VecSet.mk (SliceMS.mergeE a.elems b.elems (setDiffOp (SliceMS.mutC cl cl)) c)

/-- wrap what an in-place merge leaves in the vector -/
def leaves : List T × S × Flow → VecSet T × S × Flow
  | (r, c, fl) => (⟨r⟩, c, fl)

/-- `BitAndAssign<&VecSet<B>>` (vec_set.rs:416-427); the set is the value of `self` afterwards, also after a panic -/
def bitandAssignRefCl (a b : VecSet T) (cl : T → S → Call T × S) (c : S) : VecSet T × S × Flow :=
  leaves (InPlaceMS.mergeE a.elems b.elems (setIntersectionOp (InPlaceMS.mutC cl)) c)
/-- `BitOrAssign<&VecSet<B>>` (vec_set.rs:435-439) -/
def bitorAssignRefCl (a b : VecSet T) (cl : T → S → Call T × S) (c : S) : VecSet T × S × Flow :=
  leaves (InPlaceMS.mergeE a.elems b.elems (setUnionOp (InPlaceMS.mutC cl)) c)
/-- `BitXorAssign<&VecSet<B>>` (vec_set.rs:447-453) -/
def bitxorAssignRefCl (a b : VecSet T) (cl : T → S → Call T × S) (c : S) : VecSet T × S × Flow :=
  leaves (InPlaceMS.mergeE a.elems b.elems (setXorOp (InPlaceMS.mutC cl)) c)
/-- `SubAssign<&VecSet<B>>` (vec_set.rs:461-465) -/
def subAssignRefCl (a b : VecSet T) (cl : T → S → Call T × S) (c : S) : VecSet T × S × Flow :=
  leaves (InPlaceMS.mergeE a.elems b.elems (setDiffOp (InPlaceMS.mutC cl)) c)

end VecSet

/-! ### Maps: the joins clone keys -/

/-- `if let Some(res) = f(..) { push((k.clone(), res)) }` (vec_map.rs:287-289, 298-300, 309-311, 341-343, 415-417, 429-431, 491-493, 501-503, 527-529,
567-569) -/
def cloneKeyed {K R S : Type _} (cl : K → S → Call K × S) (k : K) (r : Call (Option R) × S) : Call (Option (K × R)) × S :=
  match r with
  | (.panic, c) => (.panic, c)
  | (.ret none, c) => (.ret none, c)
  | (.ret (some x), c) =>
    match cl k c with
    | (.panic, c) => (.panic, c)
    | (.ret k, c) => (.ret (some (k, x)), c)

section joins
variable {K V W R S : Type _} [Ord K]

/-- `OuterJoinOp` for `SmallVecMergeState` (vec_map.rs:273-316) -/
def outerJoinOpCl (cl : K → S → Call K × S) (f : OuterJoinArg K V W → S → Call (Option R) × S) :
    MergeOp (SliceMS (K × V) (K × W) (K × R) × S) (K × V) (K × W) where
  cmp a b := compare a.1 b.1
  fromA s n := SliceMS.loopAE (fun x c => cloneKeyed cl x.1 (f (.left x.1 x.2) c)) s n
  fromB s n := SliceMS.loopBE (fun y c => cloneKeyed cl y.1 (f (.right y.1 y.2) c)) s n
  collision s := SliceMS.bothE (fun x y c => cloneKeyed cl x.1 (f (.both x.1 x.2 y.2) c)) s

/-- `LeftJoinOp` for `SmallVecMergeState` (vec_map.rs:402-436) -/
def leftJoinOpCl (cl : K → S → Call K × S) (f : K × V × Option W → S → Call (Option R) × S) :
    MergeOp (SliceMS (K × V) (K × W) (K × R) × S) (K × V) (K × W) where
  cmp a b := compare a.1 b.1
  fromA s n := SliceMS.loopAE (fun x c => cloneKeyed cl x.1 (f (x.1, x.2, none) c)) s n
  fromB s n := quiet (fun m => m.dropB n) s
  collision s := SliceMS.bothE (fun x y c => cloneKeyed cl x.1 (f (x.1, x.2, some y.2) c)) s

/-- `RightJoinOp` for `SmallVecMergeState` (vec_map.rs:474-508) -/
def rightJoinOpCl (cl : K → S → Call K × S) (f : K × Option V × W → S → Call (Option R) × S) :
    MergeOp (SliceMS (K × V) (K × W) (K × R) × S) (K × V) (K × W) where
  cmp a b := compare a.1 b.1
  fromA s n := quiet (fun m => m.dropA n) s
  fromB s n := SliceMS.loopBE (fun y c => cloneKeyed cl y.1 (f (y.1, none, y.2) c)) s n
  collision s := SliceMS.bothE (fun x y c => cloneKeyed cl x.1 (f (x.1, some x.2, y.2) c)) s

/-- `InnerJoinOp` for `SmallVecMergeState` (vec_map.rs:546-574) -/
def innerJoinOpCl (cl : K → S → Call K × S) (f : K × V × W → S → Call (Option R) × S) :
    MergeOp (SliceMS (K × V) (K × W) (K × R) × S) (K × V) (K × W) where
  cmp a b := compare a.1 b.1
  fromA s n := quiet (fun m => m.dropA n) s
  fromB s n := quiet (fun m => m.dropB n) s
  collision s := SliceMS.bothE (fun x y c => cloneKeyed cl x.1 (f (x.1, x.2, y.2) c)) s

/-- `OuterJoinOp` for `InPlaceSmallVecMergeStateRef` (vec_map.rs:318-358): only keys that come from the right are cloned -/
def outerJoinWithOpCl (cl : K → S → Call K × S) (f : OuterJoinArg K V W → S → Call (Option V) × S) :
    MergeOp (InPlaceMS (K × V) (K × W) × S) (K × V) (K × W) where
  cmp a b := compare a.1 b.1
  fromA s n := InPlaceMS.loopAE (fun x c => keyed x.1 (f (.left x.1 x.2) c)) s n
  fromB s n := InPlaceMS.loopBE (fun y c => cloneKeyed cl y.1 (f (.right y.1 y.2) c)) s n
  collision s := InPlaceMS.bothE (fun x y c => keyed x.1 (f (.both x.1 x.2 y.2) c)) s

/-- `RightJoinOp` for `InPlaceSmallVecMergeStateRef` (vec_map.rs:510-544) -/
def rightJoinWithOpCl (cl : K → S → Call K × S) (f : K × Option V × W → S → Call (Option V) × S) :
    MergeOp (InPlaceMS (K × V) (K × W) × S) (K × V) (K × W) where
  cmp a b := compare a.1 b.1
  fromA s n := quiet (fun m => (m.consume n false, .cont)) s
  fromB s n := InPlaceMS.loopBE (fun y c => cloneKeyed cl y.1 (f (y.1, none, y.2) c)) s n
  collision s := InPlaceMS.bothE (fun x y c => keyed x.1 (f (x.1, some x.2, y.2) c)) s

end joins

namespace VecMap
variable {K V W R S : Type _} [Ord K]

/-- `outer_join` (vec_map.rs:61-73) -/
def outerJoinCl (a : VecMap K V) (b : VecMap K W) (cl : K → S → Call K × S) (f : OuterJoinArg K V W → S → Call (Option R) × S) (c : S) :
    Call (VecMap K R) × S :=
  resultC VecMap.mk (SliceMS.mergeE a.entries b.entries (outerJoinOpCl cl f) c)
/-- `left_join` (vec_map.rs:75-87) -/
def leftJoinCl (a : VecMap K V) (b : VecMap K W) (cl : K → S → Call K × S) (f : K × V × Option W → S → Call (Option R) × S) (c : S) :
    Call (VecMap K R) × S :=
  resultC VecMap.mk (SliceMS.mergeE a.entries b.entries (leftJoinOpCl cl f) c)
/-- `right_join` (vec_map.rs:89-101) -/
def rightJoinCl (a : VecMap K V) (b : VecMap K W) (cl : K → S → Call K × S) (f : K × Option V × W → S → Call (Option R) × S) (c : S) :
    Call (VecMap K R) × S :=
  resultC VecMap.mk (SliceMS.mergeE a.entries b.entries (rightJoinOpCl cl f) c)
/-- `inner_join` (vec_map.rs:103-115) -/
def innerJoinCl (a : VecMap K V) (b : VecMap K W) (cl : K → S → Call K × S) (f : K × V × W → S → Call (Option R) × S) (c : S) :
    Call (VecMap K R) × S :=
  resultC VecMap.mk (SliceMS.mergeE a.entries b.entries (innerJoinOpCl cl f) c)

/-- wrap what an in-place merge leaves in the vector -/
def leaves : List (K × V) × S × Flow → VecMap K V × S × Flow
  | (r, c, fl) => (⟨r⟩, c, fl)

/-- `outer_join_with` (vec_map.rs:716-727) -/
def outerJoinWithCl (a : VecMap K V) (b : VecMap K W) (cl : K → S → Call K × S) (f : OuterJoinArg K V W → S → Call (Option V) × S) (c : S) :
    VecMap K V × S × Flow :=
  leaves (InPlaceMS.mergeE a.entries b.entries (outerJoinWithOpCl cl f) c)
/-- `right_join_with` (vec_map.rs:703-714). (`left_join_with` and `inner_join_with` clone nothing.) -/
def rightJoinWithCl (a : VecMap K V) (b : VecMap K W) (cl : K → S → Call K × S) (f : K × Option V × W → S → Call (Option V) × S) (c : S) :
    VecMap K V × S × Flow :=
  leaves (InPlaceMS.mergeE a.entries b.entries (rightJoinWithOpCl cl f) c)

end VecMap
end Verif
