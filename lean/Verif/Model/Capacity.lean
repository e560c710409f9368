import Verif.Model.InPlaceBuilder
import Verif.Model.Dedup
/-!
# Model of the capacity of the `SmallVec` behind a `VecSet` or `VecMap`

`VecSet<[T; N]>` and `VecMap<[(K, V); N]>` are wrappers around one `SmallVec` (vec_set.rs:107, vec_map.rs:134), which stores up to `N` elements inline and
otherwise owns one heap buffer. Its capacity is `N` while it is inline and that of the buffer, which is larger than `N`, otherwise; it is
changed by allocating, reallocating or freeing a buffer and by nothing else. So "does not allocate" is "the capacity stays `N`" (for a vector that was inline before).

`smallvec` is a dependency and not in /repo; the functions of the first section write down its documented growth policy (to the next
power of two). Elements of size zero, whose capacity is unlimited, and a length that overflows `usize` are not modelled. The functions after that add the capacity to
the model of the crate's own functions.
-/
namespace Verif

/-! ### `SmallVec` (dependency) -/

/-- `usize::next_power_of_two` -/
def nextPow2 (n : Nat) : Nat := if n ≤ 1 then 1 else 2 ^ (Nat.log2 (n - 1) + 1)

/-- `SmallVec::reserve(n)` (called at merge_state.rs:380, 391 and inside `push`, `insert`, `extend`): the new capacity of a vector of capacity `cap` and length `len` -/
def reserveCap (cap len n : Nat) : Nat := if len + n ≤ cap then cap else nextPow2 (len + n)

/-- `SmallVec::with_capacity(n)` (dedup.rs:65, vec_set.rs:615, vec_map.rs:819) -/
def withCap (N n : Nat) : Nat := if n ≤ N then N else n

/-- `SmallVec::shrink_to_fit` (vec_set.rs:285-287, 497): back to inline storage if the elements fit, otherwise to an exact heap buffer -/
def shrinkCap (N cap len : Nat) : Nat := if cap ≤ N then cap else if len ≤ N then N else len

/-- `k` calls of `push` on a vector of length `len` -/
def pushesCap : Nat → Nat → Nat → Nat
  | cap, _, 0 => cap
  | cap, len, k + 1 => pushesCap (reserveCap cap len 1) (len + 1) k

/-! ### Merging into a new vector -/

/-- `SmallVecMergeState` (merge_state.rs:327-332) together with the capacity of its result vector -/
structure CapMS (A B R : Type _) where
  base : SliceMS A B R
  cap : Nat

instance {A B R : Type _} : MergeState (CapMS A B R) A B where
  aSlice s := s.base.a
  bSlice s := s.base.b

/-- the result vector was extended by single `push`es, starting from capacity `cap` -/
def CapMS.pushed {A B R : Type _} (cap : Nat) (s : SliceMS A B R) (r : SliceMS A B R × Flow) : CapMS A B R × Flow :=
  ({ base := r.1, cap := pushesCap cap s.r.length (r.1.r.length - s.r.length) }, r.2)

/-- `MergeStateMut for SmallVecMergeState` (merge_state.rs:375-400): `reserve(n)` before the elements are pushed -/
def CapMS.mut {A B R : Type _} (ca : A → Call R) (cb : B → Call R) : MergeStateMut (CapMS A B R) where
  advanceA s n take := CapMS.pushed (if take then reserveCap s.cap s.base.r.length n else s.cap) s.base ((SliceMS.mut ca cb).advanceA s.base n take)
  advanceB s n take := CapMS.pushed (if take then reserveCap s.cap s.base.r.length n else s.cap) s.base ((SliceMS.mut ca cb).advanceB s.base n take)

/-- the by-reference map joins push every entry of the result by itself (`m.r.push(..)`, vec_map.rs:288, 299, 310, 416, 430, 492, 502, 568) -/
def CapMS.tracked {A B R : Type _} (o : MergeOp (SliceMS A B R) A B) : MergeOp (CapMS A B R) A B where
  cmp := o.cmp
  fromA s n := CapMS.pushed s.cap s.base (o.fromA s.base n)
  fromB s n := CapMS.pushed s.cap s.base (o.fromB s.base n)
  collision s := CapMS.pushed s.cap s.base (o.collision s.base)

/-- `SmallVecMergeState::merge` (merge_state.rs:354-359): the result vector starts as `SmallVec::new()` -/
def CapMS.merge {A B R : Type _} (N : Nat) (a : List A) (b : List B) (o : MergeOp (CapMS A B R) A B) : List R × Nat × Flow :=
  match mergeAll o { base := { a := a, b := b, r := [] }, cap := N } with
  | (s, fl) => (s.base.r, s.cap, fl)

/-! ### Merging in place -/

/-- what `v.reserve(n)`, called by the in-place builder on a vector of capacity `cap` of which `m - n` elements are in use, adds beyond those `n`. The builder uses the
whole capacity afterwards (`Builder.reserve`), so `cap` can be the capacity at the start of the merge. -/
def growTo (cap : Nat) (m : Nat) : Nat := (if m ≤ cap then cap else nextPow2 m) - m

/-- capacity of the left vector after an in-place merge (merge_state.rs:76-81, 150-160): that of the buffer the builder ended up with -/
def mergedCap {A B : Type _} (cap : Nat) (o : MergeOp (SlotMS A B) A B) (a : List A) (b : List B) : Nat :=
  max cap (mergeAll o (SlotMS.new a b)).1.bld.slots.length

/-! ### Collecting -/

/-- `push` of `SortAndDedup` (dedup.rs:161-200) with the capacity of the buffer: `self.data.push(elem)` in every case except `Equal`; `sort_and_dedup` truncates, which keeps the capacity -/
def dedupPushCap {α : Type _} (cmp : α → α → Ordering) (keep : Keep) (st : SortAndDedup α × Nat) (x : α) : SortAndDedup α × Nat :=
  (st.1.push cmp keep x, pushesCap st.2 st.1.data.length ((st.1.pushElem cmp keep x).data.length - st.1.data.length))

/-- capacity of the buffer when `sort_dedup_by` (dedup.rs:108-123) returns; `hint` is the lower bound of the iterator's `size_hint` -/
def sortDedupCap {α : Type _} (cmp : α → α → Ordering) (keep : Keep) (N hint : Nat) (iter : List α) : Nat :=
  (iter.foldl (dedupPushCap cmp keep) ({ data := [], sorted := 0 }, withCap N (min hint 16))).2

namespace VecSet
variable {T : Type _} [Ord T]

/-- the largest capacity while collecting (vec_set.rs:495-496); capacities only grow until `shrink_to_fit` -/
def fromIterPeakCap (N hint : Nat) (l : List T) : Nat := sortDedupCap compare .first N hint l
/-- capacity of the collected set (`FromIterator`, vec_set.rs:494-500) -/
def fromIterCap (N hint : Nat) (l : List T) : Nat := shrinkCap N (fromIterPeakCap N hint l) (fromIter l).len
/-- `single` (vec_set.rs:263-267) -/
def singleCap (N : Nat) : Nat := reserveCap N 0 1
/-- `from_vec` (vec_set.rs:344-349): `SmallVec::from_vec` keeps the buffer of a vector of capacity `vcap`, unless that fits inline -/
def fromVecCap (N vcap : Nat) : Nat := withCap N vcap
/-- `From<BTreeSet>` (vec_set.rs:480-484), `clone` (225-229): collecting from an iterator of known length -/
def exactCap (N len : Nat) : Nat := reserveCap N 0 len
/-! The operations by reference, into a set with inline capacity `N`: elements, capacity and flow -/

/-- `union`, `|` (vec_set.rs:146-156, 389-394) -/
def unionCap (N : Nat) (a b : VecSet T) : List T × Nat × Flow := CapMS.merge N a.elems b.elems (setUnionOp (CapMS.mut cloneConverter cloneConverter))
/-- `intersection`, `&` (vec_set.rs:158-168, 382-387) -/
def intersectionCap (N : Nat) (a b : VecSet T) : List T × Nat × Flow := CapMS.merge N a.elems b.elems (setIntersectionOp (CapMS.mut cloneConverter cloneConverter))
/-- `symmetric_difference`, `^` (vec_set.rs:170-180, 396-401) -/
def symmetricDifferenceCap (N : Nat) (a b : VecSet T) : List T × Nat × Flow := CapMS.merge N a.elems b.elems (setXorOp (CapMS.mut cloneConverter cloneConverter))
/-- `difference`, `-` (vec_set.rs:182-192, 403-408) -/
def differenceCap (N : Nat) (a b : VecSet T) : List T × Nat × Flow := CapMS.merge N a.elems b.elems (setDiffOp (CapMS.mut cloneConverter cloneConverter))

/-! The assigning operators on a left set of capacity `cap`: its capacity afterwards. `conv` is `idConverter` for an owned right side, `cloneConverter` for a
borrowed one. -/

/-- `&=` (vec_set.rs:410-427) -/
def bitandAssignCap (conv : T → Call T) (cap : Nat) (a b : VecSet T) : Nat := mergedCap cap (setIntersectionOp (SlotMS.mut (growTo cap) conv)) a.elems b.elems
/-- `|=` (vec_set.rs:429-439) -/
def bitorAssignCap (conv : T → Call T) (cap : Nat) (a b : VecSet T) : Nat := mergedCap cap (setUnionOp (SlotMS.mut (growTo cap) conv)) a.elems b.elems
/-- `^=` (vec_set.rs:441-453) -/
def bitxorAssignCap (conv : T → Call T) (cap : Nat) (a b : VecSet T) : Nat := mergedCap cap (setXorOp (SlotMS.mut (growTo cap) conv)) a.elems b.elems
/-- `-=` (vec_set.rs:455-465) -/
def subAssignCap (conv : T → Call T) (cap : Nat) (a b : VecSet T) : Nat := mergedCap cap (setDiffOp (SlotMS.mut (growTo cap) conv)) a.elems b.elems
/-- `Extend` (vec_set.rs:502-506): collect, then `|=` -/
def extendCap (cap : Nat) (a : VecSet T) (l : List T) : Nat := bitorAssignCap idConverter cap a (fromIter l)

/-- `insert` (vec_set.rs:306-317) -/
def insertCap (s : VecSet T) (cap : Nat) (x : T) : Nat :=
  match binarySearchBy (fun e => compare e x) s.elems with
  | .found _ => cap
  | .notFound _ => reserveCap cap s.len 1
/-- `visit_seq` (vec_set.rs:610-623): `with_capacity(size_hint)`, then one `push` per element received -/
def visitSeqCap (N : Nat) (hint : Option Nat) (received : Nat) : Nat := pushesCap (withCap N (hint.getD 0)) 0 received

end VecSet

namespace VecMap
variable {K V : Type _} [Ord K]

section joins
variable {W R : Type _}

/-- `outer_join` (vec_map.rs:61-73), into a map with inline capacity `N` -/
def outerJoinCap (N : Nat) (a : VecMap K V) (b : VecMap K W) (f : OuterJoinArg K V W → Call (Option R)) : List (K × R) × Nat × Flow :=
  CapMS.merge N a.entries b.entries (CapMS.tracked (outerJoinOp f))
/-- `left_join` (vec_map.rs:75-87) -/
def leftJoinCap (N : Nat) (a : VecMap K V) (b : VecMap K W) (f : K → V → Option W → Call (Option R)) : List (K × R) × Nat × Flow :=
  CapMS.merge N a.entries b.entries (CapMS.tracked (leftJoinOp f))
/-- `right_join` (vec_map.rs:89-101) -/
def rightJoinCap (N : Nat) (a : VecMap K V) (b : VecMap K W) (f : K → Option V → W → Call (Option R)) : List (K × R) × Nat × Flow :=
  CapMS.merge N a.entries b.entries (CapMS.tracked (rightJoinOp f))
/-- `inner_join` (vec_map.rs:103-115) -/
def innerJoinCap (N : Nat) (a : VecMap K V) (b : VecMap K W) (f : K → V → W → Call (Option R)) : List (K × R) × Nat × Flow :=
  CapMS.merge N a.entries b.entries (CapMS.tracked (innerJoinOp f))

/-- `outer_join_with` (vec_map.rs:716-727), on a left map of capacity `cap` -/
def outerJoinWithCap (cap : Nat) (a : VecMap K V) (b : VecMap K W) (f : OuterJoinArg K V W → Call (Option V)) : Nat :=
  mergedCap cap (slotOuterJoinOp (growTo cap) f) a.entries b.entries
/-- `left_join_with` (vec_map.rs:690-701) -/
def leftJoinWithCap (cap : Nat) (a : VecMap K V) (b : VecMap K W) (f : K → V → Option W → Call (Option V)) : Nat :=
  mergedCap cap (slotLeftJoinOp (growTo cap) f) a.entries b.entries
/-- `right_join_with` (vec_map.rs:703-714) -/
def rightJoinWithCap (cap : Nat) (a : VecMap K V) (b : VecMap K W) (f : K → Option V → W → Call (Option V)) : Nat :=
  mergedCap cap (slotRightJoinOp (growTo cap) f) a.entries b.entries
/-- `inner_join_with` (vec_map.rs:677-688) -/
def innerJoinWithCap (cap : Nat) (a : VecMap K V) (b : VecMap K W) (f : K → V → W → Call (Option V)) : Nat :=
  mergedCap cap (slotInnerJoinOp (growTo cap) f) a.entries b.entries

end joins

/-- `combine_with` (vec_map.rs:737-754) -/
def combineWithCap (cap : Nat) (a b : VecMap K V) (f : V → V → Call V) : Nat :=
  outerJoinWithCap cap a b (fun
    | .left _ v => .ret (some v)
    | .right _ w => .ret (some w)
    | .both _ v w => match f v w with
      | .ret r => .ret (some r)
      | .panic => .panic)
/-- `merge_with` (vec_map.rs:731-733) -/
def mergeWithCap (cap : Nat) (a b : VecMap K V) : Nat := combineWithCap cap a b (fun _ r => .ret r)
/-- `Extend` (vec_map.rs:255-259) -/
def extendCap (cap : Nat) (a : VecMap K V) (l : List (K × V)) : Nat := mergeWithCap cap a (fromIter l)

/-- `FromIterator` (vec_map.rs:243-247): no `shrink_to_fit` -/
def fromIterCap (N hint : Nat) (l : List (K × V)) : Nat := sortDedupCap (fun a b : K × V => compare a.1 b.1) .last N hint l
/-- `insert` (vec_map.rs:663-676) -/
def insertCap (m : VecMap K V) (cap : Nat) (key : K) : Nat :=
  match binarySearchBy (fun e => compare e.1 key) m.entries with
  | .found _ => cap
  | .notFound _ => reserveCap cap m.len 1
/-- `map_values` (vec_map.rs:608-615), `From<BTreeMap>` (249-253): collecting from an iterator of known length -/
def exactCap (N len : Nat) : Nat := reserveCap N 0 len
/-- `visit_map` (vec_map.rs:817-827) -/
def visitMapCap (N : Nat) (hint : Option Nat) (received : Nat) : Nat := pushesCap (withCap N (hint.getD 0)) 0 received

end VecMap
end Verif
