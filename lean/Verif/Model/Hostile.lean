import Verif.Model.InPlaceBuilder
/-!
# The containers with a comparison function that obeys no law

`Ord` is implemented by the user. Nothing stops an implementation from answering inconsistently, from remembering earlier calls, or from
panicking; safe Rust then still has to be memory safe. This file is the code of `vec_set.rs`, `vec_map.rs`, `dedup.rs` and of the merge driver once more,
with the comparison as an arbitrary stateful function that may panic. Accesses that the real code does not check (`get_unchecked` in
std's `binary_search_by`) end in the outcome `fault` if they are out of bounds; accesses that are checked end in `panic`.
-/
namespace Verif
namespace Hostile

/-- How a computation that calls user code ends: with a value, by unwinding, or with undefined behaviour. -/
inductive Outcome (α : Type _) where
  | ret (x : α)
  | panic
  | fault
deriving DecidableEq, Repr

/-- A user supplied comparison with a state `W` of its own. It may answer anything, and it may panic. -/
abbrev Cmp (W A B : Type _) := A → B → W → Call Ordering × W

/-- a computation that may call the comparison -/
def M (W α : Type _) := W → Outcome α × W

instance {W : Type _} : Monad (M W) where
  pure x := fun w => (.ret x, w)
  bind x f := fun w =>
    match x w with
    | (.ret a, w') => f a w'
    | (.panic, w') => (.panic, w')
    | (.fault, w') => (.fault, w')

variable {W α : Type}

/-- call the user's function -/
def call (c : W → Call α × W) : M W α := fun w =>
  match c w with
  | (.ret o, w') => (.ret o, w')
  | (.panic, w') => (.panic, w')

/-- undefined behaviour -/
def M.fault : M W α := fun w => (.fault, w)
/-- a panic of a checked access -/
def M.panic : M W α := fun w => (.panic, w)

/-- `slice.get_unchecked(i)` -/
def getUnchecked (l : List α) (i : Nat) : M W α :=
  match l[i]? with
  | some x => pure x
  | none => M.fault

/-- the loop of std's `binary_search_by`, as `bsLoop` in `Model/Std.lean` -/
def bsLoop (f : α → M W Ordering) (l : List α) (base size : Nat) : M W Nat :=
  if _h : size > 1 then do
    let x ← getUnchecked l (base + size / 2)
    let o ← f x
    bsLoop f l (if o = .gt then base else base + size / 2) (size - size / 2)
  else pure base
termination_by size

/-- std's `binary_search_by`, as `binarySearchBy` in `Model/Std.lean` -/
def binarySearchBy (f : α → M W Ordering) (l : List α) : M W SearchResult :=
  if l.length = 0 then pure (.notFound 0)
  else do
    let base ← bsLoop f l 0 l.length
    let x ← getUnchecked l base
    match ← f x with
    | .eq => pure (.found base)
    | .lt => pure (.notFound (base + 1))
    | .gt => pure (.notFound base)

/-! ### Lookups, insertion, removal. A `&mut self` method returns the value of `self` afterwards together with the outcome. -/

/-- the rest of a `&mut self` method after the search; the search does not change `self` -/
def afterSearch {S R : Type} (s : S) (search : M W SearchResult) (k : SearchResult → S × Outcome R) (w : W) : (S × Outcome R) × W :=
  match search w with
  | (.ret r, w') => (k r, w')
  | (.panic, w') => ((s, .panic), w')
  | (.fault, w') => ((s, .fault), w')

/-- `AbstractVecSet::contains` (vec_set.rs:123-125) -/
def contains (cmp : Cmp W α α) (s : VecSet α) (x : α) : M W Bool := do
  match ← binarySearchBy (fun e => call (cmp e x)) s.elems with
  | .found _ => pure true
  | .notFound _ => pure false

/-- `insert` (vec_set.rs:306-317): `self.0[index] = that` panics out of bounds, `SmallVec::insert` as well -/
def insert (cmp : Cmp W α α) (s : VecSet α) (x : α) (w : W) : (VecSet α × Outcome Bool) × W :=
  afterSearch s (binarySearchBy (fun e => call (cmp e x)) s.elems)
    (fun
      | .found i => if i < s.elems.length then (⟨s.elems.set i x⟩, .ret false) else (s, .panic)
      | .notFound i => if i ≤ s.elems.length then (⟨s.elems.insertIdx i x⟩, .ret true) else (s, .panic)) w

/-- `remove` (vec_set.rs:323-330): `SmallVec::remove` panics out of bounds -/
def remove (cmp : Cmp W α α) (s : VecSet α) (x : α) (w : W) : (VecSet α × Outcome Bool) × W :=
  afterSearch s (binarySearchBy (fun e => call (cmp e x)) s.elems)
    (fun
      | .found i => if i < s.elems.length then (⟨s.elems.eraseIdx i⟩, .ret true) else (s, .panic)
      | .notFound _ => (s, .ret false)) w

section map
variable {K V : Type}

/-- `AbstractVecMap::get` (vec_map.rs:47-58): `elements[index]` panics out of bounds -/
def get (cmp : Cmp W K K) (m : VecMap K V) (key : K) : M W (Option V) := do
  match ← binarySearchBy (fun p : K × V => call (cmp p.1 key)) m.entries with
  | .found i =>
    match m.entries[i]? with
    | some e => pure (some e.2)
    | none => M.panic
  | .notFound _ => pure none

/-- a write through `get_mut` (vec_map.rs:758-768) -/
def updateMut (cmp : Cmp W K K) (m : VecMap K V) (key : K) (g : V → V) (w : W) : (VecMap K V × Outcome Bool) × W :=
  afterSearch m (binarySearchBy (fun p : K × V => call (cmp p.1 key)) m.entries)
    (fun
      | .found i =>
        match m.entries[i]? with
        | some e => (⟨m.entries.set i (e.1, g e.2)⟩, .ret true)
        | none => (m, .panic)
      | .notFound _ => (m, .ret false)) w

/-- `insert` (vec_map.rs:663-675) -/
def mapInsert (cmp : Cmp W K K) (m : VecMap K V) (key : K) (value : V) (w : W) : (VecMap K V × Outcome (Option V)) × W :=
  afterSearch m (binarySearchBy (fun p : K × V => call (cmp p.1 key)) m.entries)
    (fun
      | .found i =>
        match m.entries[i]? with
        | some e => (⟨m.entries.set i (key, value)⟩, .ret (some e.2))
        | none => (m, .panic)
      | .notFound i => if i ≤ m.entries.length then (⟨m.entries.insertIdx i (key, value)⟩, .ret none) else (m, .panic)) w

end map

/-! ### Collecting -/

/-- `slice.swap(i, j)`: panics out of bounds -/
def swap (d : List α) (i j : Nat) : M W (List α) :=
  if i < d.length ∧ j < d.length then pure (swapAt d i j) else M.panic

/-- the loop of `dedup_by` (dedup.rs:19-28); `d[i]` and `d[j]` panic out of bounds -/
def dedupLoop (same : α → α → M W Bool) (keep : Keep) : Nat → List α → Nat → Nat → M W (List α × Nat)
  | 0, d, _, j => pure (d, j)
  | fuel + 1, d, i, j =>
    match d[i]?, d[j]? with
    | some x, some y => do
      let b ← same x y
      if !b then
        if i ≠ j + 1 then do
          let d ← swap d i (j + 1)
          dedupLoop same keep fuel d (i + 1) (j + 1)
        else dedupLoop same keep fuel d (i + 1) (j + 1)
      else if keep = .last then do
        let d ← swap d i j
        dedupLoop same keep fuel d (i + 1) j
      else dedupLoop same keep fuel d (i + 1) j
    | _, _ => M.panic

/-- `dedup_by` (dedup.rs:14-30) -/
def dedupBy (same : α → α → M W Bool) (keep : Keep) (d : List α) : M W (List α × Nat) :=
  if d.isEmpty then pure (d, 0)
  else do
    let r ← dedupLoop same keep (d.length - 1) d 1 0
    pure (r.1, r.2 + 1)

/-- `sort_and_dedup` (dedup.rs:142-153). `sort` is `slice.sort_by(cmp)`, which for an inconsistent comparison leaves the slice in an unspecified
order or panics (std's documentation). -/
def sortAndDedup (cmp : Cmp W α α) (sort : List α → W → Call (List α) × W) (keep : Keep) (s : SortAndDedup α) : M W (SortAndDedup α) :=
  if s.sorted < s.data.length then do
    let slice ← call (sort s.data)
    let r ← dedupBy (fun a b => do let o ← call (cmp a b); pure (o == .eq)) keep slice
    pure { data := r.1.take r.2, sorted := (r.1.take r.2).length }
  else pure s

/-- the part of `push` before the compaction check (dedup.rs:162-189) -/
def pushElem (cmp : Cmp W α α) (keep : Keep) (s : SortAndDedup α) (elem : α) : M W (SortAndDedup α) :=
  if s.sorted = s.data.length then
    match s.data.getLast? with
    | some last => do
      match ← call (cmp last elem) with
      | .lt => pure { data := s.data ++ [elem], sorted := s.sorted + 1 }
      | .eq => if keep = .last then pure { s with data := s.data.dropLast ++ [elem] } else pure s
      | .gt => pure { s with data := s.data ++ [elem] }
    | none => pure { data := s.data ++ [elem], sorted := s.sorted + 1 }
  else pure { s with data := s.data ++ [elem] }

/-- `push` (dedup.rs:161-200); the subtraction `self.data.len() - sorted` panics (or wraps) if it is negative -/
def push (cmp : Cmp W α α) (sort : List α → W → Call (List α) × W) (keep : Keep) (s : SortAndDedup α) (elem : α) :
    M W (SortAndDedup α) := do
  let s ← pushElem cmp keep s elem
  if s.data.length ≥ 16 then
    if s.data.length < s.sorted then M.panic
    else if s.data.length - s.sorted > s.sorted then sortAndDedup cmp sort keep s else pure s
  else pure s

/-- `for x in iter { agg.push(x) }` (dedup.rs:119-121) -/
def pushAll (cmp : Cmp W α α) (sort : List α → W → Call (List α) × W) (keep : Keep) :
    List α → SortAndDedup α → M W (SortAndDedup α)
  | [], s => pure s
  | x :: xs, s => do
    let s ← push cmp sort keep s x
    pushAll cmp sort keep xs s

/-- `sort_dedup_by` (dedup.rs:108-123) with `into_inner` (155-159) -/
def sortDedupBy (cmp : Cmp W α α) (sort : List α → W → Call (List α) × W) (keep : Keep) (iter : List α) : M W (List α) := do
  let s ← pushAll cmp sort keep iter { data := [], sorted := 0 }
  let s ← sortAndDedup cmp sort keep s
  pure s.data

/-! ### Merging -/

/-- the outcome of a callback -/
def ofFlow : Flow → Outcome Bool
  | .cont => .ret true
  | .stop => .ret false
  | .panic => .panic

/-- `x && y` -/
def andThen {σ : Type} (r : (σ × Outcome Bool) × W) (k : σ → W → (σ × Outcome Bool) × W) : (σ × Outcome Bool) × W :=
  match r.1.2 with
  | .ret true => k r.1.1 r.2
  | _ => r

/-- one callback; it does not call the comparison -/
def step {σ : Type} (r : σ × Flow) (w : W) : (σ × Outcome Bool) × W := ((r.1, ofFlow r.2), w)

/-- `binary_merge` as in `Model/MergeDriver.lean`, comparing with `cmp` (the field `cmp` of `op` is not used) -/
def binaryMerge {σ A B : Type} [MergeState σ A B] (cmp : Cmp W A B) (op : MergeOp σ A B) (m : σ) (an bn : Nat) (w : W) :
    (σ × Outcome Bool) × W :=
  if _h : an = 0 then
    if bn = 0 then step (m, .cont) w else step (op.fromB m bn) w
  else if bn = 0 then step (op.fromA m an) w
  else
    match (MergeState.aSlice m)[an / 2]? with
    | none => ((m, .panic), w)
    | some a =>
      if (MergeState.bSlice m).length < bn then ((m, .panic), w)
      else
        match binarySearchBy (fun b => do let o ← call (cmp a b); pure o.swap) ((MergeState.bSlice m).take bn) w with
        | (.panic, w) => ((m, .panic), w)
        | (.fault, w) => ((m, .fault), w)
        | (.ret (.found bm), w) =>
          andThen (binaryMerge cmp op m (an / 2) bm w) fun m w =>
          andThen (step (op.collision m) w) fun m w =>
          binaryMerge cmp op m (an - an / 2 - 1) (bn - bm - 1) w
        | (.ret (.notFound bi), w) =>
          andThen (binaryMerge cmp op m (an / 2) bi w) fun m w =>
          andThen (step (op.fromA m 1) w) fun m w =>
          binaryMerge cmp op m (an - an / 2 - 1) (bn - bi) w
termination_by an
decreasing_by all_goals omega

/-- `MergeOperation::merge` -/
def mergeAll {σ A B : Type} [MergeState σ A B] (cmp : Cmp W A B) (op : MergeOp σ A B) (m : σ) (w : W) : (σ × Outcome Bool) × W :=
  binaryMerge cmp op m (MergeState.aSlice m).length (MergeState.bSlice m).length w

/-- merge into a new vector (merge_state.rs:354-359, 432-443): the vector built so far and the outcome -/
def mergeNew {A B R : Type} (cmp : Cmp W A B) (a : List A) (b : List B) (op : MergeOp (SliceMS A B R) A B) (w : W) :
    (List R × Outcome Bool) × W :=
  (((mergeAll cmp op { a := a, b := b, r := [] } w).1.1.r, (mergeAll cmp op { a := a, b := b, r := [] } w).1.2),
    (mergeAll cmp op { a := a, b := b, r := [] } w).2)

/-- merge to a boolean (merge_state.rs:256-260) -/
def mergeBool {A B : Type} (cmp : Cmp W A B) (a : List A) (b : List B) (op : MergeOp (BoolMS A B) A B) (w : W) :
    (Bool × Outcome Bool) × W :=
  (((mergeAll cmp op { a := a, b := b, r := false } w).1.1.r, (mergeAll cmp op { a := a, b := b, r := false } w).1.2),
    (mergeAll cmp op { a := a, b := b, r := false } w).2)

/-- merge in place (merge_state.rs:76-81, 150-160, 219-224) over the slot-level builder, which is dropped at the end, also by unwinding -/
def mergeInPlace {A B : Type} (cmp : Cmp W A B) (a : List A) (b : List B) (op : MergeOp (SlotMS A B) A B) (w : W) :
    (SlotMS A B × Outcome Bool) × W :=
  (((mergeAll cmp op (SlotMS.new a b) w).1.1.finish, (mergeAll cmp op (SlotMS.new a b) w).1.2), (mergeAll cmp op (SlotMS.new a b) w).2)

/-- what a `&mut self` operator leaves in `self` -/
def leave {α : Type} (r : (SlotMS α α × Outcome Bool) × W) : (VecSet α × Outcome Bool) × W := ((⟨r.1.1.result⟩, r.1.2), r.2)

/-- `&=`, `|=`, `^=`, `-=` (vec_set.rs:410-465) -/
def assign {α : Type} (cmp : Cmp W α α) (s b : VecSet α) (op : MergeOp (SlotMS α α) α α) (w : W) : (VecSet α × Outcome Bool) × W :=
  leave (mergeInPlace cmp s.elems b.elems op w)

/-- `extend` (vec_set.rs:502-506): `*self |= Self::from_iter(iter)`; the right hand side is evaluated first -/
def extend {α : Type} (cmp : Cmp W α α) (sort : List α → W → Call (List α) × W) (s : VecSet α) (items : List α)
    (union : MergeOp (SlotMS α α) α α) (w : W) : (VecSet α × Outcome Bool) × W :=
  match sortDedupBy cmp sort .first items w with
  | (.ret l, w') => assign cmp s ⟨l⟩ union w'
  | (.panic, w') => ((s, .panic), w')
  | (.fault, w') => ((s, .fault), w')

end Hostile
end Verif
