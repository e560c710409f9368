import Verif.Model.VecMap
/-!
# The calls a container makes to the comparison function

The other model files take the comparison as a pure function, which hides *how often* it is called. Here the same code is written once more
with the comparison (and `slice::sort_by`) as effects of an arbitrary monad `m`. `Verif/Lemmas/Cost.lean` proves that for a pure
comparison these functions are the ones of the other files, so that the bounds proved about the number of calls
(C60–C62) are bounds for those.
-/
namespace Verif
variable {m : Type → Type} [Monad m] {α : Type}

/-- `bsLoop` (std's `binary_search_by`) with an effectful comparison -/
def bsLoopM (f : α → m Ordering) (l : List α) (base size : Nat) : m Nat :=
  if _h : size > 1 then
    match l[base + size / 2]? with
    | some x => do
      let o ← f x
      bsLoopM f l (if o = .gt then base else base + size / 2) (size - size / 2)
    | none => bsLoopM f l base (size - size / 2)
  else pure base
termination_by size

/-- `binarySearchBy` with an effectful comparison -/
def binarySearchByM (f : α → m Ordering) (l : List α) : m SearchResult :=
  if l.length = 0 then pure (.notFound 0)
  else do
    let base ← bsLoopM f l 0 l.length
    match l[base]? with
    | none => pure (.notFound base)
    | some x =>
      match ← f x with
      | .eq => pure (.found base)
      | .lt => pure (.notFound (base + 1))
      | .gt => pure (.notFound base)

/-! ### Lookups, insertion, removal -/

/-- `AbstractVecSet::contains` (vec_set.rs:123-125) -/
def VecSet.containsM (cmp : α → α → m Ordering) (s : VecSet α) (x : α) : m Bool := do
  match ← binarySearchByM (fun e => cmp e x) s.elems with
  | .found _ => pure true
  | .notFound _ => pure false
/-- `insert` (vec_set.rs:306-317) -/
def VecSet.insertM (cmp : α → α → m Ordering) (s : VecSet α) (x : α) : m (VecSet α × Bool) := do
  match ← binarySearchByM (fun e => cmp e x) s.elems with
  | .found i => pure (⟨s.elems.set i x⟩, false)
  | .notFound i => pure (⟨s.elems.insertIdx i x⟩, true)
/-- `remove` (vec_set.rs:323-330) -/
def VecSet.removeM (cmp : α → α → m Ordering) (s : VecSet α) (x : α) : m (VecSet α × Bool) := do
  match ← binarySearchByM (fun e => cmp e x) s.elems with
  | .found i => pure (⟨s.elems.eraseIdx i⟩, true)
  | .notFound _ => pure (s, false)

section map
variable {K V : Type}
/-- `AbstractVecMap::get` (vec_map.rs:47-58) -/
def VecMap.getM (cmp : K → K → m Ordering) (s : VecMap K V) (key : K) : m (Option V) := do
  match ← binarySearchByM (fun p : K × V => cmp p.1 key) s.entries with
  | .found i => pure (s.entries[i]?.map (·.2))
  | .notFound _ => pure none
/-- `insert` (vec_map.rs:663-675) -/
def VecMap.insertM (cmp : K → K → m Ordering) (s : VecMap K V) (key : K) (value : V) : m (VecMap K V × Option V) := do
  match ← binarySearchByM (fun p : K × V => cmp p.1 key) s.entries with
  | .found i => pure (⟨s.entries.set i (key, value)⟩, s.entries[i]?.map (·.2))
  | .notFound i => pure (⟨s.entries.insertIdx i (key, value)⟩, none)
end map

/-! ### Collecting -/

/-- the loop of `dedup_by` (dedup.rs:19-28) -/
def dedupLoopM (same : α → α → m Bool) (keep : Keep) : Nat → List α → Nat → Nat → m (List α × Nat)
  | 0, d, _, j => pure (d, j)
  | fuel + 1, d, i, j =>
    match d[i]?, d[j]? with
    | some x, some y => do
      let b ← same x y
      if !b then dedupLoopM same keep fuel (if i ≠ j + 1 then swapAt d i (j + 1) else d) (i + 1) (j + 1)
      else if keep = .last then dedupLoopM same keep fuel (swapAt d i j) (i + 1) j
      else dedupLoopM same keep fuel d (i + 1) j
    | _, _ => pure (d, j)

/-- `dedup_by` (dedup.rs:14-30) -/
def dedupByM (same : α → α → m Bool) (keep : Keep) (d : List α) : m (List α × Nat) :=
  if d.isEmpty then pure (d, 0)
  else do
    let r ← dedupLoopM same keep (d.length - 1) d 1 0
    pure (r.1, r.2 + 1)

namespace SortAndDedup
/-- `sort_and_dedup` (dedup.rs:142-153). `sort` is `slice.sort_by(cmp)`. -/
def sortAndDedupM (cmp : α → α → m Ordering) (sort : List α → m (List α)) (keep : Keep) (s : SortAndDedup α) :
    m (SortAndDedup α) :=
  if s.sorted < s.data.length then do
    let slice ← sort s.data
    let r ← dedupByM (fun a b => do let o ← cmp a b; pure (o == .eq)) keep slice
    pure { data := r.1.take r.2, sorted := (r.1.take r.2).length }
  else pure s

/-- the part of `push` before the compaction check (dedup.rs:162-189) -/
def pushElemM (cmp : α → α → m Ordering) (keep : Keep) (s : SortAndDedup α) (elem : α) : m (SortAndDedup α) :=
  if s.sorted = s.data.length then
    match s.data.getLast? with
    | some last => do
      match ← cmp last elem with
      | .lt => pure { data := s.data ++ [elem], sorted := s.sorted + 1 }
      | .eq => if keep = .last then pure { s with data := s.data.dropLast ++ [elem] } else pure s
      | .gt => pure { s with data := s.data ++ [elem] }
    | none => pure { data := s.data ++ [elem], sorted := s.sorted + 1 }
  else pure { s with data := s.data ++ [elem] }

/-- `push` (dedup.rs:161-200) -/
def pushM (cmp : α → α → m Ordering) (sort : List α → m (List α)) (keep : Keep) (s : SortAndDedup α) (elem : α) :
    m (SortAndDedup α) := do
  let s ← pushElemM cmp keep s elem
  if s.data.length ≥ 16 then
    if s.data.length - s.sorted > s.sorted then sortAndDedupM cmp sort keep s else pure s
  else pure s

/-- the loop `for x in iter { agg.push(x) }` (dedup.rs:119-121) -/
def pushAllM (cmp : α → α → m Ordering) (sort : List α → m (List α)) (keep : Keep) :
    List α → SortAndDedup α → m (SortAndDedup α)
  | [], s => pure s
  | x :: xs, s => do
    let s ← pushM cmp sort keep s x
    pushAllM cmp sort keep xs s
end SortAndDedup

/-- `sort_dedup_by` (dedup.rs:108-123) with `into_inner` (:155-159) -/
def sortDedupByM (cmp : α → α → m Ordering) (sort : List α → m (List α)) (keep : Keep) (iter : List α) : m (List α) := do
  let s ← SortAndDedup.pushAllM cmp sort keep iter { data := [], sorted := 0 }
  let s ← s.sortAndDedupM cmp sort keep
  pure s.data

/-! ### Merging -/

/-- `binary_merge` (the driver of `Verif/Model/MergeDriver.lean`) with an effectful comparison -/
def binaryMergeM {σ A B : Type} [MergeState σ A B] (cmp : A → B → m Ordering) (op : MergeOp σ A B) (s : σ) (an bn : Nat) :
    m (σ × Flow) :=
  if _h : an = 0 then
    if bn = 0 then pure (s, .cont) else pure (op.fromB s bn)
  else if bn = 0 then pure (op.fromA s an)
  else
    match (MergeState.aSlice s)[an / 2]? with
    | none => pure (s, .panic)
    | some a =>
      if (MergeState.bSlice s).length < bn then pure (s, .panic)
      else do
        match ← binarySearchByM (fun b => do let o ← cmp a b; pure o.swap) ((MergeState.bSlice s).take bn) with
        | .found bm =>
          let r ← binaryMergeM cmp op s (an / 2) bm
          match r.2 with
          | .cont =>
            match (op.collision r.1).2 with
            | .cont => binaryMergeM cmp op (op.collision r.1).1 (an - an / 2 - 1) (bn - bm - 1)
            | _ => pure (op.collision r.1)
          | _ => pure r
        | .notFound bi =>
          let r ← binaryMergeM cmp op s (an / 2) bi
          match r.2 with
          | .cont =>
            match (op.fromA r.1 1).2 with
            | .cont => binaryMergeM cmp op (op.fromA r.1 1).1 (an - an / 2 - 1) (bn - bi)
            | _ => pure (op.fromA r.1 1)
          | _ => pure r
termination_by an
decreasing_by all_goals omega

/-- `MergeOperation::merge` -/
def mergeAllM {σ A B : Type} [MergeState σ A B] (cmp : A → B → m Ordering) (op : MergeOp σ A B) (s : σ) : m (σ × Flow) :=
  binaryMergeM cmp op s (MergeState.aSlice s).length (MergeState.bSlice s).length

/-! ### Counting -/

/-- What is counted: calls of the comparison function outside `sort_by`, and the lengths of the slices given to `sort_by`. -/
structure Work where
  cmps : Nat
  sorts : List Nat

/-- computations that are counted -/
abbrev Counted := StateM Work

/-- a comparison, counted -/
def tick2 {β γ : Type} (cmp : β → γ → Ordering) (a : β) (b : γ) : Counted Ordering :=
  fun w => (cmp a b, { w with cmps := w.cmps + 1 })

/-- `sort_by`, counted by the length of the slice -/
def tickSort (cmp : α → α → Ordering) (l : List α) : Counted (List α) :=
  fun w => (stableSortBy cmp l, { w with sorts := w.sorts ++ [l.length] })

/-- the result of a counted computation -/
def Counted.result (c : Counted α) : α := (c ⟨0, []⟩).1
/-- the work of a counted computation -/
def Counted.work (c : Counted α) : Work := (c ⟨0, []⟩).2

end Verif
