import Verif.Model.Std
/-!
# Model of /repo/src/dedup.rs
-/
namespace Verif

/-- `enum Keep` (dedup.rs:32-39) -/
inductive Keep where
  | first
  | last
deriving DecidableEq, Repr

/-- The loop `for i in 1..d.len()` of `dedup_by` (dedup.rs:19-28); `i` runs up, `fuel = d.len() - i`.
The slice access out of range (`none`) would be a panic and is never reached. -/
def dedupLoop {α : Type _} (same : α → α → Bool) (keep : Keep) :
    Nat → List α → Nat → Nat → List α × Nat
  | 0, d, _, j => (d, j)
  | fuel + 1, d, i, j =>
    match d[i]?, d[j]? with
    | some x, some y =>
      if !same x y then
        let j := j + 1
        let d := if i ≠ j then swapAt d i j else d
        dedupLoop same keep fuel d (i + 1) j
      else if keep = .last then
        dedupLoop same keep fuel (swapAt d i j) (i + 1) j
      else dedupLoop same keep fuel d (i + 1) j
    | _, _ => (d, j)

/-- `dedup_by` (dedup.rs:14-30): returns the permuted slice and the number of unique elements -/
def dedupBy {α : Type _} (same : α → α → Bool) (keep : Keep) (d : List α) : List α × Nat :=
  if d.isEmpty then (d, 0)
  else
    let r := dedupLoop same keep (d.length - 1) d 1 0
    (r.1, r.2 + 1)

/-- `struct SortAndDedup` (dedup.rs:81-92); `cmp` and `keep` are passed separately -/
structure SortAndDedup (α : Type _) where
  data : List α
  sorted : Nat

namespace SortAndDedup
variable {α : Type _} (cmp : α → α → Ordering) (keep : Keep)

/-- `sort_and_dedup` (dedup.rs:142-153) -/
def sortAndDedup (s : SortAndDedup α) : SortAndDedup α :=
  if s.sorted < s.data.length then
    let slice := stableSortBy cmp s.data
    let r := dedupBy (fun a b => cmp a b == .eq) keep slice
    let data := r.1.take r.2
    { data := data, sorted := data.length }
  else s

/-- the part of `push` before the compaction check (dedup.rs:162-189) -/
def pushElem (s : SortAndDedup α) (elem : α) : SortAndDedup α :=
  if s.sorted = s.data.length then
    match s.data.getLast? with
    | some last =>
      match cmp last elem with
      | .lt => { data := s.data ++ [elem], sorted := s.sorted + 1 }
      | .eq => if keep = .last then { s with data := s.data.dropLast ++ [elem] } else s
      | .gt => { s with data := s.data ++ [elem] }
    | none => { data := s.data ++ [elem], sorted := s.sorted + 1 }
  else { s with data := s.data ++ [elem] }

/-- `push` (dedup.rs:161-200) -/
def push (s : SortAndDedup α) (elem : α) : SortAndDedup α :=
  let s := pushElem cmp keep s elem
  if s.data.length ≥ 16 then
    let unsorted := s.data.length - s.sorted
    if unsorted > s.sorted then sortAndDedup cmp keep s else s
  else s

/-- `into_inner` (dedup.rs:155-159) -/
def intoInner (s : SortAndDedup α) : List α := (sortAndDedup cmp keep s).data

end SortAndDedup

/-- `sort_dedup_by` (dedup.rs:108-123) -/
def sortDedupBy {α : Type _} (cmp : α → α → Ordering) (keep : Keep) (iter : List α) : List α :=
  SortAndDedup.intoInner cmp keep
    (iter.foldl (SortAndDedup.push cmp keep) { data := [], sorted := 0 })

/-- `sort_dedup` (dedup.rs:97-102) -/
def sortDedup {α : Type _} [Ord α] (keep : Keep) (iter : List α) : List α :=
  sortDedupBy compare keep iter

/-- `sort_dedup_by_key` (dedup.rs:129-135) -/
def sortDedupByKey {α κ : Type _} [Ord κ] (keep : Keep) (key : α → κ) (iter : List α) : List α :=
  sortDedupBy (fun a b => compare (key a) (key b)) keep iter

end Verif
