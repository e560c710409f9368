/-!
# Model of the std functions the crate calls

* `core::slice::binary_search_by` — called at vec_set.rs:124,307,324; vec_map.rs:54,664,764;
  total_vec_*.rs via those; radix_tree/mod.rs (`find`), and by the binary-merge driver.
* stable `slice::sort_by` — dedup.rs:148, vec_set.rs:346,620, vec_map.rs:824.
* `Vec::dedup_by_key`-style deduplication (keep the first of each run) — vec_set.rs:347,621,
  vec_map.rs:825.
-/
namespace Verif

/-- `Result<usize, usize>` returned by `binary_search_by`. -/
inductive SearchResult where
  | found (i : Nat)
  | notFound (i : Nat)
deriving DecidableEq, Repr

/-- Body of the `while size > 1` loop of std's `binary_search_by`
(`library/core/src/slice/mod.rs`). `f x` is the ordering of the element relative to the target.
The `none` branch corresponds to std's unchecked access and is never taken (`bsLoop_spec`). -/
def bsLoop {α : Type _} (f : α → Ordering) (l : List α) (base size : Nat) : Nat :=
  if _h : size > 1 then
    let half := size / 2
    let mid := base + half
    let base' := match l[mid]? with
      | some x => if f x = .gt then base else mid
      | none => base
    bsLoop f l base' (size - half)
  else base
termination_by size

/-- std's `binary_search_by`. -/
def binarySearchBy {α : Type _} (f : α → Ordering) (l : List α) : SearchResult :=
  if l.length = 0 then .notFound 0
  else
    let base := bsLoop f l 0 l.length
    match l[base]? with
    | none => .notFound base
    | some x =>
      match f x with
      | .eq => .found base
      | .lt => .notFound (base + 1)
      | .gt => .notFound base

/-- std's stable `sort_by`: modelled by core Lean's (verified stable) merge sort. `a` may stay before
`b` iff `cmp a b` is not `Greater`. -/
def stableSortBy {α : Type _} (cmp : α → α → Ordering) (l : List α) : List α :=
  l.mergeSort (fun a b => cmp a b != .gt)

/-- std's `Vec::dedup_by`: walks left to right, compares with the last *kept* element and drops the later one. -/
def dedupGo {α : Type _} (same : α → α → Bool) (last : α) : List α → List α
  | [] => []
  | x :: xs => if same x last then dedupGo same last xs else x :: dedupGo same x xs

/-- std's `Vec::dedup_by` (also `dedup`, `dedup_by_key`; the `SmallVec` versions behave the same). -/
def stdDedupBy {α : Type _} (same : α → α → Bool) : List α → List α
  | [] => []
  | x :: xs => x :: dedupGo same x xs

/-- `slice::swap(i, j)`: out-of-range indices would panic; `dedupLoop` only uses indices in range (`dedupLoop_spec`). -/
def swapAt {α : Type _} (d : List α) (i j : Nat) : List α :=
  match d[i]?, d[j]? with
  | some x, some y => (d.set i y).set j x
  | _, _ => d

/-- How a callback ended: `true` (go on), `false` (abort the merge), or a panic. -/
inductive Flow where
  | cont
  | stop
  | panic
deriving DecidableEq, Repr

/-- Result of calling a closure/conversion: a value, or a panic. -/
inductive Call (α : Type _) where
  | ret (x : α)
  | panic
deriving DecidableEq, Repr

/-- The loop of `SmallVec::retain` (smallvec 1.x, called at vec_set.rs:334 and vec_map.rs:644): `for i in 0..len { if !f(&mut
self[i]) { del += 1 } else if del > 0 { self.swap(i - del, i) } }` followed by `truncate(len - del)`. `n = len - i` counts the
remaining iterations. If the predicate panics the vector stays as it is at that moment (the truncation is skipped). -/
def retainLoop {α P : Type _} (f : P → α → Call (P × Bool)) :
    Nat → List α → Nat → Nat → P → List α × P × Flow
  | 0, v, _, del, p => (v.take (v.length - del), p, .cont)
  | n + 1, v, i, del, p =>
    match v[i]? with
    | none => (v, p, .panic)
    | some x =>
      match f p x with
      | .panic => (v, p, .panic)
      | .ret (p, false) => retainLoop f n v (i + 1) (del + 1) p
      | .ret (p, true) => retainLoop f n (if del > 0 then swapAt v (i - del) i else v) (i + 1) del p

/-- `SmallVec::retain` -/
def smallVecRetain {α P : Type _} (f : P → α → Call (P × Bool)) (v : List α) (p : P) :
    List α × P × Flow := retainLoop f v.length v 0 0 p

end Verif
