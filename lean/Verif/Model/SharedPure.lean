import Verif.Model.SharedOps
/-!
# Reading and combining into a new tree, on the reference counted heap

The operations of `AbstractRadixTree` (mod.rs:549-697) as programs of the machine of `Model/SharedHeap.lean`; see `Model/SharedOps.lean` for the
conventions. All of them access the nodes through `children()`, which loads lazy vectors but changes nothing else.

Simplifications beyond those of `Model/SharedOps.lean`:
* `find` looks at the first prefix component of every child, and then searches; `binary_search_by` looks only at those it compares with.
* Iterators are run to the end at once. In the code they are advanced one by one, but they borrow the tree, so that it does not change meanwhile.
* Both arguments of a combination have the same value type.
-/
namespace Verif.Shared
variable {K V : Type _}

/-- look at `n` children, starting with index `i` -/
def seeKidsP (l : Loc) : Nat → Nat → Act K V (List (Seen K V))
  | 0, _ => pure []
  | n + 1, i => do
    let x ← look (l.kid i)
    let xs ← seeKidsP l n (i + 1)
    pure (x :: xs)

/-- `enum FindResult` (mod.rs:699-718): the nodes are places, together with what was seen of them -/
inductive Found (K V : Type _) where
  | found (l : Loc) (x : Seen K V)
  | prefix (l : Loc) (x : Seen K V) (rt : Nat)
  | notFound

/-- all turns of the loop in `Iter::next` (mod.rs:925-941, `inc` 912-917) until the iterator is exhausted. The stack (its top comes first) holds
places instead of references to nodes. -/
def iterP : Nat → List K → List (Loc × Nat) → Act K V (List (List K × V))
  | 0, _, _ => abort
  | _ + 1, _, [] => pure []
  | n + 1, path, (l, 0) :: rest => do
    let x ← look l
    match x.val with
    | some v => do
      let ys ← iterP n path ((l, 1) :: rest)
      pure ((path, v) :: ys)
    | none => iterP n path ((l, 1) :: rest)
  | n + 1, path, (l, pos + 1) :: rest => do
    let x ← look l
    if pos < x.kids then do
      let c ← look (l.kid pos)
      iterP n (path ++ c.pre) ((l.kid pos, 0) :: (l, pos + 2) :: rest)
    else iterP n (path.take (path.length - x.pre.length)) rest

/-- all turns of the loop in `Values::next` (mod.rs:865-878) until the iterator is exhausted -/
def valuesGoP : Nat → List (Loc × Nat) → Act K V (List V)
  | 0, _ => abort
  | _ + 1, [] => pure []
  | n + 1, (l, 0) :: rest => do
    let x ← look l
    match x.val with
    | some v => do
      let ys ← valuesGoP n ((l, 1) :: rest)
      pure (v :: ys)
    | none => valuesGoP n ((l, 1) :: rest)
  | n + 1, (l, pos + 1) :: rest => do
    let x ← look l
    if pos < x.kids then do
      let _ ← look (l.kid pos)
      valuesGoP n ((l.kid pos, 0) :: (l, pos + 2) :: rest)
    else valuesGoP n rest

/-- `iter()` (mod.rs:588-593), collected -/
def entriesP (fuel : Nat) (l : Loc) : Act K V (List (List K × V)) := do
  let x ← look l
  iterP fuel x.pre [(l, 0)]
/-- `values()` (mod.rs:601-606), collected -/
def valuesP (fuel : Nat) (l : Loc) : Act K V (List V) := valuesGoP fuel [(l, 0)]

variable [Ord K] [DecidableEq K]

/-- `find` (mod.rs:724-760) -/
def findP : Nat → Loc → List K → Act K V (Found K V)
  | 0, _, _ => abort
  | fuel + 1, l, p => do
    let x ← look l
    if p.length - Tree.commonPrefix x.pre p = 0 ∧ x.pre.length - Tree.commonPrefix x.pre p = 0 then pure (.found l x)
    else if p.length - Tree.commonPrefix x.pre p = 0 then pure (.prefix l x (x.pre.length - Tree.commonPrefix x.pre p))
    else if x.pre.length - Tree.commonPrefix x.pre p = 0 then do
      let cs ← seeKidsP l x.kids 0
      match p[Tree.commonPrefix x.pre p]? with
      | none => abort
      | some c =>
        if cs.all (fun e => !e.pre.isEmpty) then
          match binarySearchBy (fun e : Seen K V => compare e.pre.head? (some c)) cs with
          | .found i => findP fuel (l.kid i) (p.drop (Tree.commonPrefix x.pre p))
          | .notFound _ => pure .notFound
        else abort
    else pure .notFound

/-- `get` (mod.rs:619-626) -/
def getP (fuel : Nat) (l : Loc) (key : List K) : Act K V (Option V) := do
  match ← findP fuel l key with
  | .found _ x => pure x.val
  | _ => pure none

/-- `contains_key` (mod.rs:609-616) -/
def containsKeyP (fuel : Nat) (l : Loc) (key : List K) : Act K V Bool := do
  match ← findP fuel l key with
  | .found _ x => pure x.val.isSome
  | _ => pure false

/-- `filter_prefix` (mod.rs:269-285): the result shares its children with the tree -/
def filterPrefixP (fuel : Nat) (l : Loc) (p : List K) : Act K V Nat := do
  match ← findP fuel l p with
  | .found q _ => do
    let r ← make (.clone q)
    exec (.setPre ⟨r, []⟩ p)
    pure r
  | .prefix q x rt => do
    let r ← make (.clone q)
    exec (.setPre ⟨r, []⟩ (x.pre.drop (x.pre.length - rt)))
    prependP ⟨r, []⟩ p
    pure r
  | .notFound => make .default

/-- `scan_prefix` (mod.rs:682-696), collected -/
def scanPrefixP (fuel : Nat) (l : Loc) (p : List K) : Act K V (List (List K × V)) := do
  match ← findP fuel l p with
  | .found q _ => iterP fuel p [(q, 0)]
  | .prefix q x rt => iterP fuel (p ++ x.pre.drop (x.pre.length - rt)) [(q, 0)]
  | .notFound => pure []

/-- copies of the nodes at the given places (`RadixTreeConverter`, mod.rs:944-952) -/
def matAllP (fuel : Nat) : List Loc → Act K V (List Nat)
  | [] => pure []
  | l :: ls => do
    let v ← matP fuel l 0
    let vs ← matAllP fuel ls
    pure (v :: vs)

/-- `VecMergeState::merge(a, b, op, ..)` (mod.rs:1059-1065 and the like, with the operations 1295-1336, 1372-1413, 1449-1490): the result is a
list of new variables. Unmatched nodes of `a` are copied if `takeA`, unmatched nodes of `b` if `takeB`, matched ones are combined by `rec`, and
the result is kept unless it is empty. -/
def mergeP (takeA takeB : Bool) (fuel : Nat) (rec : Loc → Loc → Act K V Nat) : Nat → List Loc → List Loc → Act K V (List Nat)
  | _, [], rs => if takeB then matAllP fuel rs else pure []
  | _, l :: ls, [] => if takeA then matAllP fuel (l :: ls) else pure []
  | 0, _ :: _, _ :: _ => abort
  | s + 1, l :: ls, r :: rs => do
    let x ← look l
    let y ← look r
    match compare x.pre.head? y.pre.head? with
    | .lt =>
      if takeA then do
        let v ← matP fuel l 0
        let vs ← mergeP takeA takeB fuel rec s ls (r :: rs)
        pure (v :: vs)
      else mergeP takeA takeB fuel rec s ls (r :: rs)
    | .gt =>
      if takeB then do
        let v ← matP fuel r 0
        let vs ← mergeP takeA takeB fuel rec s (l :: ls) rs
        pure (v :: vs)
      else mergeP takeA takeB fuel rec s (l :: ls) rs
    | .eq => do
      let v ← rec l r
      let z ← look ⟨v, []⟩
      if z.isEmpty then do
        exec (.drop v)
        mergeP takeA takeB fuel rec s ls rs
      else do
        let vs ← mergeP takeA takeB fuel rec s ls rs
        pure (v :: vs)

/-- merge all -/
def mergeAllP (takeA takeB : Bool) (fuel : Nat) (rec : Loc → Loc → Act K V Nat) (ls rs : List Loc) : Act K V (List Nat) :=
  mergeP takeA takeB fuel rec (ls.length + rs.length) ls rs

/-- `R::new(prefix, value, children)` followed by `unsplit` (mod.rs:1089-1091, 1140-1142, 1199-1201) -/
def mkNodeP (p : List K) (v : Option V) (rs : List Nat) : Act K V Nat := do
  let r ← make (.new p v rs)
  unsplitP ⟨r, []⟩
  pure r

/-- `let that = that.materialize_shortened(n)`, dropped when the combination returns -/
def withMatP (fuel : Nat) (l : Loc) (n : Nat) (k : Loc → Act K V Nat) : Act K V Nat := do
  let v ← matP fuel l n
  let r ← k ⟨v, []⟩
  exec (.drop v)
  pure r

/-- `outer_combine` (mod.rs:1031-1092) -/
def outerP (f : V → V → Option V) : Nat → Loc → Loc → Act K V Nat
  | 0, _, _ => abort
  | fuel + 1, l, r => do
    let x ← look l
    let y ← look r
    if Tree.commonPrefix x.pre y.pre = x.pre.length ∧ Tree.commonPrefix x.pre y.pre = y.pre.length then do
      let ks ← mergeAllP true true fuel (outerP f fuel) (l.allKids x.kids) (r.allKids y.kids)
      mkNodeP (x.pre.take (Tree.commonPrefix x.pre y.pre)) (Tree.outerPureVal f x.val y.val) ks
    else if Tree.commonPrefix x.pre y.pre = x.pre.length then
      withMatP fuel r (Tree.commonPrefix x.pre y.pre) fun b => do
        let ks ← mergeAllP true true fuel (outerP f fuel) (l.allKids x.kids) [b]
        mkNodeP (x.pre.take (Tree.commonPrefix x.pre y.pre)) x.val ks
    else if Tree.commonPrefix x.pre y.pre = y.pre.length then
      withMatP fuel l (Tree.commonPrefix x.pre y.pre) fun a => do
        let ks ← mergeAllP true true fuel (outerP f fuel) [a] (r.allKids y.kids)
        mkNodeP (x.pre.take (Tree.commonPrefix x.pre y.pre)) y.val ks
    else do
      let a ← matP fuel l (Tree.commonPrefix x.pre y.pre)
      let b ← matP fuel r (Tree.commonPrefix x.pre y.pre)
      if compare (x.pre.drop (Tree.commonPrefix x.pre y.pre)).head? (y.pre.drop (Tree.commonPrefix x.pre y.pre)).head? = .gt then
        mkNodeP (x.pre.take (Tree.commonPrefix x.pre y.pre)) none [b, a]
      else mkNodeP (x.pre.take (Tree.commonPrefix x.pre y.pre)) none [a, b]

/-- `inner_combine` (mod.rs:1095-1143) -/
def innerP (f : V → V → Option V) : Nat → Loc → Loc → Act K V Nat
  | 0, _, _ => abort
  | fuel + 1, l, r => do
    let x ← look l
    let y ← look r
    if Tree.commonPrefix x.pre y.pre = x.pre.length ∧ Tree.commonPrefix x.pre y.pre = y.pre.length then do
      let ks ← mergeAllP false false fuel (innerP f fuel) (l.allKids x.kids) (r.allKids y.kids)
      mkNodeP (x.pre.take (Tree.commonPrefix x.pre y.pre)) (Tree.innerPureVal f x.val y.val) ks
    else if Tree.commonPrefix x.pre y.pre = x.pre.length then
      withMatP fuel r (Tree.commonPrefix x.pre y.pre) fun b => do
        let ks ← mergeAllP false false fuel (innerP f fuel) (l.allKids x.kids) [b]
        mkNodeP (x.pre.take (Tree.commonPrefix x.pre y.pre)) none ks
    else if Tree.commonPrefix x.pre y.pre = y.pre.length then
      withMatP fuel l (Tree.commonPrefix x.pre y.pre) fun a => do
        let ks ← mergeAllP false false fuel (innerP f fuel) [a] (r.allKids y.kids)
        mkNodeP (x.pre.take (Tree.commonPrefix x.pre y.pre)) none ks
    else mkNodeP (x.pre.take (Tree.commonPrefix x.pre y.pre)) none []

/-- `left_combine` (mod.rs:1146-1202) -/
def leftP (f : V → Option V → Option V) : Nat → Loc → Loc → Act K V Nat
  | 0, _, _ => abort
  | fuel + 1, l, r => do
    let x ← look l
    let y ← look r
    if Tree.commonPrefix x.pre y.pre = x.pre.length ∧ Tree.commonPrefix x.pre y.pre = y.pre.length then do
      let ks ← mergeAllP true false fuel (leftP f fuel) (l.allKids x.kids) (r.allKids y.kids)
      mkNodeP (x.pre.take (Tree.commonPrefix x.pre y.pre)) (Tree.leftPureVal f x.val y.val) ks
    else if Tree.commonPrefix x.pre y.pre = x.pre.length then
      withMatP fuel r (Tree.commonPrefix x.pre y.pre) fun b => do
        let ks ← mergeAllP true false fuel (leftP f fuel) (l.allKids x.kids) [b]
        mkNodeP (x.pre.take (Tree.commonPrefix x.pre y.pre)) x.val ks
    else if Tree.commonPrefix x.pre y.pre = y.pre.length then
      withMatP fuel l (Tree.commonPrefix x.pre y.pre) fun a => do
        let ks ← mergeAllP true false fuel (leftP f fuel) [a] (r.allKids y.kids)
        mkNodeP (x.pre.take (Tree.commonPrefix x.pre y.pre)) none ks
    else do
      let ks ← matAllP fuel (l.allKids x.kids)
      mkNodeP x.pre x.val ks

/-- `union` (mod.rs:300-305) -/
def unionP (fuel : Nat) (l r : Loc) : Act K V Nat := outerP (fun v _ => some v) fuel l r
/-- `intersection` (mod.rs:318-320) -/
def intersectionP (fuel : Nat) (l r : Loc) : Act K V Nat := innerP (fun v _ => some v) fuel l r
/-- `difference` (mod.rs:328-333) -/
def differenceP (fuel : Nat) (l r : Loc) : Act K V Nat := leftP (fun v w => if w.isNone then some v else none) fuel l r

/-- `iter().any(|x| p(x))`: stops at the first hit -/
def anyP {α : Type _} (p : α → Act K V Bool) : List α → Act K V Bool
  | [] => pure false
  | x :: xs => do
    let b ← p x
    if b then pure true else anyP p xs

/-- `iter().all(|x| p(x))`: stops at the first miss -/
def allP {α : Type _} (p : α → Act K V Bool) : List α → Act K V Bool
  | [] => pure true
  | x :: xs => do
    let b ← p x
    if b then allP p xs else pure false

/-- `BoolOpMergeState::merge(a, b, op)` (mod.rs:970-971, 1010-1011, with the operations 1206-1259): is there an unmatched node of `a` (if `takeA`),
or a matched pair for which `rec` says so? -/
def mergeBoolP (takeA : Bool) (rec : Loc → Loc → Act K V Bool) : Nat → List Loc → List Loc → Act K V Bool
  | _, [], _ => pure false
  | _, _ :: _, [] => pure takeA
  | 0, _ :: _, _ :: _ => abort
  | s + 1, l :: ls, r :: rs => do
    let x ← look l
    let y ← look r
    match compare x.pre.head? y.pre.head? with
    | .lt => if takeA then pure true else mergeBoolP takeA rec s ls (r :: rs)
    | .gt => mergeBoolP takeA rec s (l :: ls) rs
    | .eq => do
      let b ← rec l r
      if b then pure true else mergeBoolP takeA rec s ls rs

/-- `is_subset0` (mod.rs:961-992) -/
def isSubsetGoP : Nat → Loc → List K → Loc → List K → Act K V Bool
  | 0, _, _, _, _ => abort
  | fuel + 1, l, lp, r, rp =>
    if Tree.commonPrefix lp rp = lp.length ∧ Tree.commonPrefix lp rp = rp.length then do
      let x ← look l
      let y ← look r
      if x.val.isNone || y.val.isSome then do
        let b ← mergeBoolP true (fun c d => do
          let z ← look c
          let w ← look d
          let b ← isSubsetGoP fuel c z.pre d w.pre
          pure !b) (x.kids + y.kids) (l.allKids x.kids) (r.allKids y.kids)
        pure !b
      else pure false
    else if Tree.commonPrefix lp rp = lp.length then do
      let x ← look l
      if x.val.isNone then
        allP (fun c => do
          let z ← look c
          isSubsetGoP fuel c z.pre r (rp.drop (Tree.commonPrefix lp rp))) (l.allKids x.kids)
      else pure false
    else if Tree.commonPrefix lp rp = rp.length then do
      let y ← look r
      anyP (fun d => do
        let w ← look d
        isSubsetGoP fuel l (lp.drop (Tree.commonPrefix lp rp)) d w.pre) (r.allKids y.kids)
    else pure false

/-- `is_subset` (mod.rs:631-633, 954-959) -/
def isSubsetP (fuel : Nat) (l r : Loc) : Act K V Bool := do
  let x ← look l
  let y ← look r
  isSubsetGoP fuel l x.pre r y.pre

/-- `intersects0` (mod.rs:1001-1028) -/
def intersectsGoP : Nat → Loc → List K → Loc → List K → Act K V Bool
  | 0, _, _, _, _ => abort
  | fuel + 1, l, lp, r, rp =>
    if Tree.commonPrefix lp rp = lp.length ∧ Tree.commonPrefix lp rp = rp.length then do
      let x ← look l
      let y ← look r
      if x.val.isSome && y.val.isSome then pure true
      else
        mergeBoolP false (fun c d => do
          let z ← look c
          let w ← look d
          intersectsGoP fuel c z.pre d w.pre) (x.kids + y.kids) (l.allKids x.kids) (r.allKids y.kids)
    else if Tree.commonPrefix lp rp = lp.length then do
      let x ← look l
      anyP (fun c => do
        let z ← look c
        intersectsGoP fuel c z.pre r (rp.drop (Tree.commonPrefix lp rp))) (l.allKids x.kids)
    else if Tree.commonPrefix lp rp = rp.length then do
      let y ← look r
      anyP (fun d => do
        let w ← look d
        intersectsGoP fuel l (lp.drop (Tree.commonPrefix lp rp)) d w.pre) (r.allKids y.kids)
    else pure false

/-- `intersects` (mod.rs:578-580, 994-999) -/
def intersectsP (fuel : Nat) (l r : Loc) : Act K V Bool := do
  let x ← look l
  let y ← look r
  intersectsGoP fuel l x.pre r y.pre

end Verif.Shared
