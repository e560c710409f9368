import Verif.Model.SharedHeap
/-!
# The in-place operations of mod.rs, run on the reference counted heap

`Model/RadixTree.lean` models the operations of `AbstractRadixTreeMut` on plain trees, `Model/SharedHeap.lean` the machine on which
`ArcRadixTree` and `LazyRadixTree` live. Here the same operations are written once more, as programs of that machine: every access to a
node goes through the commands of the tree interface, in the order of the Rust code. The nodes of `self` are reached through
`children_mut` (which copies shared vectors), the nodes of `that` through `children` (which loads lazy vectors).

Simplifications:
* `that` is of the same flavour and value type as `self` and lives in the same heap (so that it may share structure with `self`).
* Closures do not panic here: `f v w = some v'` stands for a closure that leaves `v'` in place and returns `true`, `none` for one that
  returns `false` (closures that panic: C70).
* The children are merged by a linear merge that inserts and removes elements one by one; the search pattern of the driver and the gap of
  the in-place builder are modelled in `Model/MergeDriver.lean` and `Model/InPlaceBuilder.lean`.
* `children_mut` is called where a child is changed, inserted or removed. The code also calls it when nothing is changed after all.
* Recursion is bounded by fuel, which is not in the code; the theorems hold for any sufficient amount. Where the code would panic, the
  program is abandoned (`abort`).
-/
namespace Verif.Shared
variable {K V : Type _}

/-- A part of a program: it gets the number of variables so far (the next new variable has this number), and passes the new number and its
result to the rest of the program. -/
def Act (K V : Type _) (α : Type _) := Nat → (Nat → α → Prog K V) → Prog K V

/-- sequencing of program parts -/
instance : Monad (Act K V) where
  pure a := fun n k => k n a
  bind m f := fun n k => m n (fun n a => f a n k)

/-- what one sees of a node: `prefix()`, `value()`, `children().len()` -/
structure Seen (K V : Type _) where
  pre : List K
  val : Option V
  kids : Nat

/-- the program ends here (a panic) -/
def abort {α : Type _} : Act K V α := fun _ _ => .done
/-- read a node -/
def look (l : Loc) : Act K V (Seen K V) := fun n k =>
  .cmd (.look l) fun
    | .seen p v c => k n ⟨p, v, c⟩
    | _ => .done
/-- execute a command that makes no variable -/
def exec (c : Cmd K V) : Act K V Unit := fun n k =>
  .cmd c fun
    | .ok => k n ()
    | _ => .done
/-- execute a command that makes a variable -/
def make (c : Cmd K V) : Act K V Nat := fun n k =>
  .cmd c fun
    | .ok => k (n + 1) n
    | _ => .done

/-- the place of a child -/
def Loc.kid (l : Loc) (i : Nat) : Loc := ⟨l.reg, l.path ++ [i]⟩
/-- the places of `n` children -/
def Loc.allKids (l : Loc) (n : Nat) : List Loc := (List.range n).map l.kid

/-- `is_empty` (mod.rs:573-575) -/
def Seen.isEmpty (x : Seen K V) : Bool := x.val.isNone && x.kids == 0

/-- remove child `i` and drop it -/
def eraseP (l : Loc) (i : Nat) : Act K V Unit := do
  let r ← make (.removeKid l i)
  exec (.drop r)

/-- `children_mut().clear()`: `n` children are removed from the front -/
def clearKidsP (l : Loc) : Nat → Act K V Unit
  | 0 => pure ()
  | n + 1 => do
    eraseP l 0
    clearKidsP l n

/-- `*self.value_mut() = None; self.children_mut().clear()` (mod.rs:427-428, 485-486, 496-497, 542-543) -/
def nukeP (l : Loc) (n : Nat) : Act K V Unit := do
  exec (.setVal l none)
  clearKidsP l n

/-- `split(n)` (mod.rs:131-140): a new node with the first part of the prefix is swapped with `self`, the old node gets the rest of the
prefix and becomes the only child -/
def splitP (l : Loc) (n : Nat) : Act K V Unit := do
  let x ← look l
  if n < x.pre.length then do
    let r ← make (.new (x.pre.take n) none [])
    exec (.swap l r)
    exec (.setPre ⟨r, []⟩ (x.pre.drop n))
    exec (.insertKid l 0 r)
  else abort

/-- `prepend0` (mod.rs:160-167) -/
def prependP (l : Loc) (p : List K) : Act K V Unit := do
  let x ← look l
  if !p.isEmpty && !x.isEmpty then exec (.setPre l (p ++ x.pre)) else pure ()

/-- `children.retain(|x| !x.is_empty())` (mod.rs:146): `n` children are left to look at, the next one has index `i` -/
def retainKidsP (l : Loc) : Nat → Nat → Act K V Unit
  | 0, _ => pure ()
  | n + 1, i => do
    let x ← look (l.kid i)
    if x.isEmpty then do
      eraseP l i
      retainKidsP l n i
    else retainKidsP l n (i + 1)

/-- a node without value and with a single child is replaced by the child (mod.rs:148-152); the node itself is dropped -/
def mergeOnlyChildP (l : Loc) : Act K V Unit := do
  let x ← look l
  if x.kids = 1 ∧ x.val.isNone then do
    let r ← make (.removeKid l 0)
    prependP ⟨r, []⟩ x.pre
    exec (.swap l r)
    exec (.drop r)
  else pure ()

/-- the prefix of an empty node is cleared (mod.rs:155-157) -/
def clearEmptyPrefixP (l : Loc) : Act K V Unit := do
  let x ← look l
  if x.isEmpty then exec (.setPre l []) else pure ()

/-- `unsplit` (mod.rs:143-158) -/
def unsplitP (l : Loc) : Act K V Unit := do
  let x ← look l
  retainKidsP l x.kids 0
  mergeOnlyChildP l
  clearEmptyPrefixP l

/-- `children().iter().map(|x| x.materialize_shortened(0)).collect()` (mod.rs:647-650): `n` children are left, the next one has index `i` -/
def matKidsP (rec : Loc → Nat → Act K V Nat) (l : Loc) : Nat → Nat → Act K V (List Nat)
  | 0, _ => pure []
  | n + 1, i => do
    let r ← rec (l.kid i) 0
    let rs ← matKidsP rec l n (i + 1)
    pure (r :: rs)

/-- `materialize_shortened(n)` (mod.rs:642-652): a deep copy, made of new nodes, with a shortened prefix -/
def matP : Nat → Loc → Nat → Act K V Nat
  | 0, _, _ => abort
  | fuel + 1, l, n => do
    let x ← look l
    if n < x.pre.length then do
      let rs ← matKidsP (matP fuel) l x.kids 0
      make (.new (x.pre.drop n) x.val rs)
    else abort

variable [Ord K]

/-- put copies of the nodes at the given places behind each other, starting at index `i` -/
def takeAllP (fuel : Nat) (l : Loc) : Nat → List Loc → Act K V Unit
  | _, [] => pure ()
  | i, r :: rs => do
    let v ← matP fuel r 0
    exec (.insertKid l i v)
    takeAllP fuel l (i + 1) rs

/-- remove `n` children starting at index `i` -/
def eraseAllP (l : Loc) (i : Nat) : Nat → Act K V Unit
  | 0 => pure ()
  | n + 1 => do
    eraseP l i
    eraseAllP l i n

/-- The in-place merge of the children at `l` with the nodes at `rhs` (mod.rs:169-235 with the merge operations 1262-1293, 1338-1369,
1415-1446, 1492-1557): `i` is the index of the next child, `n` the number of children left. Unmatched children are kept if `takeA`,
unmatched nodes of `rhs` copied if `takeB`; matched ones are combined by `rec` and kept unless they became empty. -/
def childrenP (takeA takeB : Bool) (fuel : Nat) (rec : Loc → Loc → Act K V Unit) (l : Loc) : Nat → Nat → Nat → List Loc → Act K V Unit
  | _, i, 0, rhs => if takeB then takeAllP fuel l i rhs else pure ()
  | _, i, n + 1, [] => if takeA then pure () else eraseAllP l i (n + 1)
  | 0, _, _ + 1, _ :: _ => abort
  | s + 1, i, n + 1, r :: rs => do
    let x ← look (l.kid i)
    let y ← look r
    match compare x.pre.head? y.pre.head? with
    | .lt =>
      if takeA then childrenP takeA takeB fuel rec l s (i + 1) n (r :: rs)
      else do
        eraseP l i
        childrenP takeA takeB fuel rec l s i n (r :: rs)
    | .gt =>
      if takeB then do
        let v ← matP fuel r 0
        exec (.insertKid l i v)
        childrenP takeA takeB fuel rec l s (i + 1) (n + 1) rs
      else childrenP takeA takeB fuel rec l s i (n + 1) rs
    | .eq => do
      rec (l.kid i) r
      let z ← look (l.kid i)
      if z.isEmpty then do
        eraseP l i
        childrenP takeA takeB fuel rec l s i n rs
      else childrenP takeA takeB fuel rec l s (i + 1) n rs

/-- merge all `n` children at `l` with the nodes at `rhs` -/
def mergeKidsP (takeA takeB : Bool) (fuel : Nat) (rec : Loc → Loc → Act K V Unit) (l : Loc) (n : Nat) (rhs : List Loc) : Act K V Unit :=
  childrenP takeA takeB fuel rec l (n + rhs.length) 0 n rhs

/-- `let that = that.materialize_shortened(n); self.…_children_with(&[that], f)`, after which the temporary is dropped -/
def mergeShortenedP (takeA takeB : Bool) (fuel : Nat) (rec : Loc → Loc → Act K V Unit) (l : Loc) (kids : Nat) (r : Loc) (n : Nat) :
    Act K V Unit := do
  let v ← matP fuel r n
  mergeKidsP takeA takeB fuel rec l kids [⟨v, []⟩]
  exec (.drop v)

/-- `children_mut().sort_by_key(|x| x.prefix()[0])` for two children (mod.rs:388) -/
def sortTwoP (l : Loc) : Act K V Unit := do
  let x ← look (l.kid 0)
  let y ← look (l.kid 1)
  if compare x.pre.head? y.pre.head? = .gt then do
    let r ← make (.removeKid l 0)
    exec (.insertKid l 1 r)
  else pure ()

variable [DecidableEq K]

/-- the new value in `outer_combine_with` (mod.rs:353-361, 374-382) -/
def outerV (f : V → V → Option V) : Option V → Option V → Option V
  | some v, some w => f v w
  | none, some w => some w
  | v, none => v
/-- the new value in `inner_combine_with` (mod.rs:406-412) -/
def innerV (f : V → V → Option V) : Option V → Option V → Option V
  | some v, some w => f v w
  | _, _ => none
/-- the new value in `left_combine_with` (mod.rs:448-454) -/
def leftV (f : V → V → Option V) : Option V → Option V → Option V
  | some v, some w => f v w
  | v, _ => v
/-- `Some(value) if f(value)` -/
def hit (f : V → Bool) : Option V → Bool
  | some v => f v
  | none => false

/-- `outer_combine_with` (mod.rs:345-391) -/
def outerWithP (f : V → V → Option V) : Nat → Loc → Loc → Act K V Unit
  | 0, _, _ => abort
  | fuel + 1, l, r => do
    let x ← look l
    let y ← look r
    if Tree.commonPrefix x.pre y.pre = x.pre.length ∧ Tree.commonPrefix x.pre y.pre = y.pre.length then do
      exec (.setVal l (outerV f x.val y.val))
      mergeKidsP true true fuel (outerWithP f fuel) l x.kids (r.allKids y.kids)
      unsplitP l
    else if Tree.commonPrefix x.pre y.pre = x.pre.length then do
      mergeShortenedP true true fuel (outerWithP f fuel) l x.kids r (Tree.commonPrefix x.pre y.pre)
      unsplitP l
    else if Tree.commonPrefix x.pre y.pre = y.pre.length then do
      splitP l (Tree.commonPrefix x.pre y.pre)
      exec (.setVal l (outerV f none y.val))
      mergeKidsP true true fuel (outerWithP f fuel) l 1 (r.allKids y.kids)
      unsplitP l
    else do
      splitP l (Tree.commonPrefix x.pre y.pre)
      let v ← matP fuel r (Tree.commonPrefix x.pre y.pre)
      exec (.insertKid l 1 v)
      sortTwoP l
      unsplitP l

/-- `inner_combine_with` (mod.rs:398-431) -/
def innerWithP (f : V → V → Option V) : Nat → Loc → Loc → Act K V Unit
  | 0, _, _ => abort
  | fuel + 1, l, r => do
    let x ← look l
    let y ← look r
    if Tree.commonPrefix x.pre y.pre = x.pre.length ∧ Tree.commonPrefix x.pre y.pre = y.pre.length then do
      exec (.setVal l (innerV f x.val y.val))
      mergeKidsP false false fuel (innerWithP f fuel) l x.kids (r.allKids y.kids)
      unsplitP l
    else if Tree.commonPrefix x.pre y.pre = x.pre.length then do
      exec (.setVal l none)
      mergeShortenedP false false fuel (innerWithP f fuel) l x.kids r (Tree.commonPrefix x.pre y.pre)
      unsplitP l
    else if Tree.commonPrefix x.pre y.pre = y.pre.length then do
      splitP l (Tree.commonPrefix x.pre y.pre)
      mergeKidsP false false fuel (innerWithP f fuel) l 1 (r.allKids y.kids)
      unsplitP l
    else do
      nukeP l x.kids
      unsplitP l

/-- `left_combine_with` (mod.rs:440-468) -/
def leftWithP (f : V → V → Option V) : Nat → Loc → Loc → Act K V Unit
  | 0, _, _ => abort
  | fuel + 1, l, r => do
    let x ← look l
    let y ← look r
    if Tree.commonPrefix x.pre y.pre = x.pre.length ∧ Tree.commonPrefix x.pre y.pre = y.pre.length then do
      exec (.setVal l (leftV f x.val y.val))
      mergeKidsP true false fuel (leftWithP f fuel) l x.kids (r.allKids y.kids)
      unsplitP l
    else if Tree.commonPrefix x.pre y.pre = x.pre.length then do
      mergeShortenedP true false fuel (leftWithP f fuel) l x.kids r (Tree.commonPrefix x.pre y.pre)
      unsplitP l
    else if Tree.commonPrefix x.pre y.pre = y.pre.length then do
      splitP l (Tree.commonPrefix x.pre y.pre)
      mergeKidsP true false fuel (leftWithP f fuel) l 1 (r.allKids y.kids)
      unsplitP l
    else unsplitP l

/-- `remove_prefix_with` (mod.rs:474-511) -/
def removePrefixP (f : V → Bool) : Nat → Loc → Loc → Act K V Unit
  | 0, _, _ => abort
  | fuel + 1, l, r => do
    let x ← look l
    let y ← look r
    if Tree.commonPrefix x.pre y.pre = x.pre.length ∧ Tree.commonPrefix x.pre y.pre = y.pre.length then
      if hit f y.val then do
        nukeP l x.kids
        unsplitP l
      else do
        mergeKidsP true false fuel (removePrefixP f fuel) l x.kids (r.allKids y.kids)
        unsplitP l
    else if Tree.commonPrefix x.pre y.pre = y.pre.length then
      if hit f y.val then do
        nukeP l x.kids
        unsplitP l
      else do
        splitP l (Tree.commonPrefix x.pre y.pre)
        mergeKidsP true false fuel (removePrefixP f fuel) l 1 (r.allKids y.kids)
        unsplitP l
    else if Tree.commonPrefix x.pre y.pre = x.pre.length then do
      mergeShortenedP true false fuel (removePrefixP f fuel) l x.kids r (Tree.commonPrefix x.pre y.pre)
      unsplitP l
    else unsplitP l

/-- `retain_prefix_with` (mod.rs:517-546) -/
def retainPrefixP (f : V → Bool) : Nat → Loc → Loc → Act K V Unit
  | 0, _, _ => abort
  | fuel + 1, l, r => do
    let x ← look l
    let y ← look r
    if Tree.commonPrefix x.pre y.pre = x.pre.length ∧ Tree.commonPrefix x.pre y.pre = y.pre.length then
      if hit f y.val then unsplitP l
      else do
        exec (.setVal l none)
        mergeKidsP false false fuel (retainPrefixP f fuel) l x.kids (r.allKids y.kids)
        unsplitP l
    else if Tree.commonPrefix x.pre y.pre = y.pre.length then
      if hit f y.val then unsplitP l
      else do
        splitP l (Tree.commonPrefix x.pre y.pre)
        mergeKidsP false false fuel (retainPrefixP f fuel) l 1 (r.allKids y.kids)
        unsplitP l
    else if Tree.commonPrefix x.pre y.pre = x.pre.length then do
      exec (.setVal l none)
      mergeShortenedP false false fuel (retainPrefixP f fuel) l x.kids r (Tree.commonPrefix x.pre y.pre)
      unsplitP l
    else do
      nukeP l x.kids
      unsplitP l

/-- `insert` (mod.rs:261-266): the single-entry tree is a temporary -/
def insertP (fuel : Nat) (l : Loc) (key : List K) (v : V) : Act K V Unit := do
  let r ← make (.new key (some v) [])
  outerWithP (fun _ b => some b) fuel l ⟨r, []⟩
  exec (.drop r)
/-- `union_with` (mod.rs:310-315) -/
def unionWithP (fuel : Nat) (l r : Loc) : Act K V Unit := outerWithP (fun a _ => some a) fuel l r
/-- `intersection_with` (mod.rs:323-325) -/
def intersectionWithP (fuel : Nat) (l r : Loc) : Act K V Unit := innerWithP (fun a _ => some a) fuel l r
/-- `difference_with` (mod.rs:336-338) -/
def differenceWithP (fuel : Nat) (l r : Loc) : Act K V Unit := leftWithP (fun _ _ => none) fuel l r

/-- run a program part as a whole program on a state -/
def St.runAct {α : Type _} (s : St K V) (m : Act K V α) : St K V := (s.run (m s.regs.length (fun _ _ => .done))).1

end Verif.Shared
