import Verif.Model.LazyReadsCopy
/-!
# Which vectors of children of the other tree the in-place operations look at

As in `Model/LazyReads.lean`, calls of `children()` are counted, here on nodes of the operand (`that`) of the in-place operations of mod.rs; those on
nodes of `self` are the subject of `Model/CopyOnWrite.lean`. The functions are those of `Model/RadixTree.lean`, through the driver of the merges.

Simplification as in `Model/LazyReadsCopy.lean`: if copying panics, the calls are counted as if it had been completed.
-/
namespace Verif.Tree
variable {K V W : Type} [Ord K]

/-- The in-place merge operations on child vectors (mod.rs:1262-1293, 1338-1369, 1415-1446, 1492-1523, 1526-1557), with the calls so far.
`j`: whether nodes of `that` are counted -/
def inPlaceOpL (j : Nat) (takeA takeB : Bool) (conv : Tree K W → Call (Tree K V)) (rec : Tree K V → Tree K W → Noted (Tree K V × Flow)) :
    MergeOp (InPlaceMS (Tree K V) (Tree K W) × Seen) (Tree K V) (Tree K W) where
  cmp := headCmp
  fromA s n := ((((InPlaceMS.mut conv).advanceA s.1 n takeA).1, s.2), ((InPlaceMS.mut conv).advanceA s.1 n takeA).2)
  fromB s n :=
    ((((InPlaceMS.mut conv).advanceB s.1 n takeB).1, s.2.add ⟨0, if takeB then j * copyCalls.copyCallsL (s.1.b.take n) else 0⟩),
      ((InPlaceMS.mut conv).advanceB s.1 n takeB).2)
  collision s :=
    match s.1.src, s.1.b with
    | x :: as, y :: bs =>
      (((andThen (({ s.1 with src := (rec x y).res.1 :: as } : InPlaceMS (Tree K V) (Tree K W)), (rec x y).res.2) fun s =>
        andThen ((InPlaceMS.mut conv).advanceA s 1 (!(rec x y).res.1.isEmpty)) fun s => (InPlaceMS.mut conv).advanceB s 1 false).1, s.2.add (rec x y).seen),
       (andThen (({ s.1 with src := (rec x y).res.1 :: as } : InPlaceMS (Tree K V) (Tree K W)), (rec x y).res.2) fun s =>
        andThen ((InPlaceMS.mut conv).advanceA s 1 (!(rec x y).res.1.isEmpty)) fun s => (InPlaceMS.mut conv).advanceB s 1 false).2)
    | _, _ => (s, .panic)

/-- `outer_combine_children_with` and so on (mod.rs:169-235) -/
def childrenWithL (op : MergeOp (InPlaceMS (Tree K V) (Tree K W) × Seen) (Tree K V) (Tree K W)) (t : Tree K V) (rhs : List (Tree K W)) : Noted (Tree K V × Flow) :=
  if headed t.kids && headed rhs then
    ⟨(mergeAll op ({ tgt := [], src := t.kids, b := rhs }, Seen.zero)).1.2,
      ({ t with kids := (mergeAll op ({ tgt := [], src := t.kids, b := rhs }, Seen.zero)).1.1.tgt }, (mergeAll op ({ tgt := [], src := t.kids, b := rhs }, Seen.zero)).2)⟩
  else pure (t, .panic)

/-- continue with a materialized tree, or panic leaving `t` -/
def withMatL (m : Call (Tree K W)) (t : Tree K V) (k : Tree K W → Noted (Tree K V × Flow)) : Noted (Tree K V × Flow) :=
  match m with
  | .panic => pure (t, .panic)
  | .ret x => k x

/-- the cases of `outer_combine_with` (mod.rs:350-389); `rec` with 0 for a tree made by `materialize_shortened` -/
def outerWithCasesL (rec : Nat → Tree K V → Tree K V → Noted (Tree K V × Flow)) (f : MutFn V V) (j n : Nat) (self that : Tree K V) : Noted (Tree K V × Flow) :=
  if n = self.pre.length ∧ n = that.pre.length then
    andThenM (self.withVal (outerVal f self.val that.val)) fun self => do
    seeR j
    childrenWithL (inPlaceOpL j true true materialize (rec j)) self that.kids
  else if n = self.pre.length then do
    seeR (j * that.copyCalls)
    withMatL (that.materializeShortened n) self fun that => childrenWithL (inPlaceOpL 0 true true materialize (rec 0)) self [that]
  else if n = that.pre.length then
    andThenM (self.split n) fun self =>
    andThenM (self.withVal (outerVal f self.val that.val)) fun self => do
    seeR j
    childrenWithL (inPlaceOpL j true true materialize (rec j)) self that.kids
  else
    andThenM (self.split n) fun self => do
    seeR (j * that.copyCalls)
    withMatL (that.materializeShortened n) self fun that =>
      pure (if headed (self.kids ++ [that]) then ({ self with kids := sortKids (self.kids ++ [that]) }, .cont)
      else ({ self with kids := self.kids ++ [that] }, .panic))

/-- the cases of `inner_combine_with` (mod.rs:403-429) -/
def innerWithCasesL (rec : Nat → Tree K V → Tree K W → Noted (Tree K V × Flow)) (f : MutFn V W) (j n : Nat) (self : Tree K V) (that : Tree K W) :
    Noted (Tree K V × Flow) :=
  if n = self.pre.length ∧ n = that.pre.length then
    andThenM (self.withVal (innerVal f self.val that.val)) fun self => do
    seeR j
    childrenWithL (inPlaceOpL j false false noConverter (rec j)) self that.kids
  else if n = self.pre.length then do
    seeR (j * that.copyCalls)
    withMatL (that.materializeShortened n) { self with val := none } fun that =>
      childrenWithL (inPlaceOpL 0 false false noConverter (rec 0)) { self with val := none } [that]
  else if n = that.pre.length then
    andThenM (self.split n) fun self => do
    seeR j
    childrenWithL (inPlaceOpL j false false noConverter (rec j)) self that.kids
  else pure ({ self with val := none, kids := [] }, .cont)

/-- the cases of `left_combine_with` (mod.rs:445-466) -/
def leftWithCasesL (rec : Nat → Tree K V → Tree K W → Noted (Tree K V × Flow)) (f : MutFn V W) (j n : Nat) (self : Tree K V) (that : Tree K W) :
    Noted (Tree K V × Flow) :=
  if n = self.pre.length ∧ n = that.pre.length then
    andThenM (self.withVal (leftVal f self.val that.val)) fun self => do
    seeR j
    childrenWithL (inPlaceOpL j true false noConverter (rec j)) self that.kids
  else if n = self.pre.length then do
    seeR (j * that.copyCalls)
    withMatL (that.materializeShortened n) self fun that => childrenWithL (inPlaceOpL 0 true false noConverter (rec 0)) self [that]
  else if n = that.pre.length then
    andThenM (self.split n) fun self => do
    seeR j
    childrenWithL (inPlaceOpL j true false noConverter (rec j)) self that.kids
  else pure (self, .cont)

/-- the cases of `remove_prefix_with` (mod.rs:479-509) -/
def removePrefixCasesL (rec : Nat → Tree K V → Tree K W → Noted (Tree K V × Flow)) (f : W → Bool) (j n : Nat) (self : Tree K V) (that : Tree K W) :
    Noted (Tree K V × Flow) :=
  if n = self.pre.length ∧ n = that.pre.length then
    if selected f that.val then pure ({ self with val := none, kids := [] }, .cont)
    else do
    seeR j
    childrenWithL (inPlaceOpL j true false noConverter (rec j)) self that.kids
  else if n = that.pre.length then
    if selected f that.val then pure ({ self with val := none, kids := [] }, .cont)
    else andThenM (self.split n) fun self => do
    seeR j
    childrenWithL (inPlaceOpL j true false noConverter (rec j)) self that.kids
  else if n = self.pre.length then do
    seeR (j * that.copyCalls)
    withMatL (that.materializeShortened n) self fun that => childrenWithL (inPlaceOpL 0 true false noConverter (rec 0)) self [that]
  else pure (self, .cont)

/-- the cases of `retain_prefix_with` (mod.rs:522-544) -/
def retainPrefixCasesL (rec : Nat → Tree K V → Tree K W → Noted (Tree K V × Flow)) (f : W → Bool) (j n : Nat) (self : Tree K V) (that : Tree K W) :
    Noted (Tree K V × Flow) :=
  if n = self.pre.length ∧ n = that.pre.length then
    if !selected f that.val then do
    seeR j
    childrenWithL (inPlaceOpL j false false noConverter (rec j)) { self with val := none } that.kids
    else pure (self, .cont)
  else if n = that.pre.length then
    if !selected f that.val then andThenM (self.split n) fun self => do
    seeR j
    childrenWithL (inPlaceOpL j false false noConverter (rec j)) self that.kids
    else pure (self, .cont)
  else if n = self.pre.length then do
    seeR (j * that.copyCalls)
    withMatL (that.materializeShortened n) { self with val := none } fun that =>
      childrenWithL (inPlaceOpL 0 false false noConverter (rec 0)) { self with val := none } [that]
  else pure ({ self with val := none, kids := [] }, .cont)

/-- `self.unsplit()` at the end of each operation -/
def finishL (m : Noted (Tree K V × Flow)) : Noted (Tree K V × Flow) := do
  let r ← m
  pure (finish r)

variable [DecidableEq K]

/-- `outer_combine_with` (mod.rs:345-391) with fuel -/
def outerWithGoL (f : MutFn V V) : Nat → Nat → Tree K V → Tree K V → Noted (Tree K V × Flow)
  | 0, _, self, _ => pure (self, .panic)
  | fuel + 1, j, self, that => finishL (outerWithCasesL (outerWithGoL f fuel) f j (commonPrefix self.pre that.pre) self that)
/-- `inner_combine_with` (mod.rs:398-431) with fuel -/
def innerWithGoL (f : MutFn V W) : Nat → Nat → Tree K V → Tree K W → Noted (Tree K V × Flow)
  | 0, _, self, _ => pure (self, .panic)
  | fuel + 1, j, self, that => finishL (innerWithCasesL (innerWithGoL f fuel) f j (commonPrefix self.pre that.pre) self that)
/-- `left_combine_with` (mod.rs:440-468) with fuel -/
def leftWithGoL (f : MutFn V W) : Nat → Nat → Tree K V → Tree K W → Noted (Tree K V × Flow)
  | 0, _, self, _ => pure (self, .panic)
  | fuel + 1, j, self, that => finishL (leftWithCasesL (leftWithGoL f fuel) f j (commonPrefix self.pre that.pre) self that)
/-- `remove_prefix_with` (mod.rs:474-511) with fuel -/
def removePrefixGoL (f : W → Bool) : Nat → Nat → Tree K V → Tree K W → Noted (Tree K V × Flow)
  | 0, _, self, _ => pure (self, .panic)
  | fuel + 1, j, self, that => finishL (removePrefixCasesL (removePrefixGoL f fuel) f j (commonPrefix self.pre that.pre) self that)
/-- `retain_prefix_with` (mod.rs:517-546) with fuel -/
def retainPrefixGoL (f : W → Bool) : Nat → Nat → Tree K V → Tree K W → Noted (Tree K V × Flow)
  | 0, _, self, _ => pure (self, .panic)
  | fuel + 1, j, self, that => finishL (retainPrefixCasesL (retainPrefixGoL f fuel) f j (commonPrefix self.pre that.pre) self that)

/-- `outer_combine_with` (mod.rs:345-391) -/
def outerCombineWithL (self that : Tree K V) (f : MutFn V V) : Noted (Tree K V × Flow) := outerWithGoL f (self.size + that.size + 1) 1 self that
/-- `inner_combine_with` (mod.rs:398-431) -/
def innerCombineWithL (self : Tree K V) (that : Tree K W) (f : MutFn V W) : Noted (Tree K V × Flow) := innerWithGoL f (self.size + that.size + 1) 1 self that
/-- `left_combine_with` (mod.rs:440-468) -/
def leftCombineWithL (self : Tree K V) (that : Tree K W) (f : MutFn V W) : Noted (Tree K V × Flow) := leftWithGoL f (self.size + that.size + 1) 1 self that
/-- `remove_prefix_with` (mod.rs:474-511) -/
def removePrefixWithL (self : Tree K V) (that : Tree K W) (f : W → Bool) : Noted (Tree K V × Flow) := removePrefixGoL f (self.size + that.size + 1) 1 self that
/-- `retain_prefix_with` (mod.rs:517-546) -/
def retainPrefixWithL (self : Tree K V) (that : Tree K W) (f : W → Bool) : Noted (Tree K V × Flow) := retainPrefixGoL f (self.size + that.size + 1) 1 self that

end Verif.Tree
