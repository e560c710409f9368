import Verif.Model.Hostile
import Verif.Model.RadixCost
/-!
# Radix trees over key components whose `==` and `cmp` obey no law

The recursive functions of `radix_tree/mod.rs` once more, for key components with arbitrary, stateful, possibly panicking implementations of `PartialEq` and
`Ord`, which need not agree with each other either. In contrast to `Model/RadixTree.lean` an access `x.prefix()[0]` panics exactly where
the code evaluates it, because with such components there are trees whose children have empty prefixes. Running out of fuel is
`fault` here, like an out of bounds `get_unchecked`, so "no fault" also says that the recursion ends.

A `&mut self` method returns the tree it leaves behind together with the outcome; a function into a new tree returns the outcome only.
-/
namespace Verif
namespace Hostile

/-- a `MergeOperation` (binary-merge) whose `cmp` and `collision` call user code -/
structure HOp (W σ A B : Type) where
  cmp : A → B → M W Ordering
  fromA : σ → Nat → σ × Flow
  fromB : σ → Nat → σ × Flow
  collision : σ → W → (σ × Outcome Bool) × W

/-- `binary_merge` (the driver of `Model/MergeDriver.lean`) with user code in `cmp` and `collision` -/
def drive {W σ A B : Type} [MergeState σ A B] (op : HOp W σ A B) (m : σ) (an bn : Nat) (w : W) : (σ × Outcome Bool) × W :=
  if _h : an = 0 then
    if bn = 0 then step (m, .cont) w else step (op.fromB m bn) w
  else if bn = 0 then step (op.fromA m an) w
  else
    match (MergeState.aSlice m)[an / 2]? with
    | none => ((m, .panic), w)
    | some a =>
      if (MergeState.bSlice m).length < bn then ((m, .panic), w)
      else
        match binarySearchBy (fun b => do let o ← op.cmp a b; pure o.swap) ((MergeState.bSlice m).take bn) w with
        | (.panic, w) => ((m, .panic), w)
        | (.fault, w) => ((m, .fault), w)
        | (.ret (.found bm), w) =>
          andThen (drive op m (an / 2) bm w) fun m w =>
          andThen (op.collision m w) fun m w =>
          drive op m (an - an / 2 - 1) (bn - bm - 1) w
        | (.ret (.notFound bi), w) =>
          andThen (drive op m (an / 2) bi w) fun m w =>
          andThen (step (op.fromA m 1) w) fun m w =>
          drive op m (an - an / 2 - 1) (bn - bi) w
termination_by an
decreasing_by all_goals omega

/-- `MergeOperation::merge` -/
def driveAll {W σ A B : Type} [MergeState σ A B] (op : HOp W σ A B) (m : σ) (w : W) : (σ × Outcome Bool) × W :=
  drive op m (MergeState.aSlice m).length (MergeState.bSlice m).length w

/-- `==` and `cmp` of the key components, with a state `W` of their own -/
structure Keys (W K : Type) where
  eq : K → K → W → Call Bool × W
  cmp : Cmp W K K

/-- `sort_by_key`: the order it leaves behind, and whether it panicked -/
abbrev Sorter (W α : Type) := List α → W → (List α × Call Unit) × W

namespace Radix
variable {W K V X : Type}

/-- `common_prefix` (mod.rs:53-55) -/
def commonPrefix (k : Keys W K) (p q : List K) : M W Nat := Tree.commonPrefixM (fun x y => call (k.eq x y)) p q

/-- `a.prefix()[0].cmp(&b.prefix()[0])` (mod.rs:1215-1217, 1243-1245, 1274-1276, 1306-1308, ...): panics if one of the prefixes is empty -/
def headsCmp (k : Keys W K) (a : Tree K V) (b : Tree K X) : M W Ordering :=
  match a.pre, b.pre with
  | x :: _, y :: _ => call (k.cmp x y)
  | _, _ => M.panic

/-- the outcome of a call that returns a value -/
def ofCall {α : Type} : Call α → M W α
  | .ret x => pure x
  | .panic => M.panic

/-! ### Combinations in place -/

/-- run `f` on the first source element in place (`source_slices_mut`, mod.rs:1284-1287) -/
def onFirst (s : InPlaceMS (Tree K V) (Tree K X)) (as : List (Tree K V)) (r : (Tree K V × Outcome Bool) × W) :
    (InPlaceMS (Tree K V) (Tree K X) × Outcome Bool) × W :=
  (({ s with src := r.1.1 :: as }, r.1.2), r.2)

/-- `OuterCombineOp`, `InnerCombineOp`, `LeftCombineOp`, `RemovePrefixOp`, `RetainPrefixOp` in place (mod.rs:1262-1293, 1338-1369, 1415-1446, 1492-1523,
1526-1557) -/
def inPlaceOp (k : Keys W K) (takeA takeB : Bool) (conv : Tree K X → Call (Tree K V))
    (rec : Tree K V → Tree K X → W → (Tree K V × Outcome Bool) × W) : HOp W (InPlaceMS (Tree K V) (Tree K X)) (Tree K V) (Tree K X) where
  cmp := headsCmp k
  fromA s n := (InPlaceMS.mut conv).advanceA s n takeA
  fromB s n := (InPlaceMS.mut conv).advanceB s n takeB
  collision s w :=
    match s.src, s.b with
    | x :: as, y :: _ =>
      andThen (onFirst s as (rec x y w)) fun s w' =>
      andThen (step ((InPlaceMS.mut conv).advanceA s 1 (!(rec x y w).1.1.isEmpty)) w') fun s w' =>
      step ((InPlaceMS.mut conv).advanceB s 1 false) w'
    | _, _ => ((s, .panic), w)

/-- `outer_combine_children_with` etc. (mod.rs:169-235); the builder is dropped at the end, also by unwinding -/
def childrenWith (op : HOp W (InPlaceMS (Tree K V) (Tree K X)) (Tree K V) (Tree K X)) (t : Tree K V) (rhs : List (Tree K X)) (w : W) :
    (Tree K V × Outcome Bool) × W :=
  (({ t with kids := (driveAll op { tgt := [], src := t.kids, b := rhs } w).1.1.tgt }, (driveAll op { tgt := [], src := t.kids, b := rhs } w).1.2),
    (driveAll op { tgt := [], src := t.kids, b := rhs } w).2)

/-- continue with a materialized tree, or panic leaving `t` -/
def withMat (c : Call (Tree K X)) (t : Tree K V) (k : Tree K X → W → (Tree K V × Outcome Bool) × W) (w : W) : (Tree K V × Outcome Bool) × W :=
  match c with
  | .panic => ((t, .panic), w)
  | .ret x => k x w

/-- `children.push(child); children.sort_by_key(..)` (mod.rs:387-388) -/
def pushSort (sort : Sorter W (Tree K V)) (t that : Tree K V) (w : W) : (Tree K V × Outcome Bool) × W :=
  (({ t with kids := (sort (t.kids ++ [that]) w).1.1 }, match (sort (t.kids ++ [that]) w).1.2 with | .ret _ => .ret true | .panic => .panic),
    (sort (t.kids ++ [that]) w).2)

/-- the cases of `outer_combine_with` (mod.rs:350-389) -/
def outerWithCases (sort : Sorter W (Tree K V)) (op : HOp W (InPlaceMS (Tree K V) (Tree K V)) (Tree K V) (Tree K V)) (f : Tree.MutFn V V) (n : Nat)
    (self that : Tree K V) (w : W) : (Tree K V × Outcome Bool) × W :=
  if n = self.pre.length ∧ n = that.pre.length then
    andThen (step (self.withVal (Tree.outerVal f self.val that.val)) w) fun self w => childrenWith op self that.kids w
  else if n = self.pre.length then
    withMat (that.materializeShortened n) self (fun that w => childrenWith op self [that] w) w
  else if n = that.pre.length then
    andThen (step (self.split n) w) fun self w =>
    andThen (step (self.withVal (Tree.outerVal f self.val that.val)) w) fun self w => childrenWith op self that.kids w
  else
    andThen (step (self.split n) w) fun self w =>
    withMat (that.materializeShortened n) self (fun that w => pushSort sort self that w) w

/-- the cases of `inner_combine_with` (mod.rs:403-429) -/
def innerWithCases (op : HOp W (InPlaceMS (Tree K V) (Tree K X)) (Tree K V) (Tree K X)) (f : Tree.MutFn V X) (n : Nat)
    (self : Tree K V) (that : Tree K X) (w : W) : (Tree K V × Outcome Bool) × W :=
  if n = self.pre.length ∧ n = that.pre.length then
    andThen (step (self.withVal (Tree.innerVal f self.val that.val)) w) fun self w => childrenWith op self that.kids w
  else if n = self.pre.length then
    withMat (that.materializeShortened n) { self with val := none } (fun that w => childrenWith op { self with val := none } [that] w) w
  else if n = that.pre.length then
    andThen (step (self.split n) w) fun self w => childrenWith op self that.kids w
  else (({ self with val := none, kids := [] }, .ret true), w)

/-- the cases of `left_combine_with` (mod.rs:445-466) -/
def leftWithCases (op : HOp W (InPlaceMS (Tree K V) (Tree K X)) (Tree K V) (Tree K X)) (f : Tree.MutFn V X) (n : Nat)
    (self : Tree K V) (that : Tree K X) (w : W) : (Tree K V × Outcome Bool) × W :=
  if n = self.pre.length ∧ n = that.pre.length then
    andThen (step (self.withVal (Tree.leftVal f self.val that.val)) w) fun self w => childrenWith op self that.kids w
  else if n = self.pre.length then
    withMat (that.materializeShortened n) self (fun that w => childrenWith op self [that] w) w
  else if n = that.pre.length then
    andThen (step (self.split n) w) fun self w => childrenWith op self that.kids w
  else ((self, .ret true), w)

/-- the cases of `remove_prefix_with` (mod.rs:479-509) -/
def removePrefixCases (op : HOp W (InPlaceMS (Tree K V) (Tree K X)) (Tree K V) (Tree K X)) (f : X → Bool) (n : Nat)
    (self : Tree K V) (that : Tree K X) (w : W) : (Tree K V × Outcome Bool) × W :=
  if n = self.pre.length ∧ n = that.pre.length then
    if Tree.selected f that.val then (({ self with val := none, kids := [] }, .ret true), w)
    else childrenWith op self that.kids w
  else if n = that.pre.length then
    if Tree.selected f that.val then (({ self with val := none, kids := [] }, .ret true), w)
    else andThen (step (self.split n) w) fun self w => childrenWith op self that.kids w
  else if n = self.pre.length then
    withMat (that.materializeShortened n) self (fun that w => childrenWith op self [that] w) w
  else ((self, .ret true), w)

/-- the cases of `retain_prefix_with` (mod.rs:522-544) -/
def retainPrefixCases (op : HOp W (InPlaceMS (Tree K V) (Tree K X)) (Tree K V) (Tree K X)) (f : X → Bool) (n : Nat)
    (self : Tree K V) (that : Tree K X) (w : W) : (Tree K V × Outcome Bool) × W :=
  if n = self.pre.length ∧ n = that.pre.length then
    if !Tree.selected f that.val then childrenWith op { self with val := none } that.kids w
    else ((self, .ret true), w)
  else if n = that.pre.length then
    if !Tree.selected f that.val then andThen (step (self.split n) w) fun self w => childrenWith op self that.kids w
    else ((self, .ret true), w)
  else if n = self.pre.length then
    withMat (that.materializeShortened n) { self with val := none } (fun that w => childrenWith op { self with val := none } [that] w) w
  else (({ self with val := none, kids := [] }, .ret true), w)

/-- a `&mut self` method that computes the common prefix first and calls `unsplit` last (mod.rs:350-390, 403-430, ...) -/
def body (k : Keys W K) (cases : Nat → Tree K V → Tree K X → W → (Tree K V × Outcome Bool) × W) (self : Tree K V) (that : Tree K X) (w : W) :
    (Tree K V × Outcome Bool) × W :=
  match commonPrefix k self.pre that.pre w with
  | (.panic, w) => ((self, .panic), w)
  | (.fault, w) => ((self, .fault), w)
  | (.ret n, w) => andThen (cases n self that w) fun t w => ((t.unsplit, .ret true), w)

/-- `outer_combine_with` (mod.rs:345-391) with fuel -/
def outerWithGo (k : Keys W K) (sort : Sorter W (Tree K V)) (f : Tree.MutFn V V) : Nat → Tree K V → Tree K V → W → (Tree K V × Outcome Bool) × W
  | 0, self, _, w => ((self, .fault), w)
  | fuel + 1, self, that, w =>
    body k (outerWithCases sort (inPlaceOp k true true Tree.materialize (outerWithGo k sort f fuel)) f) self that w

/-- `inner_combine_with` (mod.rs:398-431) with fuel -/
def innerWithGo (k : Keys W K) (f : Tree.MutFn V X) : Nat → Tree K V → Tree K X → W → (Tree K V × Outcome Bool) × W
  | 0, self, _, w => ((self, .fault), w)
  | fuel + 1, self, that, w => body k (innerWithCases (inPlaceOp k false false noConverter (innerWithGo k f fuel)) f) self that w

/-- `left_combine_with` (mod.rs:440-468) with fuel -/
def leftWithGo (k : Keys W K) (f : Tree.MutFn V X) : Nat → Tree K V → Tree K X → W → (Tree K V × Outcome Bool) × W
  | 0, self, _, w => ((self, .fault), w)
  | fuel + 1, self, that, w => body k (leftWithCases (inPlaceOp k true false noConverter (leftWithGo k f fuel)) f) self that w

/-- `remove_prefix_with` (mod.rs:474-511) with fuel -/
def removePrefixGo (k : Keys W K) (f : X → Bool) : Nat → Tree K V → Tree K X → W → (Tree K V × Outcome Bool) × W
  | 0, self, _, w => ((self, .fault), w)
  | fuel + 1, self, that, w => body k (removePrefixCases (inPlaceOp k true false noConverter (removePrefixGo k f fuel)) f) self that w

/-- `retain_prefix_with` (mod.rs:517-546) with fuel -/
def retainPrefixGo (k : Keys W K) (f : X → Bool) : Nat → Tree K V → Tree K X → W → (Tree K V × Outcome Bool) × W
  | 0, self, _, w => ((self, .fault), w)
  | fuel + 1, self, that, w => body k (retainPrefixCases (inPlaceOp k false false noConverter (retainPrefixGo k f fuel)) f) self that w

/-- `outer_combine_with` (mod.rs:345-391) -/
def outerCombineWith (k : Keys W K) (sort : Sorter W (Tree K V)) (self that : Tree K V) (f : Tree.MutFn V V) (w : W) : (Tree K V × Outcome Bool) × W :=
  outerWithGo k sort f (self.size + that.size + 1) self that w
/-- `inner_combine_with` (mod.rs:398-431) -/
def innerCombineWith (k : Keys W K) (self : Tree K V) (that : Tree K X) (f : Tree.MutFn V X) (w : W) : (Tree K V × Outcome Bool) × W :=
  innerWithGo k f (self.size + that.size + 1) self that w
/-- `left_combine_with` (mod.rs:440-468) -/
def leftCombineWith (k : Keys W K) (self : Tree K V) (that : Tree K X) (f : Tree.MutFn V X) (w : W) : (Tree K V × Outcome Bool) × W :=
  leftWithGo k f (self.size + that.size + 1) self that w
/-- `remove_prefix_with` (mod.rs:474-511) -/
def removePrefixWith (k : Keys W K) (self : Tree K V) (that : Tree K X) (f : X → Bool) (w : W) : (Tree K V × Outcome Bool) × W :=
  removePrefixGo k f (self.size + that.size + 1) self that w
/-- `retain_prefix_with` (mod.rs:517-546) -/
def retainPrefixWith (k : Keys W K) (self : Tree K V) (that : Tree K X) (f : X → Bool) (w : W) : (Tree K V × Outcome Bool) × W :=
  retainPrefixGo k f (self.size + that.size + 1) self that w
/-- `insert` (mod.rs:261-266) -/
def insert (k : Keys W K) (sort : Sorter W (Tree K V)) (self : Tree K V) (key : List K) (v : V) (w : W) : (Tree K V × Outcome Bool) × W :=
  outerCombineWith k sort self (Tree.single key v) (fun _ b => (b, .ret true)) w

/-! ### Combinations into a new tree -/

/-- what the collision of a merge into a new vector does with the combined child (mod.rs:1323-1334, 1399-1411, 1476-1488); both children are taken from the
iterators before the recursive call -/
def collect (s : SliceMS (Tree K V) (Tree K X) (Tree K V)) (as : List (Tree K V)) (bs : List (Tree K X)) (r : Outcome (Tree K V) × W) :
    (SliceMS (Tree K V) (Tree K X) (Tree K V) × Outcome Bool) × W :=
  match r with
  | (.ret t, w) => (({ a := as, b := bs, r := if t.isEmpty then s.r else s.r ++ [t] }, .ret true), w)
  | (.panic, w) => (({ s with a := as, b := bs }, .panic), w)
  | (.fault, w) => (({ s with a := as, b := bs }, .fault), w)

/-- `OuterCombineOp`, `InnerCombineOp`, `LeftCombineOp` into a new vector (mod.rs:1295-1335, 1371-1412, 1448-1489) -/
def pureOp (k : Keys W K) (takeA takeB : Bool) (convA : Tree K V → Call (Tree K V)) (convB : Tree K X → Call (Tree K V))
    (rec : Tree K V → Tree K X → M W (Tree K V)) : HOp W (SliceMS (Tree K V) (Tree K X) (Tree K V)) (Tree K V) (Tree K X) where
  cmp := headsCmp k
  fromA s n := (SliceMS.mut convA convB).advanceA s n takeA
  fromB s n := (SliceMS.mut convA convB).advanceB s n takeB
  collision s w :=
    match s.a, s.b with
    | x :: as, y :: bs => collect s as bs (rec x y w)
    | _, _ => ((s, .panic), w)

/-- `VecMergeState::merge` (mod.rs:1054-1060, 1065-1071, 1076-1082, ...) -/
def mergeChildren (op : HOp W (SliceMS (Tree K V) (Tree K X) (Tree K V)) (Tree K V) (Tree K X)) (as : List (Tree K V)) (bs : List (Tree K X)) :
    M W (List (Tree K V)) := fun w =>
  match driveAll op { a := as, b := bs, r := [] } w with
  | ((s, .ret _), w) => (.ret s.r, w)
  | ((_, .panic), w) => (.panic, w)
  | ((_, .fault), w) => (.fault, w)

/-- `let mut children = vec![a, b]; children.sort_by_key(..)` (mod.rs:1084-1088) -/
def sortPair (sort : Sorter W (Tree K V)) (a b : Tree K V) : M W (List (Tree K V)) := fun w =>
  match sort [a, b] w with
  | ((l, .ret _), w) => (.ret l, w)
  | ((_, .panic), w) => (.panic, w)

/-- `Tree::new(..)` and `unsplit` at the end (mod.rs:1089-1091, 1140-1142, 1199-1201) -/
def mkNode (p : List K) (v : Option V) (ks : List (Tree K V)) : Tree K V := Tree.unsplit { pre := p, val := v, kids := ks }

/-- the body of `outer_combine` (mod.rs:1042-1091) -/
def outerCases (sort : Sorter W (Tree K V)) (op : HOp W (SliceMS (Tree K V) (Tree K V) (Tree K V)) (Tree K V) (Tree K V)) (f : V → V → Option V)
    (n : Nat) (a b : Tree K V) : M W (Tree K V) :=
  if n = a.pre.length ∧ n = b.pre.length then do
    let ks ← mergeChildren op a.kids b.kids
    pure (mkNode (a.pre.take n) (Tree.outerPureVal f a.val b.val) ks)
  else if n = a.pre.length then do
    let b' ← ofCall (b.materializeShortened n)
    let ks ← mergeChildren op a.kids [b']
    pure (mkNode (a.pre.take n) a.val ks)
  else if n = b.pre.length then do
    let a' ← ofCall (a.materializeShortened n)
    let ks ← mergeChildren op [a'] b.kids
    pure (mkNode (a.pre.take n) b.val ks)
  else do
    let a' ← ofCall (a.materializeShortened n)
    let b' ← ofCall (b.materializeShortened n)
    let ks ← sortPair sort a' b'
    pure (mkNode (a.pre.take n) none ks)

/-- the body of `inner_combine` (mod.rs:1100-1142) -/
def innerCases (op : HOp W (SliceMS (Tree K V) (Tree K X) (Tree K V)) (Tree K V) (Tree K X)) (f : V → X → Option V) (n : Nat) (a : Tree K V)
    (b : Tree K X) : M W (Tree K V) :=
  if n = a.pre.length ∧ n = b.pre.length then do
    let ks ← mergeChildren op a.kids b.kids
    pure (mkNode (a.pre.take n) (Tree.innerPureVal f a.val b.val) ks)
  else if n = a.pre.length then do
    let b' ← ofCall (b.materializeShortened n)
    let ks ← mergeChildren op a.kids [b']
    pure (mkNode (a.pre.take n) none ks)
  else if n = b.pre.length then do
    let a' ← ofCall (a.materializeShortened n)
    let ks ← mergeChildren op [a'] b.kids
    pure (mkNode (a.pre.take n) none ks)
  else pure (mkNode (a.pre.take n) none [])

/-- the body of `left_combine` (mod.rs:1151-1201) -/
def leftCases (op : HOp W (SliceMS (Tree K V) (Tree K X) (Tree K V)) (Tree K V) (Tree K X)) (f : V → Option X → Option V) (n : Nat)
    (a : Tree K V) (b : Tree K X) : M W (Tree K V) :=
  if n = a.pre.length ∧ n = b.pre.length then do
    let ks ← mergeChildren op a.kids b.kids
    pure (mkNode (a.pre.take n) (Tree.leftPureVal f a.val b.val) ks)
  else if n = a.pre.length then do
    let b' ← ofCall (b.materializeShortened n)
    let ks ← mergeChildren op a.kids [b']
    pure (mkNode (a.pre.take n) a.val ks)
  else if n = b.pre.length then do
    let a' ← ofCall (a.materializeShortened n)
    let ks ← mergeChildren op [a'] b.kids
    pure (mkNode (a.pre.take n) none ks)
  else do
    let ks ← ofCall (Tree.materializeKids a.kids)
    pure (mkNode a.pre a.val ks)

/-- `outer_combine` (mod.rs:1031-1092) with fuel -/
def outerGo (k : Keys W K) (sort : Sorter W (Tree K V)) (f : V → V → Option V) : Nat → Tree K V → Tree K V → M W (Tree K V)
  | 0, _, _ => M.fault
  | fuel + 1, a, b => do
    let n ← commonPrefix k a.pre b.pre
    outerCases sort (pureOp k true true Tree.materialize Tree.materialize (outerGo k sort f fuel)) f n a b

/-- `inner_combine` (mod.rs:1095-1143) with fuel -/
def innerGo (k : Keys W K) (f : V → X → Option V) : Nat → Tree K V → Tree K X → M W (Tree K V)
  | 0, _, _ => M.fault
  | fuel + 1, a, b => do
    let n ← commonPrefix k a.pre b.pre
    innerCases (pureOp k false false Tree.materialize noConverter (innerGo k f fuel)) f n a b

/-- `left_combine` (mod.rs:1146-1202) with fuel -/
def leftGo (k : Keys W K) (f : V → Option X → Option V) : Nat → Tree K V → Tree K X → M W (Tree K V)
  | 0, _, _ => M.fault
  | fuel + 1, a, b => do
    let n ← commonPrefix k a.pre b.pre
    leftCases (pureOp k true false Tree.materialize noConverter (leftGo k f fuel)) f n a b

/-- `outer_combine` (mod.rs:655-661, 1031-1092) -/
def outerCombine (k : Keys W K) (sort : Sorter W (Tree K V)) (a b : Tree K V) (f : V → V → Option V) : M W (Tree K V) :=
  outerGo k sort f (a.size + b.size + 1) a b
/-- `inner_combine` (mod.rs:664-670, 1095-1143) -/
def innerCombine (k : Keys W K) (a : Tree K V) (b : Tree K X) (f : V → X → Option V) : M W (Tree K V) := innerGo k f (a.size + b.size + 1) a b
/-- `left_combine` (mod.rs:673-679, 1146-1202) -/
def leftCombine (k : Keys W K) (a : Tree K V) (b : Tree K X) (f : V → Option X → Option V) : M W (Tree K V) := leftGo k f (a.size + b.size + 1) a b

/-! ### Relations -/

/-- what the collision of a boolean merge does with the answer for the two children (mod.rs:1224-1230, 1252-1258) -/
def decideOn (s : BoolMS (Tree K V) (Tree K X)) (r : Outcome Bool × W) : (BoolMS (Tree K V) (Tree K X) × Outcome Bool) × W :=
  match r with
  | (.ret take, w) => andThen (step (BoolMS.mut.advanceA s 1 take) w) fun s w => step (BoolMS.mut.advanceB s 1 false) w
  | (.panic, w) => ((s, .panic), w)
  | (.fault, w) => ((s, .fault), w)

/-- `IntersectOp` (mod.rs:1204-1231) and `NonSubsetOp` (1232-1259) -/
def boolOp (k : Keys W K) (takeA : Bool) (rec : Tree K V → Tree K X → M W Bool) : HOp W (BoolMS (Tree K V) (Tree K X)) (Tree K V) (Tree K X) where
  cmp := headsCmp k
  fromA s n := BoolMS.mut.advanceA s n takeA
  fromB s n := BoolMS.mut.advanceB s n false
  collision s w :=
    match s.a, s.b with
    | x :: _, y :: _ => decideOn s (rec x y w)
    | _, _ => ((s, .panic), w)

/-- `BoolOpMergeState::merge` (mod.rs:971, 1011) -/
def mergeBool (op : HOp W (BoolMS (Tree K V) (Tree K X)) (Tree K V) (Tree K X)) (as : List (Tree K V)) (bs : List (Tree K X)) : M W Bool := fun w =>
  match driveAll op { a := as, b := bs, r := false } w with
  | ((s, .ret _), w) => (.ret s.r, w)
  | ((_, .panic), w) => (.panic, w)
  | ((_, .fault), w) => (.fault, w)

/-- `iter().any(|x| p(x))` -/
def anyH {α : Type} (p : α → M W Bool) : List α → M W Bool
  | [] => pure false
  | x :: xs => do
    let b ← p x
    if b then pure true else anyH p xs

/-- `iter().all(|x| p(x))` -/
def allH {α : Type} (p : α → M W Bool) : List α → M W Bool
  | [] => pure true
  | x :: xs => do
    let b ← p x
    if b then allH p xs else pure false

/-- `is_subset0` (mod.rs:961-992) with fuel -/
def isSubsetGo (k : Keys W K) : Nat → Tree K V → List K → Tree K X → List K → M W Bool
  | 0, _, _, _, _ => M.fault
  | fuel + 1, l, lp, r, rp => do
    let n ← commonPrefix k lp rp
    if n = lp.length ∧ n = rp.length then
      if l.val.isNone || r.val.isSome then do
        let c ← mergeBool (boolOp k true (fun x y => do let c ← isSubsetGo k fuel x x.pre y y.pre; pure (!c))) l.kids r.kids
        pure (!c)
      else pure false
    else if n = lp.length then
      if l.val.isNone then allH (fun lc => isSubsetGo k fuel lc lc.pre r (rp.drop n)) l.kids else pure false
    else if n = rp.length then anyH (fun rc => isSubsetGo k fuel l (lp.drop n) rc rc.pre) r.kids
    else pure false

/-- `intersects0` (mod.rs:1001-1028) with fuel -/
def intersectsGo (k : Keys W K) : Nat → Tree K V → List K → Tree K X → List K → M W Bool
  | 0, _, _, _, _ => M.fault
  | fuel + 1, l, lp, r, rp => do
    let n ← commonPrefix k lp rp
    if n = lp.length ∧ n = rp.length then
      if l.val.isSome && r.val.isSome then pure true
      else mergeBool (boolOp k false (fun x y => intersectsGo k fuel x x.pre y y.pre)) l.kids r.kids
    else if n = lp.length then anyH (fun lc => intersectsGo k fuel lc lc.pre r (rp.drop n)) l.kids
    else if n = rp.length then anyH (fun rc => intersectsGo k fuel l (lp.drop n) rc rc.pre) r.kids
    else pure false

/-- `is_subset` (mod.rs:631-633, 954-959) -/
def isSubset (k : Keys W K) (l : Tree K V) (r : Tree K X) : M W Bool := isSubsetGo k (l.size + r.size + 1) l l.pre r r.pre
/-- `intersects` (mod.rs:578-580, 994-999) -/
def intersects (k : Keys W K) (l : Tree K V) (r : Tree K X) : M W Bool := intersectsGo k (l.size + r.size + 1) l l.pre r r.pre

/-! ### Lookup -/

/-- `e.prefix()[0].cmp(&prefix[n])` (mod.rs:742) -/
def childCmp (k : Keys W K) (c : K) (e : Tree K V) : M W Ordering :=
  match e.pre with
  | x :: _ => call (k.cmp x c)
  | [] => M.panic

/-- `find` (mod.rs:724-760) with fuel -/
def findGo (k : Keys W K) : Nat → Tree K V → List K → M W (Tree.FindResult K V)
  | 0, _, _ => M.fault
  | fuel + 1, t, p => do
    let n ← commonPrefix k t.pre p
    if p.length - n = 0 ∧ t.pre.length - n = 0 then pure (.found t)
    else if p.length - n = 0 then pure (.prefix t (t.pre.length - n))
    else if t.pre.length - n = 0 then
      match p[n]? with
      | none => M.panic
      | some c => do
        match ← binarySearchBy (childCmp k c) t.kids with
        | .found i =>
          match t.kids[i]? with
          | none => M.panic
          | some child => findGo k fuel child (p.drop n)
        | .notFound _ => pure (.notFound t (p.length - n) (t.pre.length - n))
    else pure (.notFound t (p.length - n) (t.pre.length - n))

/-- `find` (mod.rs:724-760) -/
def find (k : Keys W K) (t : Tree K V) (p : List K) : M W (Tree.FindResult K V) := findGo k (t.size + 1) t p

/-- `get` (mod.rs:619-626) -/
def get (k : Keys W K) (t : Tree K V) (key : List K) : M W (Option V) := do
  match ← find k t key with
  | .found t => pure t.val
  | _ => pure none

/-- `filter_prefix` (mod.rs:269-285) -/
def filterPrefix (k : Keys W K) (t : Tree K V) (p : List K) : M W (Tree K V) := do
  match ← find k t p with
  | .found t => pure { t with pre := p }
  | .prefix t rt => pure (Tree.prepend { t with pre := t.pre.drop (t.pre.length - rt) } p)
  | .notFound .. => pure Tree.empty

end Radix
end Hostile
end Verif
