import Verif.Model.RadixCost
/-!
# The calls the combinations and relations of radix trees make to `==` and `cmp` of the key components

The recursive functions of `Model/RadixTree.lean` once more, with `==`, `cmp` and `sort_by_key` as effects of an arbitrary monad `m` (as in `Model/Cost.lean`
and `Model/RadixCost.lean`). `Verif/Lemmas/RadixWork*.lean` prove that with counted but otherwise pure `==` and `cmp` they return what the functions of
`Model/RadixTree.lean` return.
-/
namespace Verif
variable {m : Type → Type} [Monad m]

/-- `MergeOp` (trait `binary_merge::MergeOperation`) where `cmp` and `collision` have effects -/
structure MergeOpM (m : Type → Type) (σ A B : Type) where
  cmp : A → B → m Ordering
  fromA : σ → Nat → σ × Flow
  fromB : σ → Nat → σ × Flow
  collision : σ → m (σ × Flow)

/-- `x && y` as `andThen`, for a `y` with effects -/
def andThenM {σ : Type} (r : σ × Flow) (k : σ → m (σ × Flow)) : m (σ × Flow) :=
  match r.2 with
  | .cont => k r.1
  | _ => pure r

/-- `binary_merge` (the driver of `Model/MergeDriver.lean`) with effects in `cmp` and `collision` -/
def driveM {σ A B : Type} [MergeState σ A B] (op : MergeOpM m σ A B) (s : σ) (an bn : Nat) : m (σ × Flow) :=
  if _h : an = 0 then
    if bn = 0 then pure (s, .cont) else pure (op.fromB s bn)
  else if bn = 0 then pure (op.fromA s an)
  else
    match (MergeState.aSlice s)[an / 2]? with
    | none => pure (s, .panic)
    | some a =>
      if (MergeState.bSlice s).length < bn then pure (s, .panic)
      else do
        match ← binarySearchByM (fun b => do let o ← op.cmp a b; pure o.swap) ((MergeState.bSlice s).take bn) with
        | .found bm => do
          let r ← driveM op s (an / 2) bm
          andThenM r fun s => do
          let r ← op.collision s
          andThenM r fun s => driveM op s (an - an / 2 - 1) (bn - bm - 1)
        | .notFound bi => do
          let r ← driveM op s (an / 2) bi
          andThenM r fun s =>
          andThenM (op.fromA s 1) fun s => driveM op s (an - an / 2 - 1) (bn - bi)
termination_by an
decreasing_by all_goals omega

/-- `MergeOperation::merge` -/
def driveAllM {σ A B : Type} [MergeState σ A B] (op : MergeOpM m σ A B) (s : σ) : m (σ × Flow) :=
  driveM op s (MergeState.aSlice s).length (MergeState.bSlice s).length

namespace Tree
variable {K V W : Type}

/-- `a.prefix()[0].cmp(&b.prefix()[0])` (mod.rs:1215-1217, 1243-1245, 1274-1276, ...) with an effectful `cmp`; only used where both prefixes are not empty -/
def headsCmpM (cmp : K → K → m Ordering) (a : Tree K V) (b : Tree K W) : m Ordering :=
  match a.pre, b.pre with
  | x :: _, y :: _ => cmp x y
  | _, _ => pure .lt

/-! ### Combinations in place -/

/-- `inPlaceOp`: the in-place merge operations on child vectors (mod.rs:1262-1293, 1338-1369, 1415-1446, 1492-1523, 1526-1557) -/
def inPlaceOpM (cmp : K → K → m Ordering) (takeA takeB : Bool) (conv : Tree K W → Call (Tree K V)) (rec : Tree K V → Tree K W → m (Tree K V × Flow)) :
    MergeOpM m (InPlaceMS (Tree K V) (Tree K W)) (Tree K V) (Tree K W) where
  cmp := headsCmpM cmp
  fromA s n := (InPlaceMS.mut conv).advanceA s n takeA
  fromB s n := (InPlaceMS.mut conv).advanceB s n takeB
  collision s :=
    match s.src, s.b with
    | x :: as, y :: _ => do
      let r ← rec x y
      pure (andThen ({ s with src := r.1 :: as }, r.2) fun s =>
        andThen ((InPlaceMS.mut conv).advanceA s 1 (!r.1.isEmpty)) fun s =>
        (InPlaceMS.mut conv).advanceB s 1 false)
    | _, _ => pure (s, .panic)

/-- `childrenWith`: `outer_combine_children_with` etc. (mod.rs:169-235) -/
def childrenWithM (op : MergeOpM m (InPlaceMS (Tree K V) (Tree K W)) (Tree K V) (Tree K W)) (t : Tree K V) (rhs : List (Tree K W)) : m (Tree K V × Flow) :=
  if headed t.kids && headed rhs then do
    let r ← driveAllM op { tgt := [], src := t.kids, b := rhs }
    pure ({ t with kids := r.1.tgt }, r.2)
  else pure (t, .panic)

/-- `withMat`: continue with a materialized tree, or panic leaving `t` -/
def withMatM (c : Call (Tree K W)) (t : Tree K V) (k : Tree K W → m (Tree K V × Flow)) : m (Tree K V × Flow) :=
  match c with
  | .panic => pure (t, .panic)
  | .ret x => k x

/-- the cases of `outer_combine_with` (mod.rs:350-389) -/
def outerWithCasesM (sort : List (Tree K V) → m (List (Tree K V))) (op : MergeOpM m (InPlaceMS (Tree K V) (Tree K V)) (Tree K V) (Tree K V)) (f : MutFn V V)
    (n : Nat) (self that : Tree K V) : m (Tree K V × Flow) :=
  if n = self.pre.length ∧ n = that.pre.length then
    andThenM (self.withVal (outerVal f self.val that.val)) fun self => childrenWithM op self that.kids
  else if n = self.pre.length then
    withMatM (that.materializeShortened n) self fun that => childrenWithM op self [that]
  else if n = that.pre.length then
    andThenM (self.split n) fun self =>
    andThenM (self.withVal (outerVal f self.val that.val)) fun self => childrenWithM op self that.kids
  else
    andThenM (self.split n) fun self =>
    withMatM (that.materializeShortened n) self fun that =>
      if headed (self.kids ++ [that]) then do
        let ks ← sort (self.kids ++ [that])
        pure ({ self with kids := ks }, .cont)
      else pure ({ self with kids := self.kids ++ [that] }, .panic)

/-- the cases of `inner_combine_with` (mod.rs:403-429) -/
def innerWithCasesM (op : MergeOpM m (InPlaceMS (Tree K V) (Tree K W)) (Tree K V) (Tree K W)) (f : MutFn V W) (n : Nat) (self : Tree K V)
    (that : Tree K W) : m (Tree K V × Flow) :=
  if n = self.pre.length ∧ n = that.pre.length then
    andThenM (self.withVal (innerVal f self.val that.val)) fun self => childrenWithM op self that.kids
  else if n = self.pre.length then
    withMatM (that.materializeShortened n) { self with val := none } fun that => childrenWithM op { self with val := none } [that]
  else if n = that.pre.length then
    andThenM (self.split n) fun self => childrenWithM op self that.kids
  else pure ({ self with val := none, kids := [] }, .cont)

/-- the cases of `left_combine_with` (mod.rs:445-466) -/
def leftWithCasesM (op : MergeOpM m (InPlaceMS (Tree K V) (Tree K W)) (Tree K V) (Tree K W)) (f : MutFn V W) (n : Nat) (self : Tree K V)
    (that : Tree K W) : m (Tree K V × Flow) :=
  if n = self.pre.length ∧ n = that.pre.length then
    andThenM (self.withVal (leftVal f self.val that.val)) fun self => childrenWithM op self that.kids
  else if n = self.pre.length then
    withMatM (that.materializeShortened n) self fun that => childrenWithM op self [that]
  else if n = that.pre.length then
    andThenM (self.split n) fun self => childrenWithM op self that.kids
  else pure (self, .cont)

/-- the cases of `remove_prefix_with` (mod.rs:479-509) -/
def removePrefixCasesM (op : MergeOpM m (InPlaceMS (Tree K V) (Tree K W)) (Tree K V) (Tree K W)) (f : W → Bool) (n : Nat) (self : Tree K V)
    (that : Tree K W) : m (Tree K V × Flow) :=
  if n = self.pre.length ∧ n = that.pre.length then
    if selected f that.val then pure ({ self with val := none, kids := [] }, .cont)
    else childrenWithM op self that.kids
  else if n = that.pre.length then
    if selected f that.val then pure ({ self with val := none, kids := [] }, .cont)
    else andThenM (self.split n) fun self => childrenWithM op self that.kids
  else if n = self.pre.length then
    withMatM (that.materializeShortened n) self fun that => childrenWithM op self [that]
  else pure (self, .cont)

/-- the cases of `retain_prefix_with` (mod.rs:522-544) -/
def retainPrefixCasesM (op : MergeOpM m (InPlaceMS (Tree K V) (Tree K W)) (Tree K V) (Tree K W)) (f : W → Bool) (n : Nat) (self : Tree K V)
    (that : Tree K W) : m (Tree K V × Flow) :=
  if n = self.pre.length ∧ n = that.pre.length then
    if !selected f that.val then childrenWithM op { self with val := none } that.kids
    else pure (self, .cont)
  else if n = that.pre.length then
    if !selected f that.val then andThenM (self.split n) fun self => childrenWithM op self that.kids
    else pure (self, .cont)
  else if n = self.pre.length then
    withMatM (that.materializeShortened n) { self with val := none } fun that => childrenWithM op { self with val := none } [that]
  else pure ({ self with val := none, kids := [] }, .cont)

/-- `outer_combine_with` (mod.rs:345-391) with fuel -/
def outerWithGoM (eq : K → K → m Bool) (cmp : K → K → m Ordering) (sort : List (Tree K V) → m (List (Tree K V))) (f : MutFn V V) :
    Nat → Tree K V → Tree K V → m (Tree K V × Flow)
  | 0, self, _ => pure (self, .panic)
  | fuel + 1, self, that => do
    let n ← commonPrefixM eq self.pre that.pre
    let r ← outerWithCasesM sort (inPlaceOpM cmp true true materialize (outerWithGoM eq cmp sort f fuel)) f n self that
    pure (finish r)

/-- `inner_combine_with` (mod.rs:398-431) with fuel -/
def innerWithGoM (eq : K → K → m Bool) (cmp : K → K → m Ordering) (f : MutFn V W) : Nat → Tree K V → Tree K W → m (Tree K V × Flow)
  | 0, self, _ => pure (self, .panic)
  | fuel + 1, self, that => do
    let n ← commonPrefixM eq self.pre that.pre
    let r ← innerWithCasesM (inPlaceOpM cmp false false noConverter (innerWithGoM eq cmp f fuel)) f n self that
    pure (finish r)

/-- `left_combine_with` (mod.rs:440-468) with fuel -/
def leftWithGoM (eq : K → K → m Bool) (cmp : K → K → m Ordering) (f : MutFn V W) : Nat → Tree K V → Tree K W → m (Tree K V × Flow)
  | 0, self, _ => pure (self, .panic)
  | fuel + 1, self, that => do
    let n ← commonPrefixM eq self.pre that.pre
    let r ← leftWithCasesM (inPlaceOpM cmp true false noConverter (leftWithGoM eq cmp f fuel)) f n self that
    pure (finish r)

/-- `remove_prefix_with` (mod.rs:474-511) with fuel -/
def removePrefixGoM (eq : K → K → m Bool) (cmp : K → K → m Ordering) (f : W → Bool) : Nat → Tree K V → Tree K W → m (Tree K V × Flow)
  | 0, self, _ => pure (self, .panic)
  | fuel + 1, self, that => do
    let n ← commonPrefixM eq self.pre that.pre
    let r ← removePrefixCasesM (inPlaceOpM cmp true false noConverter (removePrefixGoM eq cmp f fuel)) f n self that
    pure (finish r)

/-- `retain_prefix_with` (mod.rs:517-546) with fuel -/
def retainPrefixGoM (eq : K → K → m Bool) (cmp : K → K → m Ordering) (f : W → Bool) : Nat → Tree K V → Tree K W → m (Tree K V × Flow)
  | 0, self, _ => pure (self, .panic)
  | fuel + 1, self, that => do
    let n ← commonPrefixM eq self.pre that.pre
    let r ← retainPrefixCasesM (inPlaceOpM cmp false false noConverter (retainPrefixGoM eq cmp f fuel)) f n self that
    pure (finish r)

/-! ### Combinations into a new tree -/

/-- `pureOp`: the merge operations into a new child vector (mod.rs:1295-1335, 1371-1412, 1448-1489) -/
def pureOpM (cmp : K → K → m Ordering) (takeA takeB : Bool) (convA : Tree K V → Call (Tree K V)) (convB : Tree K W → Call (Tree K V))
    (rec : Tree K V → Tree K W → m (Call (Tree K V))) :
    MergeOpM m (SliceMS (Tree K V) (Tree K W) (Tree K V)) (Tree K V) (Tree K W) where
  cmp := headsCmpM cmp
  fromA s n := (SliceMS.mut convA convB).advanceA s n takeA
  fromB s n := (SliceMS.mut convA convB).advanceB s n takeB
  collision s :=
    match s.a, s.b with
    | x :: as, y :: bs => do
      match ← rec x y with
      | .panic => pure ({ s with a := as, b := bs }, .panic)
      | .ret r => pure ({ a := as, b := bs, r := if r.isEmpty then s.r else s.r ++ [r] }, .cont)
    | _, _ => pure (s, .panic)

/-- `mergeChildren`: `VecMergeState::merge` (mod.rs:1054-1060, 1065-1071, 1076-1082, ...) -/
def mergeChildrenM (op : MergeOpM m (SliceMS (Tree K V) (Tree K W) (Tree K V)) (Tree K V) (Tree K W)) (as : List (Tree K V))
    (bs : List (Tree K W)) : m (Call (List (Tree K V))) :=
  if headed as && headed bs then do
    let r ← driveAllM op { a := as, b := bs, r := [] }
    match r.2 with
    | .panic => pure .panic
    | _ => pure (.ret r.1.r)
  else pure .panic

/-- `bindC`: continue after a call, with effects -/
def bindCM {α β : Type} (c : Call α) (k : α → m (Call β)) : m (Call β) :=
  match c with
  | .panic => pure .panic
  | .ret x => k x

/-- the body of `outer_combine` (mod.rs:1042-1091) -/
def outerCasesM (sort : List (Tree K V) → m (List (Tree K V))) (op : MergeOpM m (SliceMS (Tree K V) (Tree K V) (Tree K V)) (Tree K V) (Tree K V))
    (f : V → V → Option V) (n : Nat) (a b : Tree K V) : m (Call (Tree K V)) :=
  if n = a.pre.length ∧ n = b.pre.length then do
    let ks ← mergeChildrenM op a.kids b.kids
    pure (bindC ks fun ks => mkNode (a.pre.take n) (outerPureVal f a.val b.val) ks)
  else if n = a.pre.length then
    bindCM (b.materializeShortened n) fun b' => do
    let ks ← mergeChildrenM op a.kids [b']
    pure (bindC ks fun ks => mkNode (a.pre.take n) a.val ks)
  else if n = b.pre.length then
    bindCM (a.materializeShortened n) fun a' => do
    let ks ← mergeChildrenM op [a'] b.kids
    pure (bindC ks fun ks => mkNode (a.pre.take n) b.val ks)
  else
    bindCM (a.materializeShortened n) fun a' =>
    bindCM (b.materializeShortened n) fun b' =>
      if headed [a', b'] then do
        let ks ← sort [a', b']
        pure (mkNode (a.pre.take n) none ks)
      else pure .panic

/-- the body of `inner_combine` (mod.rs:1100-1142) -/
def innerCasesM (op : MergeOpM m (SliceMS (Tree K V) (Tree K W) (Tree K V)) (Tree K V) (Tree K W)) (f : V → W → Option V) (n : Nat)
    (a : Tree K V) (b : Tree K W) : m (Call (Tree K V)) :=
  if n = a.pre.length ∧ n = b.pre.length then do
    let ks ← mergeChildrenM op a.kids b.kids
    pure (bindC ks fun ks => mkNode (a.pre.take n) (innerPureVal f a.val b.val) ks)
  else if n = a.pre.length then
    bindCM (b.materializeShortened n) fun b' => do
    let ks ← mergeChildrenM op a.kids [b']
    pure (bindC ks fun ks => mkNode (a.pre.take n) none ks)
  else if n = b.pre.length then
    bindCM (a.materializeShortened n) fun a' => do
    let ks ← mergeChildrenM op [a'] b.kids
    pure (bindC ks fun ks => mkNode (a.pre.take n) none ks)
  else pure (mkNode (a.pre.take n) none [])

/-- the body of `left_combine` (mod.rs:1151-1201) -/
def leftCasesM (op : MergeOpM m (SliceMS (Tree K V) (Tree K W) (Tree K V)) (Tree K V) (Tree K W)) (f : V → Option W → Option V) (n : Nat)
    (a : Tree K V) (b : Tree K W) : m (Call (Tree K V)) :=
  if n = a.pre.length ∧ n = b.pre.length then do
    let ks ← mergeChildrenM op a.kids b.kids
    pure (bindC ks fun ks => mkNode (a.pre.take n) (leftPureVal f a.val b.val) ks)
  else if n = a.pre.length then
    bindCM (b.materializeShortened n) fun b' => do
    let ks ← mergeChildrenM op a.kids [b']
    pure (bindC ks fun ks => mkNode (a.pre.take n) a.val ks)
  else if n = b.pre.length then
    bindCM (a.materializeShortened n) fun a' => do
    let ks ← mergeChildrenM op [a'] b.kids
    pure (bindC ks fun ks => mkNode (a.pre.take n) none ks)
  else pure (bindC (materializeKids a.kids) fun ks => mkNode a.pre a.val ks)

/-- `outer_combine` (mod.rs:1031-1092) with fuel -/
def outerGoM (eq : K → K → m Bool) (cmp : K → K → m Ordering) (sort : List (Tree K V) → m (List (Tree K V))) (f : V → V → Option V) :
    Nat → Tree K V → Tree K V → m (Call (Tree K V))
  | 0, _, _ => pure .panic
  | fuel + 1, a, b => do
    let n ← commonPrefixM eq a.pre b.pre
    outerCasesM sort (pureOpM cmp true true materialize materialize (outerGoM eq cmp sort f fuel)) f n a b

/-- `inner_combine` (mod.rs:1095-1143) with fuel -/
def innerGoM (eq : K → K → m Bool) (cmp : K → K → m Ordering) (f : V → W → Option V) : Nat → Tree K V → Tree K W → m (Call (Tree K V))
  | 0, _, _ => pure .panic
  | fuel + 1, a, b => do
    let n ← commonPrefixM eq a.pre b.pre
    innerCasesM (pureOpM cmp false false materialize noConverter (innerGoM eq cmp f fuel)) f n a b

/-- `left_combine` (mod.rs:1146-1202) with fuel -/
def leftGoM (eq : K → K → m Bool) (cmp : K → K → m Ordering) (f : V → Option W → Option V) : Nat → Tree K V → Tree K W → m (Call (Tree K V))
  | 0, _, _ => pure .panic
  | fuel + 1, a, b => do
    let n ← commonPrefixM eq a.pre b.pre
    leftCasesM (pureOpM cmp true false materialize noConverter (leftGoM eq cmp f fuel)) f n a b

/-! ### Relations -/

/-- `boolOp`: `IntersectOp` (mod.rs:1204-1231) and `NonSubsetOp` (1232-1259) -/
def boolOpM (cmp : K → K → m Ordering) (takeA : Bool) (rec : Tree K V → Tree K W → m (Call Bool)) :
    MergeOpM m (BoolMS (Tree K V) (Tree K W)) (Tree K V) (Tree K W) where
  cmp := headsCmpM cmp
  fromA s n := BoolMS.mut.advanceA s n takeA
  fromB s n := BoolMS.mut.advanceB s n false
  collision s :=
    match s.a, s.b with
    | x :: _, y :: _ => do
      match ← rec x y with
      | .panic => pure (s, .panic)
      | .ret take => pure (andThen (BoolMS.mut.advanceA s 1 take) fun s => BoolMS.mut.advanceB s 1 false)
    | _, _ => pure (s, .panic)

/-- `mergeBool`: `BoolOpMergeState::merge` (mod.rs:971, 1011) -/
def mergeBoolM (op : MergeOpM m (BoolMS (Tree K V) (Tree K W)) (Tree K V) (Tree K W)) (as : List (Tree K V)) (bs : List (Tree K W)) : m (Call Bool) :=
  if headed as && headed bs then do
    let r ← driveAllM op { a := as, b := bs, r := false }
    match r.2 with
    | .panic => pure .panic
    | _ => pure (.ret r.1.r)
  else pure .panic

/-- `iter().any(|x| p(x))` -/
def anyM {α : Type} (p : α → m (Call Bool)) : List α → m (Call Bool)
  | [] => pure (.ret false)
  | x :: xs => do
    match ← p x with
    | .panic => pure .panic
    | .ret true => pure (.ret true)
    | .ret false => anyM p xs

/-- `iter().all(|x| p(x))` -/
def allM {α : Type} (p : α → m (Call Bool)) : List α → m (Call Bool)
  | [] => pure (.ret true)
  | x :: xs => do
    match ← p x with
    | .panic => pure .panic
    | .ret true => allM p xs
    | .ret false => pure (.ret false)

/-- `is_subset0` (mod.rs:961-992) with fuel -/
def isSubsetGoM (eq : K → K → m Bool) (cmp : K → K → m Ordering) : Nat → Tree K V → List K → Tree K W → List K → m (Call Bool)
  | 0, _, _, _, _ => pure .panic
  | fuel + 1, l, lp, r, rp => do
    let n ← commonPrefixM eq lp rp
    if n = lp.length ∧ n = rp.length then
      if l.val.isNone || r.val.isSome then do
        let c ← mergeBoolM (boolOpM cmp true (fun x y => do let c ← isSubsetGoM eq cmp fuel x x.pre y y.pre; pure (notC c))) l.kids r.kids
        pure (notC c)
      else pure (.ret false)
    else if n = lp.length then
      if l.val.isNone then allM (fun lc => isSubsetGoM eq cmp fuel lc lc.pre r (rp.drop n)) l.kids else pure (.ret false)
    else if n = rp.length then anyM (fun rc => isSubsetGoM eq cmp fuel l (lp.drop n) rc rc.pre) r.kids
    else pure (.ret false)

/-- `intersects0` (mod.rs:1001-1028) with fuel -/
def intersectsGoM (eq : K → K → m Bool) (cmp : K → K → m Ordering) : Nat → Tree K V → List K → Tree K W → List K → m (Call Bool)
  | 0, _, _, _, _ => pure .panic
  | fuel + 1, l, lp, r, rp => do
    let n ← commonPrefixM eq lp rp
    if n = lp.length ∧ n = rp.length then
      if l.val.isSome && r.val.isSome then pure (.ret true)
      else mergeBoolM (boolOpM cmp false (fun x y => intersectsGoM eq cmp fuel x x.pre y y.pre)) l.kids r.kids
    else if n = lp.length then anyM (fun lc => intersectsGoM eq cmp fuel lc lc.pre r (rp.drop n)) l.kids
    else if n = rp.length then anyM (fun rc => intersectsGoM eq cmp fuel l (lp.drop n) rc rc.pre) r.kids
    else pure (.ret false)

/-! ### Counting -/

/-- what is counted: calls of `==` and of `cmp` on key components, and the total length of the slices given to `sort_by_key` -/
structure Use where
  eqs : Nat
  cmps : Nat
  sorted : Nat
deriving DecidableEq, Repr

/-- computations that are counted -/
abbrev Counts := StateM Use

/-- the result -/
def Counts.result {β : Type} (c : Counts β) : β := (c ⟨0, 0, 0⟩).1
/-- what was counted -/
def Counts.use {β : Type} (c : Counts β) : Use := (c ⟨0, 0, 0⟩).2

/-- `==`, counted -/
def countEq [DecidableEq K] (x y : K) : Counts Bool := fun u => (decide (x = y), { u with eqs := u.eqs + 1 })
/-- `cmp`, counted -/
def countCmp [Ord K] (x y : K) : Counts Ordering := fun u => (compare x y, { u with cmps := u.cmps + 1 })
/-- `sort_by_key(|x| x.prefix()[0])`, counted by the length of the slice -/
def countSort [Ord K] (ks : List (Tree K V)) : Counts (List (Tree K V)) := fun u => (sortKids ks, { u with sorted := u.sorted + ks.length })

section
variable [Ord K] [DecidableEq K]
/-- `outer_combine_with` (mod.rs:345-391), counted -/
def outerCombineWithC (self that : Tree K V) (f : MutFn V V) : Counts (Tree K V × Flow) :=
  outerWithGoM countEq countCmp countSort f (self.size + that.size + 1) self that
/-- `inner_combine_with` (mod.rs:398-431), counted -/
def innerCombineWithC (self : Tree K V) (that : Tree K W) (f : MutFn V W) : Counts (Tree K V × Flow) :=
  innerWithGoM countEq countCmp f (self.size + that.size + 1) self that
/-- `left_combine_with` (mod.rs:440-468), counted -/
def leftCombineWithC (self : Tree K V) (that : Tree K W) (f : MutFn V W) : Counts (Tree K V × Flow) :=
  leftWithGoM countEq countCmp f (self.size + that.size + 1) self that
/-- `remove_prefix_with` (mod.rs:474-511), counted -/
def removePrefixWithC (self : Tree K V) (that : Tree K W) (f : W → Bool) : Counts (Tree K V × Flow) :=
  removePrefixGoM countEq countCmp f (self.size + that.size + 1) self that
/-- `retain_prefix_with` (mod.rs:517-546), counted -/
def retainPrefixWithC (self : Tree K V) (that : Tree K W) (f : W → Bool) : Counts (Tree K V × Flow) :=
  retainPrefixGoM countEq countCmp f (self.size + that.size + 1) self that
/-- `insert` (mod.rs:261-266), counted -/
def insertC (self : Tree K V) (key : List K) (v : V) : Counts (Tree K V × Flow) :=
  self.outerCombineWithC (single key v) (fun _ b => (b, .ret true))
/-- `outer_combine` (mod.rs:655-661, 1031-1092), counted -/
def outerCombineC (a b : Tree K V) (f : V → V → Option V) : Counts (Call (Tree K V)) :=
  outerGoM countEq countCmp countSort f (a.size + b.size + 1) a b
/-- `inner_combine` (mod.rs:664-670, 1095-1143), counted -/
def innerCombineC (a : Tree K V) (b : Tree K W) (f : V → W → Option V) : Counts (Call (Tree K V)) :=
  innerGoM countEq countCmp f (a.size + b.size + 1) a b
/-- `left_combine` (mod.rs:673-679, 1146-1202), counted -/
def leftCombineC (a : Tree K V) (b : Tree K W) (f : V → Option W → Option V) : Counts (Call (Tree K V)) :=
  leftGoM countEq countCmp f (a.size + b.size + 1) a b
/-- `is_subset` (mod.rs:631-633, 954-959), counted -/
def isSubsetC (l : Tree K V) (r : Tree K W) : Counts (Call Bool) := isSubsetGoM countEq countCmp (l.size + r.size + 1) l l.pre r r.pre
/-- `intersects` (mod.rs:578-580, 994-999), counted -/
def intersectsC (l : Tree K V) (r : Tree K W) : Counts (Call Bool) := intersectsGoM countEq countCmp (l.size + r.size + 1) l l.pre r r.pre
end

end Tree
end Verif
