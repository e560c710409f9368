import Verif.Model.LazyReads
import Verif.Model.Effects
/-!
# Which vectors of children `outer_combine` and `left_combine` look at

As in `Model/LazyReads.lean`, calls of `children()` on nodes of the two operands are counted. Here the merges copy children that have no partner
(`materialize_shortened(0)`), so the calls are counted in the state of the merge.

Simplification: if copying panics (it does not for children with prefixes), the calls are counted as if it had been completed.
-/
namespace Verif.Tree
variable {K V W : Type} [Ord K]

/-- `OuterCombineOp`, `LeftCombineOp` into a new vector (mod.rs:1295-1335, 1448-1489), with the calls so far -/
def pureOpL (i j : Nat) (takeA takeB : Bool) (convA : Tree K V → Call (Tree K V)) (convB : Tree K W → Call (Tree K V))
    (rec : Tree K V → Tree K W → Noted (Call (Tree K V))) :
    MergeOp (SliceMS (Tree K V) (Tree K W) (Tree K V) × Seen) (Tree K V) (Tree K W) where
  cmp := headCmp
  fromA s n :=
    ((((SliceMS.mut convA convB).advanceA s.1 n takeA).1, s.2.add ⟨if takeA then i * copyCalls.copyCallsL (s.1.a.take n) else 0, 0⟩),
      ((SliceMS.mut convA convB).advanceA s.1 n takeA).2)
  fromB s n :=
    ((((SliceMS.mut convA convB).advanceB s.1 n takeB).1, s.2.add ⟨0, if takeB then j * copyCalls.copyCallsL (s.1.b.take n) else 0⟩),
      ((SliceMS.mut convA convB).advanceB s.1 n takeB).2)
  collision s :=
    match s.1.a, s.1.b with
    | x :: as, y :: bs =>
      match (rec x y).res with
      | .panic => (({ s.1 with a := as, b := bs }, s.2.add (rec x y).seen), .panic)
      | .ret r => (({ a := as, b := bs, r := if r.isEmpty then s.1.r else s.1.r ++ [r] }, s.2.add (rec x y).seen), .cont)
    | _, _ => (s, .panic)

/-- `VecMergeState::merge(a, b, op, ..)` (mod.rs:1054-1060, 1065-1071, 1076-1082, 1161-1167, 1172-1178, 1182-1188); a panic loses the result -/
def mergeChildrenL (op : MergeOp (SliceMS (Tree K V) (Tree K W) (Tree K V) × Seen) (Tree K V) (Tree K W)) (as : List (Tree K V))
    (bs : List (Tree K W)) : Noted (Call (List (Tree K V))) :=
  if headed as && headed bs then
    ⟨(mergeAll op ({ a := as, b := bs, r := [] }, Seen.zero)).1.2,
      match (mergeAll op ({ a := as, b := bs, r := [] }, Seen.zero)).2 with
      | .panic => .panic
      | _ => .ret (mergeAll op ({ a := as, b := bs, r := [] }, Seen.zero)).1.1.r⟩
  else pure .panic

/-- the body of `outer_combine` (mod.rs:1042-1091); `i`, `j` as in `innerCasesL` -/
def outerCasesL (rec : Nat → Nat → Tree K V → Tree K V → Noted (Call (Tree K V))) (f : V → V → Option V) (i j n : Nat) (a b : Tree K V) :
    Noted (Call (Tree K V)) :=
  if n = a.pre.length ∧ n = b.pre.length then do
    seeL i
    seeR j
    let ks ← mergeChildrenL (pureOpL i j true true materialize materialize (rec i j)) a.kids b.kids
    pure (bindC ks fun ks => mkNode (a.pre.take n) (outerPureVal f a.val b.val) ks)
  else if n = a.pre.length then do
    seeR (j * b.copyCalls)
    bindCM (b.materializeShortened n) fun b' => do
    seeL i
    let ks ← mergeChildrenL (pureOpL i 0 true true materialize materialize (rec i 0)) a.kids [b']
    pure (bindC ks fun ks => mkNode (a.pre.take n) a.val ks)
  else if n = b.pre.length then do
    seeL (i * a.copyCalls)
    bindCM (a.materializeShortened n) fun a' => do
    seeR j
    let ks ← mergeChildrenL (pureOpL 0 j true true materialize materialize (rec 0 j)) [a'] b.kids
    pure (bindC ks fun ks => mkNode (a.pre.take n) b.val ks)
  else do
    seeL (i * a.copyCalls)
    bindCM (a.materializeShortened n) fun a' => do
    seeR (j * b.copyCalls)
    pure (bindC (b.materializeShortened n) fun b' => if headed [a', b'] then mkNode (a.pre.take n) none (sortKids [a', b']) else .panic)

/-- the body of `left_combine` (mod.rs:1151-1201) -/
def leftCasesL (rec : Nat → Nat → Tree K V → Tree K W → Noted (Call (Tree K V))) (f : V → Option W → Option V) (i j n : Nat) (a : Tree K V) (b : Tree K W) :
    Noted (Call (Tree K V)) :=
  if n = a.pre.length ∧ n = b.pre.length then do
    seeL i
    seeR j
    let ks ← mergeChildrenL (pureOpL i j true false materialize noConverter (rec i j)) a.kids b.kids
    pure (bindC ks fun ks => mkNode (a.pre.take n) (leftPureVal f a.val b.val) ks)
  else if n = a.pre.length then do
    seeR (j * b.copyCalls)
    bindCM (b.materializeShortened n) fun b' => do
    seeL i
    let ks ← mergeChildrenL (pureOpL i 0 true false materialize noConverter (rec i 0)) a.kids [b']
    pure (bindC ks fun ks => mkNode (a.pre.take n) a.val ks)
  else if n = b.pre.length then do
    seeL (i * a.copyCalls)
    bindCM (a.materializeShortened n) fun a' => do
    seeR j
    let ks ← mergeChildrenL (pureOpL 0 j true false materialize noConverter (rec 0 j)) [a'] b.kids
    pure (bindC ks fun ks => mkNode (a.pre.take n) none ks)
  else do
    seeL i
    seeL (i * copyCalls.copyCallsL a.kids)
    pure (bindC (materializeKids a.kids) fun ks => mkNode a.pre a.val ks)

variable [DecidableEq K]

/-- `outer_combine` (mod.rs:1031-1092) with fuel -/
def outerGoL (f : V → V → Option V) : Nat → Nat → Nat → Tree K V → Tree K V → Noted (Call (Tree K V))
  | 0, _, _, _, _ => pure .panic
  | fuel + 1, i, j, a, b => outerCasesL (outerGoL f fuel) f i j (commonPrefix a.pre b.pre) a b
/-- `left_combine` (mod.rs:1146-1202) with fuel -/
def leftGoL (f : V → Option W → Option V) : Nat → Nat → Nat → Tree K V → Tree K W → Noted (Call (Tree K V))
  | 0, _, _, _, _ => pure .panic
  | fuel + 1, i, j, a, b => leftCasesL (leftGoL f fuel) f i j (commonPrefix a.pre b.pre) a b

/-- `outer_combine` (mod.rs:655-661, 1031-1092) -/
def outerCombineL (a b : Tree K V) (f : V → V → Option V) : Noted (Call (Tree K V)) := outerGoL f (a.size + b.size + 1) 1 1 a b
/-- `left_combine` (mod.rs:673-679, 1146-1202) -/
def leftCombineL (a : Tree K V) (b : Tree K W) (f : V → Option W → Option V) : Noted (Call (Tree K V)) := leftGoL f (a.size + b.size + 1) 1 1 a b

end Verif.Tree
