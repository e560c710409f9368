import Verif.Model.RadixWork
/-!
# Which vectors of children the relations and the intersection of two radix trees look at

In a `LazyRadixTree` the children of a node are loaded from the archive when `children()` is called on it for the first time (lazy_radix_tree.rs:55-57, 101-103).
Here the calls of `children()` on nodes of the two operands of `is_subset`, `intersects` and `inner_combine` (mod.rs) are counted; the number of loads is at
most the number of these calls. All functions are those of `Model/RadixTree.lean` (with the driver of the merges, so in the order of the code), with `==` and
`cmp` without effects.

Simplifications: `is_empty` (mod.rs:573-575) is called on nodes of the result only, which are not counted; what `materialize_shortened` calls
is counted by a second function (`copyCalls`).
-/
namespace Verif.Tree

/-- calls of `children()` on nodes of the left and of the right operand -/
structure Seen where
  left : Nat
  right : Nat
deriving DecidableEq, Repr

/-- none -/
def Seen.zero : Seen := ⟨0, 0⟩
/-- both -/
def Seen.add (a b : Seen) : Seen := ⟨a.left + b.left, a.right + b.right⟩

/-- a result, and the calls made for it -/
structure Noted (α : Type) where
  seen : Seen
  res : α

/-- sequencing adds the calls -/
instance : Monad Noted where
  pure a := ⟨Seen.zero, a⟩
  bind m f := ⟨m.seen.add (f m.res).seen, (f m.res).res⟩

/-- `children()` of a node of the left operand (`i = 1`; `i = 0` if the node is a fresh one) -/
def seeL (i : Nat) : Noted Unit := ⟨⟨i, 0⟩, ()⟩
/-- `children()` of a node of the right operand -/
def seeR (i : Nat) : Noted Unit := ⟨⟨0, i⟩, ()⟩
/-- the calls of `children()` in `materialize_shortened` (mod.rs:642-652): one for each node -/
def copyCalls {K V : Type} : Tree K V → Nat
  | ⟨_, _, ks⟩ => 1 + copyCallsL ks
where
  /-- in the closure given to `map` (mod.rs:647-650) -/
  copyCallsL : List (Tree K V) → Nat
    | [] => 0
    | k :: ks => copyCalls k + copyCallsL ks
/-- `cmp` of key components -/
def quietCmp {K : Type} [Ord K] (x y : K) : Noted Ordering := pure (compare x y)

variable {K V W : Type} [Ord K] [DecidableEq K]

/-- `is_subset0` (mod.rs:961-992) with fuel -/
def isSubsetGoL : Nat → Tree K V → List K → Tree K W → List K → Noted (Call Bool)
  | 0, _, _, _, _ => pure .panic
  | fuel + 1, l, lp, r, rp =>
    if commonPrefix lp rp = lp.length ∧ commonPrefix lp rp = rp.length then
      if l.val.isNone || r.val.isSome then do
        seeL 1
        seeR 1
        let c ← mergeBoolM (boolOpM quietCmp true (fun x y => do let c ← isSubsetGoL fuel x x.pre y y.pre; pure (notC c))) l.kids r.kids
        pure (notC c)
      else pure (.ret false)
    else if commonPrefix lp rp = lp.length then
      if l.val.isNone then do
        seeL 1
        allM (fun lc => isSubsetGoL fuel lc lc.pre r (rp.drop (commonPrefix lp rp))) l.kids
      else pure (.ret false)
    else if commonPrefix lp rp = rp.length then do
      seeR 1
      anyM (fun rc => isSubsetGoL fuel l (lp.drop (commonPrefix lp rp)) rc rc.pre) r.kids
    else pure (.ret false)

/-- `intersects0` (mod.rs:1001-1028) with fuel -/
def intersectsGoL : Nat → Tree K V → List K → Tree K W → List K → Noted (Call Bool)
  | 0, _, _, _, _ => pure .panic
  | fuel + 1, l, lp, r, rp =>
    if commonPrefix lp rp = lp.length ∧ commonPrefix lp rp = rp.length then
      if l.val.isSome && r.val.isSome then pure (.ret true)
      else do
        seeL 1
        seeR 1
        mergeBoolM (boolOpM quietCmp false (fun x y => intersectsGoL fuel x x.pre y y.pre)) l.kids r.kids
    else if commonPrefix lp rp = lp.length then do
      seeL 1
      anyM (fun lc => intersectsGoL fuel lc lc.pre r (rp.drop (commonPrefix lp rp))) l.kids
    else if commonPrefix lp rp = rp.length then do
      seeR 1
      anyM (fun rc => intersectsGoL fuel l (lp.drop (commonPrefix lp rp)) rc rc.pre) r.kids
    else pure (.ret false)

/-- the body of `inner_combine` (mod.rs:1100-1142). `i`, `j`: whether nodes of the left and right tree are counted; those of a tree made by `materialize_shortened`
(`rec` with 0) are not. -/
def innerCasesL (rec : Nat → Nat → Tree K V → Tree K W → Noted (Call (Tree K V))) (f : V → W → Option V) (i j n : Nat) (a : Tree K V) (b : Tree K W) :
    Noted (Call (Tree K V)) :=
  if n = a.pre.length ∧ n = b.pre.length then do
    seeL i
    seeR j
    let ks ← mergeChildrenM (pureOpM quietCmp false false materialize noConverter (rec i j)) a.kids b.kids
    pure (bindC ks fun ks => mkNode (a.pre.take n) (innerPureVal f a.val b.val) ks)
  else if n = a.pre.length then do
    seeR (j * b.copyCalls)
    bindCM (b.materializeShortened n) fun b' => do
    seeL i
    let ks ← mergeChildrenM (pureOpM quietCmp false false materialize noConverter (rec i 0)) a.kids [b']
    pure (bindC ks fun ks => mkNode (a.pre.take n) none ks)
  else if n = b.pre.length then do
    seeL (i * a.copyCalls)
    bindCM (a.materializeShortened n) fun a' => do
    seeR j
    let ks ← mergeChildrenM (pureOpM quietCmp false false materialize noConverter (rec 0 j)) [a'] b.kids
    pure (bindC ks fun ks => mkNode (a.pre.take n) none ks)
  else pure (mkNode (a.pre.take n) none [])

/-- `inner_combine` (mod.rs:1095-1143) with fuel -/
def innerGoL (f : V → W → Option V) : Nat → Nat → Nat → Tree K V → Tree K W → Noted (Call (Tree K V))
  | 0, _, _, _, _ => pure .panic
  | fuel + 1, i, j, a, b => innerCasesL (innerGoL f fuel) f i j (commonPrefix a.pre b.pre) a b

/-- `is_subset` (mod.rs:631-633, 954-959) -/
def isSubsetL (l : Tree K V) (r : Tree K W) : Noted (Call Bool) := isSubsetGoL (l.size + r.size + 1) l l.pre r r.pre
/-- `intersects` (mod.rs:578-580, 994-999) -/
def intersectsL (l : Tree K V) (r : Tree K W) : Noted (Call Bool) := intersectsGoL (l.size + r.size + 1) l l.pre r r.pre
/-- `inner_combine` (mod.rs:663-670, 1095-1143) -/
def innerCombineL (a : Tree K V) (b : Tree K W) (f : V → W → Option V) : Noted (Call (Tree K V)) := innerGoL f (a.size + b.size + 1) 1 1 a b

end Verif.Tree
