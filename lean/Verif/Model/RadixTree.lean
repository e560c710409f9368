import Verif.Model.MergeState
/-!
# Model of /repo/src/radix_tree/mod.rs and flat_radix_tree.rs

All flavours of trees in the crate (`RadixTree`, `ArcRadixTree`, `LazyRadixTree` and the archived forms) expose a prefix, an optional value
and a slice of children (trait `AbstractRadixTree`, mod.rs:559-570) and get all operations from default methods written against these, so
one tree type serves for all of them. Sharing (`Arc`) and lazy loading are modelled in `Model/ArcTree.lean` and `Model/LazyTree.lean`.

* Keys components (`K: TKey`) are plain copyable data: `==` on them is identity (`DecidableEq`), and `Ord` is consistent with it.
* `&mut self` methods return the new tree together with a `Flow`: the tree is the one left behind, also when a closure or an assertion
  panics in the middle.
* The recursion of the combination functions is not structural, so they take fuel; running out of it counts as a panic. The public
  functions supply `a.size + b.size + 1`, and the theorems show that no panic happens, so the recursion depth is bounded by that.
* Wherever the code evaluates `x.prefix()[0]` for children `x` the model requires *all* the children involved to have a non-empty
  prefix and panics otherwise. The code panics only if such a child is actually looked at, so the model panics more often (which
  only makes "no panic" theorems stronger).
-/
namespace Verif

/-- `struct RadixTree { prefix, value, children }` (flat_radix_tree.rs:7-11); `Fragment` (mod.rs:62) is a list of key components -/
structure Tree (K V : Type _) where
  pre : List K
  val : Option V
  kids : List (Tree K V)

namespace Tree

/-- number of nodes plus number of key components: the fuel of the recursive functions (not in the code) -/
def size {K V : Type _} : Tree K V → Nat
  | ⟨p, _, ks⟩ => 1 + p.length + sizeL ks
where
  /-- sum of the sizes -/
  sizeL : List (Tree K V) → Nat
    | [] => 0
    | c :: cs => size c + sizeL cs

/-- `common_prefix` (mod.rs:53-55): number of leading positions at which both slices agree -/
def commonPrefix {K : Type _} [DecidableEq K] : List K → List K → Nat
  | x :: xs, y :: ys => if x = y then commonPrefix xs ys + 1 else 0
  | _, _ => 0

section basic
variable {K V W : Type _}

/-- `RadixTree::default()` (flat_radix_tree.rs:61-69), `empty` (mod.rs:246-248) -/
def empty : Tree K V := { pre := [], val := none, kids := [] }

/-- `leaf` (mod.rs:251-253) -/
def leaf (v : V) : Tree K V := { pre := [], val := some v, kids := [] }

/-- `single` (mod.rs:256-258) -/
def single (key : List K) (v : V) : Tree K V := { pre := key, val := some v, kids := [] }

/-- `is_empty` (mod.rs:573-575) -/
def isEmpty (t : Tree K V) : Bool := t.val.isNone && t.kids.isEmpty

/-- `split(n)` (mod.rs:131-140) with its assertion `n < prefix.len()` -/
def split (t : Tree K V) (n : Nat) : Tree K V × Flow :=
  if n < t.pre.length then
    ({ pre := t.pre.take n, val := none, kids := [{ pre := t.pre.drop n, val := t.val, kids := t.kids }] }, .cont)
  else (t, .panic)

/-- `prepend0` (mod.rs:160-167) and the public `prepend` (mod.rs:288-295), whose bodies are the same -/
def prepend (t : Tree K V) (p : List K) : Tree K V :=
  if !p.isEmpty && !t.isEmpty then { t with pre := p ++ t.pre } else t

/-- first part of `unsplit`: `children.retain(|x| !x.is_empty())` (mod.rs:146) -/
def dropEmptyKids (t : Tree K V) : Tree K V := { t with kids := t.kids.filter (fun x => !x.isEmpty) }

/-- second part of `unsplit`: a node without value and with a single child is replaced by the child (mod.rs:148-152) -/
def mergeOnlyChild (t : Tree K V) : Tree K V :=
  match t.kids, t.val with
  | [child], none => child.prepend t.pre
  | _, _ => t

/-- third part of `unsplit`: the prefix of an empty node is cleared (mod.rs:155-157) -/
def clearEmptyPrefix (t : Tree K V) : Tree K V := if t.isEmpty then { t with pre := [] } else t

/-- `unsplit` (mod.rs:143-158) -/
def unsplit (t : Tree K V) : Tree K V := t.dropEmptyKids.mergeOnlyChild.clearEmptyPrefix

mutual
/-- `materialize_shortened(n)` (mod.rs:642-652) with its assertion `n < prefix.len()`; also the free function of the same name
(mod.rs:771-783) -/
def materializeShortened : Tree K V → Nat → Call (Tree K V)
  | ⟨p, v, ks⟩, n =>
    if n < p.length then
      match materializeKids ks with
      | .panic => .panic
      | .ret ks => .ret { pre := p.drop n, val := v, kids := ks }
    else .panic
/-- `children().iter().map(|x| x.materialize_shortened(0)).collect()` (mod.rs:647-650) -/
def materializeKids : List (Tree K V) → Call (List (Tree K V))
  | [] => .ret []
  | c :: cs =>
    match materializeShortened c 0 with
    | .panic => .panic
    | .ret c =>
      match materializeKids cs with
      | .panic => .panic
      | .ret cs => .ret (c :: cs)
end

/-- `materialize` (mod.rs:762-769); `RadixTreeConverter::convert` (mod.rs:944-952) -/
def materialize (t : Tree K V) : Call (Tree K V) := t.materializeShortened 0

/-- `x.prefix()[0]` can be evaluated for all children in the list -/
def headed (ks : List (Tree K V)) : Bool := ks.all (fun x => !x.pre.isEmpty)

/-- `a.prefix()[0].cmp(&b.prefix()[0])`, the `cmp` of all the merge operations below (mod.rs:1215-1217, 1243-1245, 1274-1276, 1306-1308, ...); only used
where `headed` holds -/
def headCmp [Ord K] (a : Tree K V) (b : Tree K W) : Ordering := compare a.pre.head? b.pre.head?

/-- `children.sort_by_key(|x| x.prefix()[0])` (mod.rs:388, 1087) -/
def sortKids [Ord K] (ks : List (Tree K V)) : List (Tree K V) := stableSortBy headCmp ks

end basic

/-! ### Merge operations on children -/

section ops
variable {K V W : Type _} [Ord K]

/-- The in-place merge operations on child vectors (`InPlaceVecMergeStateRef`): `OuterCombineOp` (mod.rs:1262-1293), `InnerCombineOp`
(1338-1369), `LeftCombineOp` (1415-1446), `RemovePrefixOp` (1492-1523), `RetainPrefixOp` (1526-1557). They differ only in whether
unmatched children are taken over from `a` and `b` and in the function applied to matched ones: `collision` modifies `a[0]` in place, then
keeps it unless it became empty and skips `b[0]`. -/
def inPlaceOp (takeA takeB : Bool) (conv : Tree K W → Call (Tree K V)) (rec : Tree K V → Tree K W → Tree K V × Flow) :
    MergeOp (InPlaceMS (Tree K V) (Tree K W)) (Tree K V) (Tree K W) where
  cmp := headCmp
  fromA s n := (InPlaceMS.mut conv).advanceA s n takeA
  fromB s n := (InPlaceMS.mut conv).advanceB s n takeB
  collision s :=
    match s.src, s.b with
    | x :: as, y :: _ =>
      andThen ({ s with src := (rec x y).1 :: as }, (rec x y).2) fun s =>
      andThen ((InPlaceMS.mut conv).advanceA s 1 (!(rec x y).1.isEmpty)) fun s =>
      (InPlaceMS.mut conv).advanceB s 1 false
    | _, _ => (s, .panic)

/-- `OuterCombineOp` in place, with `RadixTreeConverter` (mod.rs:169-180, 1262-1293) -/
def outerWithOp (rec : Tree K V → Tree K V → Tree K V × Flow) := inPlaceOp true true materialize rec
/-- `InnerCombineOp` in place, with `NoConverter` (mod.rs:182-194, 1338-1369) -/
def innerWithOp (rec : Tree K V → Tree K W → Tree K V × Flow) := inPlaceOp false false noConverter rec
/-- `LeftCombineOp` in place, with `NoConverter` (mod.rs:196-208, 1415-1446) -/
def leftWithOp (rec : Tree K V → Tree K W → Tree K V × Flow) := inPlaceOp true false noConverter rec
/-- `RemovePrefixOp`, with `NoConverter` (mod.rs:223-235, 1492-1523) -/
def removePrefixOp (rec : Tree K V → Tree K W → Tree K V × Flow) := inPlaceOp true false noConverter rec
/-- `RetainPrefixOp`, with `NoConverter` (mod.rs:210-221, 1526-1557) -/
def retainPrefixOp (rec : Tree K V → Tree K W → Tree K V × Flow) := inPlaceOp false false noConverter rec

/-- `outer_combine_children_with`, `inner_…`, `left_…`, `retain_prefix_…`, `remove_prefix_children_with` (mod.rs:169-235): merge `rhs` into
the children -/
def childrenWith (op : MergeOp (InPlaceMS (Tree K V) (Tree K W)) (Tree K V) (Tree K W)) (t : Tree K V) (rhs : List (Tree K W)) :
    Tree K V × Flow :=
  if headed t.kids && headed rhs then
    ({ t with kids := (InPlaceMS.merge t.kids rhs op).1 }, (InPlaceMS.merge t.kids rhs op).2)
  else (t, .panic)

/-- The merge operations into a new child vector (`VecMergeState`): `OuterCombineOp` (mod.rs:1295-1335), `InnerCombineOp` (1371-1412),
`LeftCombineOp` (1448-1489). `collision` takes one child from each side (`next().unwrap()`) and pushes the combination unless it is empty. -/
def pureOp (takeA takeB : Bool) (convA : Tree K V → Call (Tree K V)) (convB : Tree K W → Call (Tree K V))
    (rec : Tree K V → Tree K W → Call (Tree K V)) :
    MergeOp (SliceMS (Tree K V) (Tree K W) (Tree K V)) (Tree K V) (Tree K W) where
  cmp := headCmp
  fromA s n := (SliceMS.mut convA convB).advanceA s n takeA
  fromB s n := (SliceMS.mut convA convB).advanceB s n takeB
  collision s :=
    match s.a, s.b with
    | x :: as, y :: bs =>
      match rec x y with
      | .panic => ({ s with a := as, b := bs }, .panic)
      | .ret r => ({ a := as, b := bs, r := if r.isEmpty then s.r else s.r ++ [r] }, .cont)
    | _, _ => (s, .panic)

/-- `OuterCombineOp` into a new vector (mod.rs:1295-1335) -/
def outerOp (rec : Tree K V → Tree K V → Call (Tree K V)) := pureOp true true materialize materialize rec
/-- `InnerCombineOp` into a new vector (mod.rs:1371-1412) -/
def innerOp (rec : Tree K V → Tree K W → Call (Tree K V)) := pureOp false false materialize noConverter rec
/-- `LeftCombineOp` into a new vector (mod.rs:1448-1489) -/
def leftOp (rec : Tree K V → Tree K W → Call (Tree K V)) := pureOp true false materialize noConverter rec

/-- `VecMergeState::merge(a, b, op, ..)` as used at mod.rs:1054-1060, 1065-1071, 1076-1082, ...; a panic loses the result -/
def mergeChildren (op : MergeOp (SliceMS (Tree K V) (Tree K W) (Tree K V)) (Tree K V) (Tree K W)) (as : List (Tree K V))
    (bs : List (Tree K W)) : Call (List (Tree K V)) :=
  if headed as && headed bs then
    match (SliceMS.merge as bs op).2 with
    | .panic => .panic
    | _ => .ret (SliceMS.merge as bs op).1
  else .panic

/-- `IntersectOp` (mod.rs:1204-1231) and `NonSubsetOp` (1232-1259) on `BoolOpMergeState`; they differ in `takeA` and in the test `rec` applied
to matched children -/
def boolOp (takeA : Bool) (rec : Tree K V → Tree K W → Call Bool) :
    MergeOp (BoolMS (Tree K V) (Tree K W)) (Tree K V) (Tree K W) where
  cmp := headCmp
  fromA s n := BoolMS.mut.advanceA s n takeA
  fromB s n := BoolMS.mut.advanceB s n false
  collision s :=
    match s.a, s.b with
    | x :: _, y :: _ =>
      match rec x y with
      | .panic => (s, .panic)
      | .ret take => andThen (BoolMS.mut.advanceA s 1 take) fun s => BoolMS.mut.advanceB s 1 false
    | _, _ => (s, .panic)

/-- `BoolOpMergeState::merge(l.children(), r.children(), op)` (mod.rs:971, 1011) -/
def mergeBool (op : MergeOp (BoolMS (Tree K V) (Tree K W)) (Tree K V) (Tree K W)) (as : List (Tree K V)) (bs : List (Tree K W)) : Call Bool :=
  if headed as && headed bs then
    match (BoolMS.merge as bs op).2 with
    | .panic => .panic
    | _ => .ret (BoolMS.merge as bs op).1
  else .panic

end ops

/-! ### In-place combinations -/

/-- A closure `Fn(&mut V, &W) -> bool`: the new value, and the answer or a panic (after which the value may already have been changed). -/
abbrev MutFn (V W : Type _) := V → W → V × Call Bool

section inplace
variable {K V W : Type _}

/-- replace the value of a node; the flow is that of the closure -/
def withVal (t : Tree K V) (r : Option V × Flow) : Tree K V × Flow := ({ t with val := r.1 }, r.2)

/-- `if !f(v, w) { *self.value_mut() = None }` (mod.rs:355-357, 376-378, 407-409, 450-452) -/
def applyMut (f : MutFn V W) (v : V) (w : W) : Option V × Flow :=
  match f v w with
  | (v, .ret true) => (some v, .cont)
  | (_, .ret false) => (none, .cont)
  | (v, .panic) => (some v, .panic)

/-- value part of `outer_combine_with` (mod.rs:353-361 and 374-382) -/
def outerVal (f : MutFn V V) (v w : Option V) : Option V × Flow :=
  match w with
  | some w =>
    match v with
    | some v => applyMut f v w
    | none => (some w, .cont)
  | none => (v, .cont)

/-- value part of `inner_combine_with` (mod.rs:406-412) -/
def innerVal (f : MutFn V W) (v : Option V) (w : Option W) : Option V × Flow :=
  match v, w with
  | some v, some w => applyMut f v w
  | _, _ => (none, .cont)

/-- value part of `left_combine_with` (mod.rs:448-454) -/
def leftVal (f : MutFn V W) (v : Option V) (w : Option W) : Option V × Flow :=
  match w with
  | some w =>
    match v with
    | some v => applyMut f v w
    | none => (none, .cont)
  | none => (v, .cont)

/-- continue with a materialized tree, or panic leaving `t` -/
def withMat (m : Call (Tree K W)) (t : Tree K V) (k : Tree K W → Tree K V × Flow) : Tree K V × Flow :=
  match m with
  | .panic => (t, .panic)
  | .ret x => k x

variable [Ord K]

/-- the cases of `outer_combine_with` after computing `n` and before `unsplit` (mod.rs:350-389); `op` merges children -/
def outerWithCases (op : MergeOp (InPlaceMS (Tree K V) (Tree K V)) (Tree K V) (Tree K V)) (f : MutFn V V) (n : Nat) (self that : Tree K V) :
    Tree K V × Flow :=
  if n = self.pre.length ∧ n = that.pre.length then
    andThen (self.withVal (outerVal f self.val that.val)) fun self => childrenWith op self that.kids
  else if n = self.pre.length then
    withMat (that.materializeShortened n) self fun that => childrenWith op self [that]
  else if n = that.pre.length then
    andThen (self.split n) fun self =>
    andThen (self.withVal (outerVal f self.val that.val)) fun self => childrenWith op self that.kids
  else
    andThen (self.split n) fun self =>
    withMat (that.materializeShortened n) self fun that =>
      if headed (self.kids ++ [that]) then ({ self with kids := sortKids (self.kids ++ [that]) }, .cont)
      else ({ self with kids := self.kids ++ [that] }, .panic)

/-- the cases of `inner_combine_with` (mod.rs:403-429) -/
def innerWithCases (op : MergeOp (InPlaceMS (Tree K V) (Tree K W)) (Tree K V) (Tree K W)) (f : MutFn V W) (n : Nat) (self : Tree K V)
    (that : Tree K W) : Tree K V × Flow :=
  if n = self.pre.length ∧ n = that.pre.length then
    andThen (self.withVal (innerVal f self.val that.val)) fun self => childrenWith op self that.kids
  else if n = self.pre.length then
    withMat (that.materializeShortened n) { self with val := none } fun that => childrenWith op { self with val := none } [that]
  else if n = that.pre.length then
    andThen (self.split n) fun self => childrenWith op self that.kids
  else ({ self with val := none, kids := [] }, .cont)

/-- the cases of `left_combine_with` (mod.rs:445-466) -/
def leftWithCases (op : MergeOp (InPlaceMS (Tree K V) (Tree K W)) (Tree K V) (Tree K W)) (f : MutFn V W) (n : Nat) (self : Tree K V)
    (that : Tree K W) : Tree K V × Flow :=
  if n = self.pre.length ∧ n = that.pre.length then
    andThen (self.withVal (leftVal f self.val that.val)) fun self => childrenWith op self that.kids
  else if n = self.pre.length then
    withMat (that.materializeShortened n) self fun that => childrenWith op self [that]
  else if n = that.pre.length then
    andThen (self.split n) fun self => childrenWith op self that.kids
  else (self, .cont)

/-- `matches!(that.value(), Some(value) if f(value))` -/
def selected (f : W → Bool) (v : Option W) : Bool :=
  match v with
  | some w => f w
  | none => false

/-- the cases of `remove_prefix_with` (mod.rs:479-509) -/
def removePrefixCases (op : MergeOp (InPlaceMS (Tree K V) (Tree K W)) (Tree K V) (Tree K W)) (f : W → Bool) (n : Nat) (self : Tree K V)
    (that : Tree K W) : Tree K V × Flow :=
  if n = self.pre.length ∧ n = that.pre.length then
    if selected f that.val then ({ self with val := none, kids := [] }, .cont)
    else childrenWith op self that.kids
  else if n = that.pre.length then
    if selected f that.val then ({ self with val := none, kids := [] }, .cont)
    else andThen (self.split n) fun self => childrenWith op self that.kids
  else if n = self.pre.length then
    withMat (that.materializeShortened n) self fun that => childrenWith op self [that]
  else (self, .cont)

/-- the cases of `retain_prefix_with` (mod.rs:522-544); `that.value().is_none() || !f(that.value().unwrap())` is `!selected f that.val` -/
def retainPrefixCases (op : MergeOp (InPlaceMS (Tree K V) (Tree K W)) (Tree K V) (Tree K W)) (f : W → Bool) (n : Nat) (self : Tree K V)
    (that : Tree K W) : Tree K V × Flow :=
  if n = self.pre.length ∧ n = that.pre.length then
    if !selected f that.val then childrenWith op { self with val := none } that.kids
    else (self, .cont)
  else if n = that.pre.length then
    if !selected f that.val then andThen (self.split n) fun self => childrenWith op self that.kids
    else (self, .cont)
  else if n = self.pre.length then
    withMat (that.materializeShortened n) { self with val := none } fun that => childrenWith op { self with val := none } [that]
  else ({ self with val := none, kids := [] }, .cont)

/-- `self.unsplit()` at the end of each operation -/
def finish (r : Tree K V × Flow) : Tree K V × Flow := andThen r fun t => (t.unsplit, .cont)

variable [DecidableEq K]

/-- `outer_combine_with` (mod.rs:345-391) with fuel -/
def outerWithGo (f : MutFn V V) : Nat → Tree K V → Tree K V → Tree K V × Flow
  | 0, self, _ => (self, .panic)
  | fuel + 1, self, that =>
    finish (outerWithCases (outerWithOp (outerWithGo f fuel)) f (commonPrefix self.pre that.pre) self that)

/-- `inner_combine_with` (mod.rs:398-431) with fuel -/
def innerWithGo (f : MutFn V W) : Nat → Tree K V → Tree K W → Tree K V × Flow
  | 0, self, _ => (self, .panic)
  | fuel + 1, self, that =>
    finish (innerWithCases (innerWithOp (innerWithGo f fuel)) f (commonPrefix self.pre that.pre) self that)

/-- `left_combine_with` (mod.rs:440-468) with fuel -/
def leftWithGo (f : MutFn V W) : Nat → Tree K V → Tree K W → Tree K V × Flow
  | 0, self, _ => (self, .panic)
  | fuel + 1, self, that =>
    finish (leftWithCases (leftWithOp (leftWithGo f fuel)) f (commonPrefix self.pre that.pre) self that)

/-- `remove_prefix_with` (mod.rs:474-511) with fuel -/
def removePrefixGo (f : W → Bool) : Nat → Tree K V → Tree K W → Tree K V × Flow
  | 0, self, _ => (self, .panic)
  | fuel + 1, self, that =>
    finish (removePrefixCases (removePrefixOp (removePrefixGo f fuel)) f (commonPrefix self.pre that.pre) self that)

/-- `retain_prefix_with` (mod.rs:517-546) with fuel -/
def retainPrefixGo (f : W → Bool) : Nat → Tree K V → Tree K W → Tree K V × Flow
  | 0, self, _ => (self, .panic)
  | fuel + 1, self, that =>
    finish (retainPrefixCases (retainPrefixOp (retainPrefixGo f fuel)) f (commonPrefix self.pre that.pre) self that)

/-- `outer_combine_with` (mod.rs:345-391) -/
def outerCombineWith (self that : Tree K V) (f : MutFn V V) : Tree K V × Flow := outerWithGo f (self.size + that.size + 1) self that
/-- `inner_combine_with` (mod.rs:398-431) -/
def innerCombineWith (self : Tree K V) (that : Tree K W) (f : MutFn V W) : Tree K V × Flow :=
  innerWithGo f (self.size + that.size + 1) self that
/-- `left_combine_with` (mod.rs:440-468) -/
def leftCombineWith (self : Tree K V) (that : Tree K W) (f : MutFn V W) : Tree K V × Flow :=
  leftWithGo f (self.size + that.size + 1) self that
/-- `remove_prefix_with` (mod.rs:474-511) -/
def removePrefixWith (self : Tree K V) (that : Tree K W) (f : W → Bool) : Tree K V × Flow :=
  removePrefixGo f (self.size + that.size + 1) self that
/-- `retain_prefix_with` (mod.rs:517-546) -/
def retainPrefixWith (self : Tree K V) (that : Tree K W) (f : W → Bool) : Tree K V × Flow :=
  retainPrefixGo f (self.size + that.size + 1) self that

/-- `insert` (mod.rs:261-266): `outer_combine_with(&single(key, value), |a, b| { *a = b.clone(); true })` -/
def insert (self : Tree K V) (key : List K) (v : V) : Tree K V × Flow :=
  self.outerCombineWith (single key v) (fun _ b => (b, .ret true))
/-- `union_with` (mod.rs:310-315) -/
def unionWith (self that : Tree K V) : Tree K V × Flow := self.outerCombineWith that (fun a _ => (a, .ret true))
/-- `intersection_with` (mod.rs:323-325) -/
def intersectionWith (self : Tree K V) (that : Tree K W) : Tree K V × Flow := self.innerCombineWith that (fun a _ => (a, .ret true))
/-- `difference_with` (mod.rs:336-338) -/
def differenceWith (self : Tree K V) (that : Tree K W) : Tree K V × Flow := self.leftCombineWith that (fun a _ => (a, .ret false))

/-- `FromIterator for RadixTree` (flat_radix_tree.rs:29-37): insert one after the other -/
def fromIter (l : List (List K × V)) : Tree K V × Flow :=
  l.foldl (fun r e => andThen r fun t => t.insert e.1 e.2) (empty, .cont)

end inplace

/-! ### Combinations into a new tree -/

section pure
variable {K V W : Type _}

/-- continue after a call -/
def bindC {α β : Type _} (c : Call α) (k : α → Call β) : Call β :=
  match c with
  | .panic => .panic
  | .ret x => k x

/-- value part of `outer_combine` (mod.rs:1048-1053) -/
def outerPureVal (f : V → V → Option V) (v w : Option V) : Option V :=
  match v, w with
  | some a, some b => f a b
  | some a, none => some a
  | none, some b => some b
  | none, none => none

/-- value part of `inner_combine` (mod.rs:1106-1109) -/
def innerPureVal (f : V → W → Option V) (v : Option V) (w : Option W) : Option V :=
  match v, w with
  | some a, some b => f a b
  | _, _ => none

/-- value part of `left_combine` (mod.rs:1157-1160) -/
def leftPureVal (f : V → Option W → Option V) (v : Option V) (w : Option W) : Option V :=
  match v with
  | some a => f a w
  | none => none

/-- `R::new(prefix, value, children)` followed by `unsplit` (mod.rs:1089-1091, 1140-1142, 1199-1201) -/
def mkNode (p : List K) (v : Option V) (ks : List (Tree K V)) : Call (Tree K V) := .ret (unsplit { pre := p, val := v, kids := ks })

variable [Ord K]

/-- the body of `outer_combine` after computing `n` (mod.rs:1042-1091) -/
def outerCases (op : MergeOp (SliceMS (Tree K V) (Tree K V) (Tree K V)) (Tree K V) (Tree K V)) (f : V → V → Option V) (n : Nat)
    (a b : Tree K V) : Call (Tree K V) :=
  if n = a.pre.length ∧ n = b.pre.length then
    bindC (mergeChildren op a.kids b.kids) fun ks => mkNode (a.pre.take n) (outerPureVal f a.val b.val) ks
  else if n = a.pre.length then
    bindC (b.materializeShortened n) fun b' =>
    bindC (mergeChildren op a.kids [b']) fun ks => mkNode (a.pre.take n) a.val ks
  else if n = b.pre.length then
    bindC (a.materializeShortened n) fun a' =>
    bindC (mergeChildren op [a'] b.kids) fun ks => mkNode (a.pre.take n) b.val ks
  else
    bindC (a.materializeShortened n) fun a' =>
    bindC (b.materializeShortened n) fun b' =>
      if headed [a', b'] then mkNode (a.pre.take n) none (sortKids [a', b']) else .panic

/-- the body of `inner_combine` (mod.rs:1100-1142) -/
def innerCases (op : MergeOp (SliceMS (Tree K V) (Tree K W) (Tree K V)) (Tree K V) (Tree K W)) (f : V → W → Option V) (n : Nat)
    (a : Tree K V) (b : Tree K W) : Call (Tree K V) :=
  if n = a.pre.length ∧ n = b.pre.length then
    bindC (mergeChildren op a.kids b.kids) fun ks => mkNode (a.pre.take n) (innerPureVal f a.val b.val) ks
  else if n = a.pre.length then
    bindC (b.materializeShortened n) fun b' =>
    bindC (mergeChildren op a.kids [b']) fun ks => mkNode (a.pre.take n) none ks
  else if n = b.pre.length then
    bindC (a.materializeShortened n) fun a' =>
    bindC (mergeChildren op [a'] b.kids) fun ks => mkNode (a.pre.take n) none ks
  else mkNode (a.pre.take n) none []

/-- the body of `left_combine` (mod.rs:1151-1201) -/
def leftCases (op : MergeOp (SliceMS (Tree K V) (Tree K W) (Tree K V)) (Tree K V) (Tree K W)) (f : V → Option W → Option V) (n : Nat)
    (a : Tree K V) (b : Tree K W) : Call (Tree K V) :=
  if n = a.pre.length ∧ n = b.pre.length then
    bindC (mergeChildren op a.kids b.kids) fun ks => mkNode (a.pre.take n) (leftPureVal f a.val b.val) ks
  else if n = a.pre.length then
    bindC (b.materializeShortened n) fun b' =>
    bindC (mergeChildren op a.kids [b']) fun ks => mkNode (a.pre.take n) a.val ks
  else if n = b.pre.length then
    bindC (a.materializeShortened n) fun a' =>
    bindC (mergeChildren op [a'] b.kids) fun ks => mkNode (a.pre.take n) none ks
  else bindC (materializeKids a.kids) fun ks => mkNode a.pre a.val ks

variable [DecidableEq K]

/-- `outer_combine` (mod.rs:1031-1092) with fuel -/
def outerGo (f : V → V → Option V) : Nat → Tree K V → Tree K V → Call (Tree K V)
  | 0, _, _ => .panic
  | fuel + 1, a, b => outerCases (outerOp (outerGo f fuel)) f (commonPrefix a.pre b.pre) a b
/-- `inner_combine` (mod.rs:1095-1143) with fuel -/
def innerGo (f : V → W → Option V) : Nat → Tree K V → Tree K W → Call (Tree K V)
  | 0, _, _ => .panic
  | fuel + 1, a, b => innerCases (innerOp (innerGo f fuel)) f (commonPrefix a.pre b.pre) a b
/-- `left_combine` (mod.rs:1146-1202) with fuel -/
def leftGo (f : V → Option W → Option V) : Nat → Tree K V → Tree K W → Call (Tree K V)
  | 0, _, _ => .panic
  | fuel + 1, a, b => leftCases (leftOp (leftGo f fuel)) f (commonPrefix a.pre b.pre) a b

/-- `outer_combine` (mod.rs:655-661, 1031-1092) -/
def outerCombine (a b : Tree K V) (f : V → V → Option V) : Call (Tree K V) := outerGo f (a.size + b.size + 1) a b
/-- `inner_combine` (mod.rs:664-670, 1095-1143) -/
def innerCombine (a : Tree K V) (b : Tree K W) (f : V → W → Option V) : Call (Tree K V) := innerGo f (a.size + b.size + 1) a b
/-- `left_combine` (mod.rs:673-679, 1146-1202) -/
def leftCombine (a : Tree K V) (b : Tree K W) (f : V → Option W → Option V) : Call (Tree K V) := leftGo f (a.size + b.size + 1) a b

/-- `union` (mod.rs:300-305) -/
def union (a b : Tree K V) : Call (Tree K V) := a.outerCombine b (fun v _ => some v)
/-- `intersection` (mod.rs:318-320) -/
def intersection (a : Tree K V) (b : Tree K W) : Call (Tree K V) := a.innerCombine b (fun v _ => some v)
/-- `difference` (mod.rs:328-333) -/
def difference (a : Tree K V) (b : Tree K W) : Call (Tree K V) :=
  a.leftCombine b (fun v w => if w.isNone then some v else none)

/-- `iter().any(|x| p(x))`: stops at the first hit -/
def anyC {α : Type _} (p : α → Call Bool) : List α → Call Bool
  | [] => .ret false
  | x :: xs =>
    match p x with
    | .panic => .panic
    | .ret true => .ret true
    | .ret false => anyC p xs

/-- `iter().all(|x| p(x))`: stops at the first miss -/
def allC {α : Type _} (p : α → Call Bool) : List α → Call Bool
  | [] => .ret true
  | x :: xs =>
    match p x with
    | .panic => .panic
    | .ret true => allC p xs
    | .ret false => .ret false

/-- `b && c` where `c` may panic -/
def andC (b : Bool) (c : Call Bool) : Call Bool := if b then c else .ret false
/-- `b || c` where `c` may panic -/
def orC (b : Bool) (c : Call Bool) : Call Bool := if b then .ret true else c
/-- `!c` -/
def notC : Call Bool → Call Bool
  | .panic => .panic
  | .ret b => .ret !b

/-- `is_subset0` (mod.rs:961-992) with fuel; the collision test of `NonSubsetOp` (1252-1258) is `!a.is_subset(b)` -/
def isSubsetGo : Nat → Tree K V → List K → Tree K W → List K → Call Bool
  | 0, _, _, _, _ => .panic
  | fuel + 1, l, lp, r, rp =>
    if commonPrefix lp rp = lp.length ∧ commonPrefix lp rp = rp.length then
      andC (l.val.isNone || r.val.isSome)
        (notC (mergeBool (boolOp true (fun x y => notC (isSubsetGo fuel x x.pre y y.pre))) l.kids r.kids))
    else if commonPrefix lp rp = lp.length then
      andC l.val.isNone (allC (fun lc => isSubsetGo fuel lc lc.pre r (rp.drop (commonPrefix lp rp))) l.kids)
    else if commonPrefix lp rp = rp.length then
      anyC (fun rc => isSubsetGo fuel l (lp.drop (commonPrefix lp rp)) rc rc.pre) r.kids
    else .ret false

/-- `is_subset` (mod.rs:631-633, 954-959) -/
def isSubset (l : Tree K V) (r : Tree K W) : Call Bool := isSubsetGo (l.size + r.size + 1) l l.pre r r.pre
/-- `is_superset` (mod.rs:638-640) -/
def isSuperset (l : Tree K V) (r : Tree K W) : Call Bool := r.isSubset l

/-- `intersects0` (mod.rs:1001-1028) with fuel; the collision test of `IntersectOp` (1224-1230) is `intersects(a, b)` -/
def intersectsGo : Nat → Tree K V → List K → Tree K W → List K → Call Bool
  | 0, _, _, _, _ => .panic
  | fuel + 1, l, lp, r, rp =>
    if commonPrefix lp rp = lp.length ∧ commonPrefix lp rp = rp.length then
      orC (l.val.isSome && r.val.isSome) (mergeBool (boolOp false (fun x y => intersectsGo fuel x x.pre y y.pre)) l.kids r.kids)
    else if commonPrefix lp rp = lp.length then
      anyC (fun lc => intersectsGo fuel lc lc.pre r (rp.drop (commonPrefix lp rp))) l.kids
    else if commonPrefix lp rp = rp.length then
      anyC (fun rc => intersectsGo fuel l (lp.drop (commonPrefix lp rp)) rc rc.pre) r.kids
    else .ret false

/-- `intersects` (mod.rs:578-580, 994-999) -/
def intersects (l : Tree K V) (r : Tree K W) : Call Bool := intersectsGo (l.size + r.size + 1) l l.pre r r.pre
/-- `is_disjoint` (mod.rs:583-585) -/
def isDisjoint (l : Tree K V) (r : Tree K W) : Call Bool := notC (intersects l r)

end pure

/-! ### Lookup -/

section find
variable {K V : Type _} [Ord K] [DecidableEq K]

/-- `enum FindResult` (mod.rs:699-718) -/
inductive FindResult (K V : Type _) where
  | found (t : Tree K V)
  | prefix (t : Tree K V) (rt : Nat)
  | notFound (closest : Tree K V) (rp rt : Nat)

/-- `find` (mod.rs:724-760), recursion bounded by the tree's size. The `none` branch of the child access is never taken. -/
def findGo : Nat → Tree K V → List K → Call (FindResult K V)
  | 0, _, _ => .panic
  | fuel + 1, t, p =>
    if p.length - commonPrefix t.pre p = 0 ∧ t.pre.length - commonPrefix t.pre p = 0 then .ret (.found t)
    else if p.length - commonPrefix t.pre p = 0 then .ret (.prefix t (t.pre.length - commonPrefix t.pre p))
    else if t.pre.length - commonPrefix t.pre p = 0 then
      match p[commonPrefix t.pre p]? with
      | none => .panic
      | some c =>
        if headed t.kids then
          match binarySearchBy (fun e : Tree K V => compare e.pre.head? (some c)) t.kids with
          | .found i =>
            match t.kids[i]? with
            | none => .panic
            | some child => findGo fuel child (p.drop (commonPrefix t.pre p))
          | .notFound _ => .ret (.notFound t (p.length - commonPrefix t.pre p) (t.pre.length - commonPrefix t.pre p))
        else .panic
    else .ret (.notFound t (p.length - commonPrefix t.pre p) (t.pre.length - commonPrefix t.pre p))

/-- `find` (mod.rs:724-760) -/
def find (t : Tree K V) (p : List K) : Call (FindResult K V) := findGo (t.size + 1) t p

/-- `get` (mod.rs:619-626) -/
def get (t : Tree K V) (key : List K) : Call (Option V) :=
  match t.find key with
  | .panic => .panic
  | .ret (.found t) => .ret t.val
  | .ret _ => .ret none

/-- `contains_key` (mod.rs:609-616) -/
def containsKey (t : Tree K V) (key : List K) : Call Bool :=
  match t.find key with
  | .panic => .panic
  | .ret (.found t) => .ret t.val.isSome
  | .ret _ => .ret false

/-- `filter_prefix` (mod.rs:269-285) -/
def filterPrefix (t : Tree K V) (p : List K) : Call (Tree K V) :=
  match t.find p with
  | .panic => .panic
  | .ret (.found t) => .ret { t with pre := p }
  | .ret (.prefix t rt) => .ret (prepend { t with pre := t.pre.drop (t.pre.length - rt) } p)
  | .ret (.notFound ..) => .ret empty

end find

/-! ### Iteration -/

section iter
variable {K V : Type _}

/-- `struct Iter { path, stack }` (mod.rs:885-889). The head of `stack` is the top. The yielded `IterKey` is a copy-on-write handle
(mod.rs:789-808): `append`/`pop` go through `Arc::make_mut`, so a key handed out earlier keeps its contents; the path is a plain list here. -/
structure Iter (K V : Type _) where
  path : List K
  stack : List (Tree K V × Nat)

/-- `Iter::empty` (mod.rs:892-898) -/
def Iter.empty : Iter K V := { path := [], stack := [] }
/-- `Iter::new` (mod.rs:900-906) -/
def Iter.new (t : Tree K V) (p : List K) : Iter K V := { path := p, stack := [(t, 0)] }

/-- outcome of one turn of the `while` loop of `next` -/
inductive Turn (σ ι : Type _) where
  | done
  | again (s : σ)
  | yield (x : ι) (s : σ)

/-- one turn of the loop in `Iter::next` (mod.rs:925-941), including `inc` (912-917) -/
def Iter.turn (s : Iter K V) : Turn (Iter K V) (List K × V) :=
  match s.stack with
  | [] => .done
  | (t, 0) :: rest =>
    match t.val with
    | some v => .yield (s.path, v) { s with stack := (t, 1) :: rest }
    | none => .again { s with stack := (t, 1) :: rest }
  | (t, pos + 1) :: rest =>
    match t.kids[pos]? with
    | some child => .again { path := s.path ++ child.pre, stack := (child, 0) :: (t, pos + 2) :: rest }
    | none => .again { path := s.path.take (s.path.length - t.pre.length), stack := rest }

/-- `struct Values { stack }` (mod.rs:834-837) -/
structure Values (K V : Type _) where
  stack : List (Tree K V × Nat)

/-- one turn of the loop in `Values::next` (mod.rs:865-878) -/
def Values.turn (s : Values K V) : Turn (Values K V) V :=
  match s.stack with
  | [] => .done
  | (t, 0) :: rest =>
    match t.val with
    | some v => .yield v { stack := (t, 1) :: rest }
    | none => .again { stack := (t, 1) :: rest }
  | (t, pos + 1) :: rest =>
    match t.kids[pos]? with
    | some child => .again { stack := (child, 0) :: (t, pos + 2) :: rest }
    | none => .again { stack := rest }

/-- `iter()` (mod.rs:588-593) -/
def iter (t : Tree K V) : Iter K V := Iter.new t t.pre
/-- `values()` (mod.rs:601-606) -/
def values (t : Tree K V) : Values K V := { stack := [(t, 0)] }

/-- `scan_prefix` (mod.rs:682-696) -/
def scanPrefix [Ord K] [DecidableEq K] (t : Tree K V) (p : List K) : Call (Iter K V) :=
  match t.find p with
  | .panic => .panic
  | .ret (.found t) => .ret (Iter.new t p)
  | .ret (.prefix t rt) => .ret (Iter.new t (p ++ t.pre.drop (t.pre.length - rt)))
  | .ret (.notFound ..) => .ret Iter.empty

end iter

/-! ### Equality -/

/-- `Option<V> == Option<V>` -/
def optEq {V : Type _} (eqV : V → V → Bool) : Option V → Option V → Bool
  | some v, some w => eqV v w
  | none, none => true
  | _, _ => false

mutual
/-- `#[derive(PartialEq)]` of `RadixTree` (flat_radix_tree.rs:6): prefix, value and children are compared; `eqV` is `==` on values -/
def treeEq {K V : Type _} [DecidableEq K] (eqV : V → V → Bool) : Tree K V → Tree K V → Bool
  | ⟨p, v, ks⟩, ⟨q, w, ls⟩ => decide (p = q) && optEq eqV v w && kidsEq eqV ks ls
/-- `Vec<RadixTree> == Vec<RadixTree>` -/
def kidsEq {K V : Type _} [DecidableEq K] (eqV : V → V → Bool) : List (Tree K V) → List (Tree K V) → Bool
  | [], [] => true
  | a :: as, b :: bs => treeEq eqV a b && kidsEq eqV as bs
  | _, _ => false
end

/-! ### Archives -/

/-- `enum ArchivedRadixTreeError` (flat_radix_tree.rs:207-216) -/
inductive ArchError where
  | prefix
  | value
  | children
  | order
deriving DecidableEq, Repr

section archive
variable {K V : Type _} [Ord K]

/-- consecutive children are strictly ascending in their first component: `zip(skip(1)).all(|(a, b)| a.prefix[0] < b.prefix[0])`
(flat_radix_tree.rs:255-258); only evaluated when all prefixes are non-empty -/
def ascendingHeads : List (Tree K V) → Bool
  | a :: b :: rest => headCmp a b == .lt && ascendingHeads (b :: rest)
  | _ => true

mutual
/-- `check_bytes` (flat_radix_tree.rs:235-267). `okK`, `okV` stand for the validation of the key components and the value. Not modelled:
the check that relative pointers stay inside the buffer (see DESIGN.md). -/
def checkBytes (okK : K → Bool) (okV : V → Bool) : Tree K V → Except ArchError Unit
  | ⟨p, v, ks⟩ =>
    if !p.all okK then .error .prefix
    else if !v.all okV then .error .value
    else if !ks.all (fun c => !c.pre.isEmpty) then .error .children
    else if !ascendingHeads ks then .error .order
    else match checkKids okK okV ks with
      | .ok () => .ok ()
      | .error _ => .error .children
/-- `CheckBytes::check_bytes(children, context)` (flat_radix_tree.rs:263-264): check each child -/
def checkKids (okK : K → Bool) (okV : V → Bool) : List (Tree K V) → Except ArchError Unit
  | [] => .ok ()
  | c :: cs =>
    match checkBytes okK okV c with
    | .error e => .error e
    | .ok () => checkKids okK okV cs
end

end archive

mutual
/-- `Serialize`/`resolve` (flat_radix_tree.rs:131-155, 164-173) write prefix, value and children; the archived form is the same tree -/
def archive {K V : Type _} : Tree K V → Tree K V
  | ⟨p, v, ks⟩ => ⟨p, v, archiveKids ks⟩
/-- children are archived one by one -/
def archiveKids {K V : Type _} : List (Tree K V) → List (Tree K V)
  | [] => []
  | c :: cs => archive c :: archiveKids cs
end

mutual
/-- `Deserialize` (flat_radix_tree.rs:184-193): `RadixTree::new(prefix, value, children)`, children deserialized one by one -/
def deserialize {K V : Type _} : Tree K V → Tree K V
  | ⟨p, v, ks⟩ => ⟨p, v, deserializeKids ks⟩
/-- children are deserialized one by one -/
def deserializeKids {K V : Type _} : List (Tree K V) → List (Tree K V)
  | [] => []
  | c :: cs => deserialize c :: deserializeKids cs
end

end Tree
end Verif
