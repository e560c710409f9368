import Verif.Model.RadixTree
import Verif.Model.Effects
/-!
# The combinations of /repo/src/radix_tree/mod.rs for closures with side effects

`Verif/Model/RadixTree.lean` models the closures of the combinations as functions of their arguments. Here a closure also has a state `S`
that every call may read and change (`impl Fn(..) + Copy` capturing a `&Cell`, a counter, a log, ...), so that the order and the number of
the calls matter. The layout of the operations is the same; only the closure's state is carried along, beside the tree that is being
changed and beside the merge state.
-/
namespace Verif

/-- A closure `Fn(&mut V, &W) -> bool` with side effects: the new value, the answer or a panic, the new state. -/
abbrev MutFnE (S V W : Type _) := V → W → S → V × Call Bool × S

namespace Tree

/-! ### In place -/
section inplace
variable {K V W S : Type _}

/-- `if !f(v, w) { *self.value_mut() = None }` (mod.rs:355-357, 376-378, 407-409, 450-452) -/
def applyMutE (f : MutFnE S V W) (v : V) (w : W) (c : S) : (Option V × S) × Flow :=
  match f v w c with
  | (v, .ret true, c) => ((some v, c), .cont)
  | (_, .ret false, c) => ((none, c), .cont)
  | (v, .panic, c) => ((some v, c), .panic)

/-- value part of `outer_combine_with` (mod.rs:353-361 and 374-382) -/
def outerValE (f : MutFnE S V V) (v w : Option V) (c : S) : (Option V × S) × Flow :=
  match w with
  | some w =>
    match v with
    | some v => applyMutE f v w c
    | none => ((some w, c), .cont)
  | none => ((v, c), .cont)

/-- value part of `inner_combine_with` (mod.rs:406-412) -/
def innerValE (f : MutFnE S V W) (v : Option V) (w : Option W) (c : S) : (Option V × S) × Flow :=
  match v, w with
  | some v, some w => applyMutE f v w c
  | _, _ => ((none, c), .cont)

/-- value part of `left_combine_with` (mod.rs:448-454) -/
def leftValE (f : MutFnE S V W) (v : Option V) (w : Option W) (c : S) : (Option V × S) × Flow :=
  match w with
  | some w =>
    match v with
    | some v => applyMutE f v w c
    | none => ((none, c), .cont)
  | none => ((v, c), .cont)

/-- replace the value of a node; the flow is that of the closure -/
def withValE (t : Tree K V) (r : (Option V × S) × Flow) : (Tree K V × S) × Flow := (({ t with val := r.1.1 }, r.1.2), r.2)

/-- continue with a materialized tree, or panic leaving `t` -/
def withMatE (m : Call (Tree K W)) (t : Tree K V × S) (k : Tree K W → (Tree K V × S) × Flow) : (Tree K V × S) × Flow :=
  match m with
  | .panic => (t, .panic)
  | .ret x => k x

variable [Ord K]

/-- The in-place merge operations on child vectors: `OuterCombineOp` (mod.rs:1262-1293), `InnerCombineOp` (1338-1369), `LeftCombineOp`
(1415-1446), `RemovePrefixOp` (1492-1523), `RetainPrefixOp` (1526-1557); see `inPlaceOp`. Only `collision` calls the closure. -/
def inPlaceOpE (takeA takeB : Bool) (conv : Tree K W → Call (Tree K V)) (rec : Tree K V → Tree K W → S → (Tree K V × S) × Flow) :
    MergeOp (InPlaceMS (Tree K V) (Tree K W) × S) (Tree K V) (Tree K W) where
  cmp := headCmp
  fromA s n := quiet (fun m => (InPlaceMS.mut conv).advanceA m n takeA) s
  fromB s n := quiet (fun m => (InPlaceMS.mut conv).advanceB m n takeB) s
  collision s :=
    match s.1.src, s.1.b with
    | x :: as, y :: _ =>
      andThen (({ s.1 with src := (rec x y s.2).1.1 :: as }, (rec x y s.2).1.2), (rec x y s.2).2) fun s' =>
      andThen (quiet (fun m => (InPlaceMS.mut conv).advanceA m 1 (!(rec x y s.2).1.1.isEmpty)) s') fun s' =>
      quiet (fun m => (InPlaceMS.mut conv).advanceB m 1 false) s'
    | _, _ => (s, .panic)

/-- `OuterCombineOp` in place, with `RadixTreeConverter` (mod.rs:169-180, 1262-1293) -/
def outerWithOpE (rec : Tree K V → Tree K V → S → (Tree K V × S) × Flow) := inPlaceOpE true true materialize rec
/-- `InnerCombineOp` in place, with `NoConverter` (mod.rs:182-194, 1338-1369) -/
def innerWithOpE (rec : Tree K V → Tree K W → S → (Tree K V × S) × Flow) := inPlaceOpE false false noConverter rec
/-- `LeftCombineOp` in place, with `NoConverter` (mod.rs:196-208, 1415-1446) -/
def leftWithOpE (rec : Tree K V → Tree K W → S → (Tree K V × S) × Flow) := inPlaceOpE true false noConverter rec

/-- `outer_combine_children_with`, `inner_…`, `left_combine_children_with` (mod.rs:169-208): merge `rhs` into the children -/
def childrenWithE (op : MergeOp (InPlaceMS (Tree K V) (Tree K W) × S) (Tree K V) (Tree K W)) (t : Tree K V × S) (rhs : List (Tree K W)) :
    (Tree K V × S) × Flow :=
  if headed t.1.kids && headed rhs then
    match InPlaceMS.mergeE t.1.kids rhs op t.2 with
    | (ks, c, fl) => (({ t.1 with kids := ks }, c), fl)
  else (t, .panic)

/-- the cases of `outer_combine_with` after computing `n` and before `unsplit` (mod.rs:350-389); `op` merges children -/
def outerWithCasesE (op : MergeOp (InPlaceMS (Tree K V) (Tree K V) × S) (Tree K V) (Tree K V)) (f : MutFnE S V V) (n : Nat)
    (self that : Tree K V) (c : S) : (Tree K V × S) × Flow :=
  if n = self.pre.length ∧ n = that.pre.length then
    andThen (self.withValE (outerValE f self.val that.val c)) fun t => childrenWithE op t that.kids
  else if n = self.pre.length then
    withMatE (that.materializeShortened n) (self, c) fun that => childrenWithE op (self, c) [that]
  else if n = that.pre.length then
    andThen (((self.split n).1, c), (self.split n).2) fun t =>
    andThen (t.1.withValE (outerValE f t.1.val that.val t.2)) fun t => childrenWithE op t that.kids
  else
    andThen (((self.split n).1, c), (self.split n).2) fun t =>
    withMatE (that.materializeShortened n) t fun that =>
      if headed (t.1.kids ++ [that]) then (({ t.1 with kids := sortKids (t.1.kids ++ [that]) }, t.2), .cont)
      else (({ t.1 with kids := t.1.kids ++ [that] }, t.2), .panic)

/-- the cases of `inner_combine_with` (mod.rs:403-429) -/
def innerWithCasesE (op : MergeOp (InPlaceMS (Tree K V) (Tree K W) × S) (Tree K V) (Tree K W)) (f : MutFnE S V W) (n : Nat)
    (self : Tree K V) (that : Tree K W) (c : S) : (Tree K V × S) × Flow :=
  if n = self.pre.length ∧ n = that.pre.length then
    andThen (self.withValE (innerValE f self.val that.val c)) fun t => childrenWithE op t that.kids
  else if n = self.pre.length then
    withMatE (that.materializeShortened n) ({ self with val := none }, c) fun that => childrenWithE op ({ self with val := none }, c) [that]
  else if n = that.pre.length then
    andThen (((self.split n).1, c), (self.split n).2) fun t => childrenWithE op t that.kids
  else (({ self with val := none, kids := [] }, c), .cont)

/-- the cases of `left_combine_with` (mod.rs:445-466) -/
def leftWithCasesE (op : MergeOp (InPlaceMS (Tree K V) (Tree K W) × S) (Tree K V) (Tree K W)) (f : MutFnE S V W) (n : Nat)
    (self : Tree K V) (that : Tree K W) (c : S) : (Tree K V × S) × Flow :=
  if n = self.pre.length ∧ n = that.pre.length then
    andThen (self.withValE (leftValE f self.val that.val c)) fun t => childrenWithE op t that.kids
  else if n = self.pre.length then
    withMatE (that.materializeShortened n) (self, c) fun that => childrenWithE op (self, c) [that]
  else if n = that.pre.length then
    andThen (((self.split n).1, c), (self.split n).2) fun t => childrenWithE op t that.kids
  else ((self, c), .cont)

/-- `self.unsplit()` at the end of each operation -/
def finishE (r : (Tree K V × S) × Flow) : (Tree K V × S) × Flow := andThen r fun t => ((t.1.unsplit, t.2), .cont)

variable [DecidableEq K]

/-- `outer_combine_with` (mod.rs:345-391) with fuel -/
def outerWithGoE (f : MutFnE S V V) : Nat → Tree K V → Tree K V → S → (Tree K V × S) × Flow
  | 0, self, _, c => ((self, c), .panic)
  | fuel + 1, self, that, c =>
    finishE (outerWithCasesE (outerWithOpE (outerWithGoE f fuel)) f (commonPrefix self.pre that.pre) self that c)

/-- `inner_combine_with` (mod.rs:398-431) with fuel -/
def innerWithGoE (f : MutFnE S V W) : Nat → Tree K V → Tree K W → S → (Tree K V × S) × Flow
  | 0, self, _, c => ((self, c), .panic)
  | fuel + 1, self, that, c =>
    finishE (innerWithCasesE (innerWithOpE (innerWithGoE f fuel)) f (commonPrefix self.pre that.pre) self that c)

/-- `left_combine_with` (mod.rs:440-468) with fuel -/
def leftWithGoE (f : MutFnE S V W) : Nat → Tree K V → Tree K W → S → (Tree K V × S) × Flow
  | 0, self, _, c => ((self, c), .panic)
  | fuel + 1, self, that, c =>
    finishE (leftWithCasesE (leftWithOpE (leftWithGoE f fuel)) f (commonPrefix self.pre that.pre) self that c)

/-- `outer_combine_with` (mod.rs:345-391): the tree that is left behind, the closure's state, how it ended -/
def outerCombineWithE (self that : Tree K V) (f : MutFnE S V V) (c : S) : (Tree K V × S) × Flow :=
  outerWithGoE f (self.size + that.size + 1) self that c
/-- `inner_combine_with` (mod.rs:398-431) -/
def innerCombineWithE (self : Tree K V) (that : Tree K W) (f : MutFnE S V W) (c : S) : (Tree K V × S) × Flow :=
  innerWithGoE f (self.size + that.size + 1) self that c
/-- `left_combine_with` (mod.rs:440-468) -/
def leftCombineWithE (self : Tree K V) (that : Tree K W) (f : MutFnE S V W) (c : S) : (Tree K V × S) × Flow :=
  leftWithGoE f (self.size + that.size + 1) self that c

end inplace

/-! ### Into a new tree -/
section pure
variable {K V W S : Type _}

/-- A closure `Fn(&V, O) -> Option<V>` with side effects (`O` is `&W` or `Option<&W>`): the answer or a panic, the new state. -/
abbrev PureFnE (S V O : Type _) := V → O → S → Call (Option V) × S

/-- continue after a step that may panic; the state survives a panic -/
def bindE {α β : Type _} (r : Call α × S) (k : α → S → Call β × S) : Call β × S :=
  match r with
  | (.panic, c) => (.panic, c)
  | (.ret x, c) => k x c

/-- value part of `outer_combine` (mod.rs:1048-1053) -/
def outerPureValE (f : PureFnE S V V) (v w : Option V) (c : S) : Call (Option V) × S :=
  match v, w with
  | some a, some b => f a b c
  | some a, none => (.ret (some a), c)
  | none, some b => (.ret (some b), c)
  | none, none => (.ret none, c)

/-- value part of `inner_combine` (mod.rs:1106-1109) -/
def innerPureValE (f : PureFnE S V W) (v : Option V) (w : Option W) (c : S) : Call (Option V) × S :=
  match v, w with
  | some a, some b => f a b c
  | _, _ => (.ret none, c)

/-- value part of `left_combine` (mod.rs:1157-1160) -/
def leftPureValE (f : PureFnE S V (Option W)) (v : Option V) (w : Option W) (c : S) : Call (Option V) × S :=
  match v with
  | some a => f a w c
  | none => (.ret none, c)

variable [Ord K]

/-- The merge operations into a new child vector: `OuterCombineOp` (mod.rs:1295-1335), `InnerCombineOp` (1371-1412), `LeftCombineOp`
(1448-1489); see `pureOp`. Only `collision` calls the closure. -/
def pureOpE (takeA takeB : Bool) (convA : Tree K V → Call (Tree K V)) (convB : Tree K W → Call (Tree K V))
    (rec : Tree K V → Tree K W → S → Call (Tree K V) × S) :
    MergeOp (SliceMS (Tree K V) (Tree K W) (Tree K V) × S) (Tree K V) (Tree K W) where
  cmp := headCmp
  fromA s n := quiet (fun m => (SliceMS.mut convA convB).advanceA m n takeA) s
  fromB s n := quiet (fun m => (SliceMS.mut convA convB).advanceB m n takeB) s
  collision s :=
    match s.1.a, s.1.b with
    | x :: as, y :: bs =>
      match rec x y s.2 with
      | (.panic, c) => (({ s.1 with a := as, b := bs }, c), .panic)
      | (.ret r, c) => (({ a := as, b := bs, r := if r.isEmpty then s.1.r else s.1.r ++ [r] }, c), .cont)
    | _, _ => (s, .panic)

/-- `OuterCombineOp` into a new vector (mod.rs:1295-1335) -/
def outerOpE (rec : Tree K V → Tree K V → S → Call (Tree K V) × S) := pureOpE true true materialize materialize rec
/-- `InnerCombineOp` into a new vector (mod.rs:1371-1412) -/
def innerOpE (rec : Tree K V → Tree K W → S → Call (Tree K V) × S) := pureOpE false false materialize noConverter rec
/-- `LeftCombineOp` into a new vector (mod.rs:1448-1489) -/
def leftOpE (rec : Tree K V → Tree K W → S → Call (Tree K V) × S) := pureOpE true false materialize noConverter rec

/-- `VecMergeState::merge(a, b, op, ..)` as used at mod.rs:1054-1060, 1065-1071, 1076-1082, ...; a panic loses the result -/
def mergeChildrenE (op : MergeOp (SliceMS (Tree K V) (Tree K W) (Tree K V) × S) (Tree K V) (Tree K W)) (as : List (Tree K V))
    (bs : List (Tree K W)) (c : S) : Call (List (Tree K V)) × S :=
  if headed as && headed bs then
    match SliceMS.mergeE as bs op c with
    | (_, c, .panic) => (.panic, c)
    | (ks, c, _) => (.ret ks, c)
  else (.panic, c)

/-- the body of `outer_combine` after computing `n` (mod.rs:1042-1091) -/
def outerCasesE (op : MergeOp (SliceMS (Tree K V) (Tree K V) (Tree K V) × S) (Tree K V) (Tree K V)) (f : PureFnE S V V) (n : Nat)
    (a b : Tree K V) (c : S) : Call (Tree K V) × S :=
  if n = a.pre.length ∧ n = b.pre.length then
    bindE (outerPureValE f a.val b.val c) fun v c =>
    bindE (mergeChildrenE op a.kids b.kids c) fun ks c => (mkNode (a.pre.take n) v ks, c)
  else if n = a.pre.length then
    bindE (b.materializeShortened n, c) fun b' c =>
    bindE (mergeChildrenE op a.kids [b'] c) fun ks c => (mkNode (a.pre.take n) a.val ks, c)
  else if n = b.pre.length then
    bindE (a.materializeShortened n, c) fun a' c =>
    bindE (mergeChildrenE op [a'] b.kids c) fun ks c => (mkNode (a.pre.take n) b.val ks, c)
  else
    bindE (a.materializeShortened n, c) fun a' c =>
    bindE (b.materializeShortened n, c) fun b' c =>
      if headed [a', b'] then (mkNode (a.pre.take n) none (sortKids [a', b']), c) else (.panic, c)

/-- the body of `inner_combine` (mod.rs:1100-1142) -/
def innerCasesE (op : MergeOp (SliceMS (Tree K V) (Tree K W) (Tree K V) × S) (Tree K V) (Tree K W)) (f : PureFnE S V W) (n : Nat)
    (a : Tree K V) (b : Tree K W) (c : S) : Call (Tree K V) × S :=
  if n = a.pre.length ∧ n = b.pre.length then
    bindE (innerPureValE f a.val b.val c) fun v c =>
    bindE (mergeChildrenE op a.kids b.kids c) fun ks c => (mkNode (a.pre.take n) v ks, c)
  else if n = a.pre.length then
    bindE (b.materializeShortened n, c) fun b' c =>
    bindE (mergeChildrenE op a.kids [b'] c) fun ks c => (mkNode (a.pre.take n) none ks, c)
  else if n = b.pre.length then
    bindE (a.materializeShortened n, c) fun a' c =>
    bindE (mergeChildrenE op [a'] b.kids c) fun ks c => (mkNode (a.pre.take n) none ks, c)
  else (mkNode (a.pre.take n) none [], c)

/-- the body of `left_combine` (mod.rs:1151-1201) -/
def leftCasesE (op : MergeOp (SliceMS (Tree K V) (Tree K W) (Tree K V) × S) (Tree K V) (Tree K W)) (f : PureFnE S V (Option W)) (n : Nat)
    (a : Tree K V) (b : Tree K W) (c : S) : Call (Tree K V) × S :=
  if n = a.pre.length ∧ n = b.pre.length then
    bindE (leftPureValE f a.val b.val c) fun v c =>
    bindE (mergeChildrenE op a.kids b.kids c) fun ks c => (mkNode (a.pre.take n) v ks, c)
  else if n = a.pre.length then
    bindE (b.materializeShortened n, c) fun b' c =>
    bindE (mergeChildrenE op a.kids [b'] c) fun ks c => (mkNode (a.pre.take n) a.val ks, c)
  else if n = b.pre.length then
    bindE (a.materializeShortened n, c) fun a' c =>
    bindE (mergeChildrenE op [a'] b.kids c) fun ks c => (mkNode (a.pre.take n) none ks, c)
  else bindE (materializeKids a.kids, c) fun ks c => (mkNode a.pre a.val ks, c)

variable [DecidableEq K]

/-- `outer_combine` (mod.rs:1031-1092) with fuel -/
def outerGoE (f : PureFnE S V V) : Nat → Tree K V → Tree K V → S → Call (Tree K V) × S
  | 0, _, _, c => (.panic, c)
  | fuel + 1, a, b, c => outerCasesE (outerOpE (outerGoE f fuel)) f (commonPrefix a.pre b.pre) a b c
/-- `inner_combine` (mod.rs:1095-1143) with fuel -/
def innerGoE (f : PureFnE S V W) : Nat → Tree K V → Tree K W → S → Call (Tree K V) × S
  | 0, _, _, c => (.panic, c)
  | fuel + 1, a, b, c => innerCasesE (innerOpE (innerGoE f fuel)) f (commonPrefix a.pre b.pre) a b c
/-- `left_combine` (mod.rs:1146-1202) with fuel -/
def leftGoE (f : PureFnE S V (Option W)) : Nat → Tree K V → Tree K W → S → Call (Tree K V) × S
  | 0, _, _, c => (.panic, c)
  | fuel + 1, a, b, c => leftCasesE (leftOpE (leftGoE f fuel)) f (commonPrefix a.pre b.pre) a b c

/-- `outer_combine` (mod.rs:655-661, 1031-1092): the result, unless the closure panics, and the closure's state -/
def outerCombineE (a b : Tree K V) (f : PureFnE S V V) (c : S) : Call (Tree K V) × S := outerGoE f (a.size + b.size + 1) a b c
/-- `inner_combine` (mod.rs:664-670, 1095-1143) -/
def innerCombineE (a : Tree K V) (b : Tree K W) (f : PureFnE S V W) (c : S) : Call (Tree K V) × S := innerGoE f (a.size + b.size + 1) a b c
/-- `left_combine` (mod.rs:673-679, 1146-1202) -/
def leftCombineE (a : Tree K V) (b : Tree K W) (f : PureFnE S V (Option W)) (c : S) : Call (Tree K V) × S :=
  leftGoE f (a.size + b.size + 1) a b c

end pure
end Tree
end Verif
