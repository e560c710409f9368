import Verif.Model.RadixPrefixEffects
/-!
# The in-place combinations of /repo/src/radix_tree/mod.rs with `Clone` implementations of the values that are not trusted

The other models take for granted that `clone()` returns an equal value. Here every call of `V::clone` is made explicit: it has a state `S` that
it may read and change, may return anything, and may panic. Values are cloned where `that` is materialized (`materialize_shortened`, mod.rs:642-652,
762-783; `RadixTreeConverter`, 944-952), where a value of `that` is copied (mod.rs:360, 381), and where a vector of children that is shared with
another tree is copied before it is changed (`children_mut` of `ArcRadixTree` and `LazyRadixTree`, which is `Arc::make_mut`, arc_radix_tree.rs:89-96,
lazy_radix_tree.rs:78-80). The layout of the
operations is that of `Verif/Model/RadixEffects.lean`, and the closures share the state with the clones.
-/
namespace Verif

/-- The calls into code of the user that cloning makes. `own` and `other` are the `clone` of the values of the tree that is changed and of the other
tree. `shared` tells whether the vector of children about to be changed is shared with another tree: never for `RadixTree`, at any time for
`ArcRadixTree`. -/
structure Clones (S V W : Type _) where
  own : V → S → Call V × S
  other : W → S → Call W × S
  shared : S → Bool × S

namespace Tree
variable {K V W S : Type _}

/-- `value().cloned()` (mod.rs:646, 780) -/
def cloneOptC (cl : V → S → Call V × S) (v : Option V) (s : S) : Call (Option V) × S :=
  match v with
  | none => (.ret none, s)
  | some v =>
    match cl v s with
    | (.panic, s) => (.panic, s)
    | (.ret v, s) => (.ret (some v), s)

mutual
/-- `materialize_shortened(n)` (mod.rs:642-652, 771-783) with its assertion: the value is cloned before the children -/
def materializeShortenedC (cl : V → S → Call V × S) : Tree K V → Nat → S → Call (Tree K V) × S
  | ⟨p, v, ks⟩, n, s =>
    if n < p.length then
      match cloneOptC cl v s with
      | (.panic, s) => (.panic, s)
      | (.ret v, s) =>
        match materializeKidsC cl ks s with
        | (.panic, s) => (.panic, s)
        | (.ret ks, s) => (.ret { pre := p.drop n, val := v, kids := ks }, s)
    else (.panic, s)
/-- `children().iter().map(|x| x.materialize_shortened(0)).collect()` (mod.rs:647-650) -/
def materializeKidsC (cl : V → S → Call V × S) : List (Tree K V) → S → Call (List (Tree K V)) × S
  | [], s => (.ret [], s)
  | c :: cs, s =>
    match materializeShortenedC cl c 0 s with
    | (.panic, s) => (.panic, s)
    | (.ret c, s) =>
      match materializeKidsC cl cs s with
      | (.panic, s) => (.panic, s)
      | (.ret cs, s) => (.ret (c :: cs), s)
end

/-- `Vec<ArcRadixTree>::clone`: the nodes are copied, their own vectors of children are shared (`derive(Clone)`, arc_radix_tree.rs:31-43) -/
def cloneNodesC (cl : V → S → Call V × S) : List (Tree K V) → S → Call (List (Tree K V)) × S
  | [], s => (.ret [], s)
  | c :: cs, s =>
    match cloneOptC cl c.val s with
    | (.panic, s) => (.panic, s)
    | (.ret v, s) =>
      match cloneNodesC cl cs s with
      | (.panic, s) => (.panic, s)
      | (.ret cs, s) => (.ret ({ c with val := v } :: cs), s)

/-- `children_mut()` (flat_radix_tree.rs:52-54, arc_radix_tree.rs:89-96): if the vector is shared, `Arc::make_mut` replaces it by a copy; if making
the copy panics, nothing has changed -/
def childrenMutC (e : Clones S V W) (t : Tree K V × S) : (Tree K V × S) × Flow :=
  match e.shared t.2 with
  | (false, s) => ((t.1, s), .cont)
  | (true, s) =>
    match cloneNodesC e.own t.1.kids s with
    | (.panic, s) => ((t.1, s), .panic)
    | (.ret ks, s) => (({ t.1 with kids := ks }, s), .cont)

/-- value part of `outer_combine_with` (mod.rs:353-361 and 374-382) -/
def outerValC (e : Clones S V V) (f : MutFnE S V V) (v w : Option V) (s : S) : (Option V × S) × Flow :=
  match w with
  | some w =>
    match v with
    | some v => applyMutE f v w s
    | none =>
      match e.other w s with
      | (.panic, s) => ((none, s), .panic)
      | (.ret w, s) => ((some w, s), .cont)
  | none => ((v, s), .cont)

/-- continue with a materialized tree, or panic leaving `t` -/
def withMatC (m : Call (Tree K W) × S) (t : Tree K V) (k : Tree K W → S → (Tree K V × S) × Flow) : (Tree K V × S) × Flow :=
  match m with
  | (.panic, s) => ((t, s), .panic)
  | (.ret x, s) => k x s

/-- inplace-vec-builder `extend_from_iter(iter, n)` with `iter = b.map(C::convert)` (merge_state.rs:200) and a converter that has effects -/
def extendFromIterC (conv : Tree K W → S → Call (Tree K V) × S) :
    InPlaceMS (Tree K V) (Tree K W) × S → Nat → (InPlaceMS (Tree K V) (Tree K W) × S) × Flow
  | m, 0 => (m, .cont)
  | m, n + 1 =>
    match m.1.b with
    | [] => (m, .cont)
    | x :: xs =>
      match conv x m.2 with
      | (.panic, s) => (({ m.1 with b := xs }, s), .panic)
      | (.ret y, s) => extendFromIterC conv ({ m.1 with tgt := m.1.tgt ++ [y], b := xs }, s) n

variable [Ord K]

/-- The in-place merge operations on child vectors, see `inPlaceOpE`; `conv` is `none` for `NoConverter`, where nothing is taken from `b` -/
def inPlaceOpC (takeA : Bool) (conv : Option (Tree K W → S → Call (Tree K V) × S)) (rec : Tree K V → Tree K W → S → (Tree K V × S) × Flow) :
    MergeOp (InPlaceMS (Tree K V) (Tree K W) × S) (Tree K V) (Tree K W) where
  cmp := headCmp
  fromA m n := quiet (fun m => (m.consume n takeA, .cont)) m
  fromB m n :=
    match conv with
    | some conv => extendFromIterC conv m n
    | none => quiet (fun m => (m.skipB n, .cont)) m
  collision m :=
    match m.1.src, m.1.b with
    | x :: as, y :: _ =>
      andThen (({ m.1 with src := (rec x y m.2).1.1 :: as }, (rec x y m.2).1.2), (rec x y m.2).2) fun m' =>
        quiet (fun q => ((q.consume 1 (!(rec x y m.2).1.1.isEmpty)).skipB 1, .cont)) m'
    | _, _ => (m, .panic)

/-- `outer_combine_children_with`, `inner_…`, `left_…`, `retain_prefix_…`, `remove_prefix_children_with` (mod.rs:169-235): get the children by
`children_mut()`, merge `rhs` into them -/
def childrenWithC (e : Clones S V W) (op : MergeOp (InPlaceMS (Tree K V) (Tree K W) × S) (Tree K V) (Tree K W)) (t : Tree K V × S)
    (rhs : List (Tree K W)) : (Tree K V × S) × Flow :=
  andThen (childrenMutC e t) fun t => childrenWithE op t rhs

/-- `children_mut().clear()` (mod.rs:426-427, 485, 496, 542-543) -/
def clearKidsC (e : Clones S V W) (t : Tree K V × S) : (Tree K V × S) × Flow :=
  andThen (childrenMutC e t) fun t => (({ t.1 with kids := [] }, t.2), .cont)

/-- the cases of `outer_combine_with` after computing `n` and before `unsplit` (mod.rs:350-389). After `split` the vector of children is new, so
that `children_mut` does not copy it (mod.rs:387-388); the receiver `children_mut()` comes before the argument `materialize_shortened`. -/
def outerWithCasesC (e : Clones S V V) (op : MergeOp (InPlaceMS (Tree K V) (Tree K V) × S) (Tree K V) (Tree K V)) (f : MutFnE S V V) (n : Nat)
    (self that : Tree K V) (s : S) : (Tree K V × S) × Flow :=
  if n = self.pre.length ∧ n = that.pre.length then
    andThen (self.withValE (outerValC e f self.val that.val s)) fun t => childrenWithC e op t that.kids
  else if n = self.pre.length then
    withMatC (that.materializeShortenedC e.other n s) self fun that s => childrenWithC e op (self, s) [that]
  else if n = that.pre.length then
    andThen (((self.split n).1, s), (self.split n).2) fun t =>
    andThen (t.1.withValE (outerValC e f t.1.val that.val t.2)) fun t => childrenWithC e op t that.kids
  else
    andThen (((self.split n).1, s), (self.split n).2) fun t =>
    withMatC (that.materializeShortenedC e.other n t.2) t.1 fun that s =>
      if headed (t.1.kids ++ [that]) then (({ t.1 with kids := sortKids (t.1.kids ++ [that]) }, s), .cont)
      else (({ t.1 with kids := t.1.kids ++ [that] }, s), .panic)

/-- the cases of `inner_combine_with` (mod.rs:403-429) -/
def innerWithCasesC (e : Clones S V W) (op : MergeOp (InPlaceMS (Tree K V) (Tree K W) × S) (Tree K V) (Tree K W)) (f : MutFnE S V W) (n : Nat)
    (self : Tree K V) (that : Tree K W) (s : S) : (Tree K V × S) × Flow :=
  if n = self.pre.length ∧ n = that.pre.length then
    andThen (self.withValE (innerValE f self.val that.val s)) fun t => childrenWithC e op t that.kids
  else if n = self.pre.length then
    withMatC (that.materializeShortenedC e.other n s) { self with val := none } fun that s =>
      childrenWithC e op ({ self with val := none }, s) [that]
  else if n = that.pre.length then
    andThen (((self.split n).1, s), (self.split n).2) fun t => childrenWithC e op t that.kids
  else clearKidsC e ({ self with val := none }, s)

/-- the cases of `left_combine_with` (mod.rs:445-466) -/
def leftWithCasesC (e : Clones S V W) (op : MergeOp (InPlaceMS (Tree K V) (Tree K W) × S) (Tree K V) (Tree K W)) (f : MutFnE S V W) (n : Nat)
    (self : Tree K V) (that : Tree K W) (s : S) : (Tree K V × S) × Flow :=
  if n = self.pre.length ∧ n = that.pre.length then
    andThen (self.withValE (leftValE f self.val that.val s)) fun t => childrenWithC e op t that.kids
  else if n = self.pre.length then
    withMatC (that.materializeShortenedC e.other n s) self fun that s => childrenWithC e op (self, s) [that]
  else if n = that.pre.length then
    andThen (((self.split n).1, s), (self.split n).2) fun t => childrenWithC e op t that.kids
  else ((self, s), .cont)

/-- the cases of `remove_prefix_with` (mod.rs:479-509) -/
def removePrefixCasesC (e : Clones S V W) (op : MergeOp (InPlaceMS (Tree K V) (Tree K W) × S) (Tree K V) (Tree K W)) (f : PredE S W) (n : Nat)
    (self : Tree K V) (that : Tree K W) (s : S) : (Tree K V × S) × Flow :=
  if n = self.pre.length ∧ n = that.pre.length then
    ifSelectedE f that.val s self (fun s => clearKidsC e ({ self with val := none }, s)) fun s => childrenWithC e op (self, s) that.kids
  else if n = that.pre.length then
    ifSelectedE f that.val s self (fun s => clearKidsC e ({ self with val := none }, s)) fun s =>
      andThen (((self.split n).1, s), (self.split n).2) fun t => childrenWithC e op t that.kids
  else if n = self.pre.length then
    withMatC (that.materializeShortenedC e.other n s) self fun that s => childrenWithC e op (self, s) [that]
  else ((self, s), .cont)

/-- the cases of `retain_prefix_with` (mod.rs:522-544) -/
def retainPrefixCasesC (e : Clones S V W) (op : MergeOp (InPlaceMS (Tree K V) (Tree K W) × S) (Tree K V) (Tree K W)) (f : PredE S W) (n : Nat)
    (self : Tree K V) (that : Tree K W) (s : S) : (Tree K V × S) × Flow :=
  if n = self.pre.length ∧ n = that.pre.length then
    ifSelectedE f that.val s self (fun s => ((self, s), .cont)) fun s => childrenWithC e op ({ self with val := none }, s) that.kids
  else if n = that.pre.length then
    ifSelectedE f that.val s self (fun s => ((self, s), .cont)) fun s =>
      andThen (((self.split n).1, s), (self.split n).2) fun t => childrenWithC e op t that.kids
  else if n = self.pre.length then
    withMatC (that.materializeShortenedC e.other n s) { self with val := none } fun that s =>
      childrenWithC e op ({ self with val := none }, s) [that]
  else clearKidsC e ({ self with val := none }, s)

/-- `self.unsplit()` at the end of each operation (mod.rs:143-158): only the first `children_mut()` can copy the vector, after that it is not shared -/
def finishC (e : Clones S V W) (r : (Tree K V × S) × Flow) : (Tree K V × S) × Flow :=
  andThen r fun t => andThen (childrenMutC e t) fun t => ((t.1.unsplit, t.2), .cont)

variable [DecidableEq K]

/-- `outer_combine_with` (mod.rs:345-391) with fuel -/
def outerWithGoC (e : Clones S V V) (f : MutFnE S V V) : Nat → Tree K V → Tree K V → S → (Tree K V × S) × Flow
  | 0, self, _, s => ((self, s), .panic)
  | fuel + 1, self, that, s =>
    finishC e (outerWithCasesC e (inPlaceOpC true (some fun t => t.materializeShortenedC e.other 0) (outerWithGoC e f fuel)) f
      (commonPrefix self.pre that.pre) self that s)

/-- `inner_combine_with` (mod.rs:398-431) with fuel -/
def innerWithGoC (e : Clones S V W) (f : MutFnE S V W) : Nat → Tree K V → Tree K W → S → (Tree K V × S) × Flow
  | 0, self, _, s => ((self, s), .panic)
  | fuel + 1, self, that, s =>
    finishC e (innerWithCasesC e (inPlaceOpC false none (innerWithGoC e f fuel)) f (commonPrefix self.pre that.pre) self that s)

/-- `left_combine_with` (mod.rs:440-468) with fuel -/
def leftWithGoC (e : Clones S V W) (f : MutFnE S V W) : Nat → Tree K V → Tree K W → S → (Tree K V × S) × Flow
  | 0, self, _, s => ((self, s), .panic)
  | fuel + 1, self, that, s =>
    finishC e (leftWithCasesC e (inPlaceOpC true none (leftWithGoC e f fuel)) f (commonPrefix self.pre that.pre) self that s)

/-- `remove_prefix_with` (mod.rs:474-511) with fuel -/
def removePrefixGoC (e : Clones S V W) (f : PredE S W) : Nat → Tree K V → Tree K W → S → (Tree K V × S) × Flow
  | 0, self, _, s => ((self, s), .panic)
  | fuel + 1, self, that, s =>
    finishC e (removePrefixCasesC e (inPlaceOpC true none (removePrefixGoC e f fuel)) f (commonPrefix self.pre that.pre) self that s)

/-- `retain_prefix_with` (mod.rs:517-546) with fuel -/
def retainPrefixGoC (e : Clones S V W) (f : PredE S W) : Nat → Tree K V → Tree K W → S → (Tree K V × S) × Flow
  | 0, self, _, s => ((self, s), .panic)
  | fuel + 1, self, that, s =>
    finishC e (retainPrefixCasesC e (inPlaceOpC false none (retainPrefixGoC e f fuel)) f (commonPrefix self.pre that.pre) self that s)

/-- `outer_combine_with` (mod.rs:345-391): the tree that is left behind, the state, how it ended -/
def outerCombineWithCl (self that : Tree K V) (e : Clones S V V) (f : MutFnE S V V) (s : S) : (Tree K V × S) × Flow :=
  outerWithGoC e f (self.size + that.size + 1) self that s
/-- `inner_combine_with` (mod.rs:398-431) -/
def innerCombineWithCl (self : Tree K V) (that : Tree K W) (e : Clones S V W) (f : MutFnE S V W) (s : S) : (Tree K V × S) × Flow :=
  innerWithGoC e f (self.size + that.size + 1) self that s
/-- `left_combine_with` (mod.rs:440-468) -/
def leftCombineWithCl (self : Tree K V) (that : Tree K W) (e : Clones S V W) (f : MutFnE S V W) (s : S) : (Tree K V × S) × Flow :=
  leftWithGoC e f (self.size + that.size + 1) self that s
/-- `remove_prefix_with` (mod.rs:474-511) -/
def removePrefixWithCl (self : Tree K V) (that : Tree K W) (e : Clones S V W) (f : PredE S W) (s : S) : (Tree K V × S) × Flow :=
  removePrefixGoC e f (self.size + that.size + 1) self that s
/-- `retain_prefix_with` (mod.rs:517-546) -/
def retainPrefixWithCl (self : Tree K V) (that : Tree K W) (e : Clones S V W) (f : PredE S W) (s : S) : (Tree K V × S) × Flow :=
  retainPrefixGoC e f (self.size + that.size + 1) self that s
/-- `union_with` (mod.rs:311-316) -/
def unionWithCl (self that : Tree K V) (e : Clones S V V) (s : S) : (Tree K V × S) × Flow :=
  self.outerCombineWithCl that e (fun v _ s => (v, .ret true, s)) s
/-- `insert` (mod.rs:261-266): the closure clones the new value; a panic of that clone leaves the old value -/
def insertCl (self : Tree K V) (key : List K) (v : V) (e : Clones S V V) (s : S) : (Tree K V × S) × Flow :=
  self.outerCombineWithCl (single key v) e
    (fun a b s => match e.other b s with | (.panic, s) => (a, .panic, s) | (.ret b, s) => (b, .ret true, s)) s

end Tree
end Verif
