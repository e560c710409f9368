import Verif.Model.RadixTree
/-!
# Which vectors of children are loaded, copied and created

In an `ArcRadixTree` and a `LazyRadixTree` the children of a node are a reference counted vector (arc_radix_tree.rs:42, lazy_radix_tree.rs:31), which may be
shared with other trees, and which in a `LazyRadixTree` may still be a slice of an archive. Here the lookups and the in-place operations of mod.rs are run on
trees whose nodes say which of the three it is, and everything that creates a vector is counted.

This is a cost model; the model of the heap itself is `Model/SharedHeap.lean`. Simplifications:
* A vector is `shared` once it has been shared: that the other owner may have been dropped since (so that no copy is made) is ignored. Two vectors of one tree
  that are the same allocation are treated like two allocations. So the counts are upper bounds.
* Sibling lists are merged by a linear merge: the comparisons of the driver in `Model/MergeDriver.lean` read prefixes only, which loads and copies nothing.
* An `ArcRadixTree` creates no vector for nodes without children (it uses `EMPTY_ARC_VEC`, arc_radix_tree.rs:16, unless a child is added later); this is counted as one, as in `LazyRadixTree`.
* Recursion is bounded by fuel as in `Model/RadixTree.lean`; closures do not panic; the other tree (`that`) is a plain tree, whose own loading is not counted.
-/
namespace Verif.Cow

/-- The state of the vector of children: still a slice of the archive (`Either::A`, lazy_radix_tree.rs:31), an `Arc` that may have other owners, an `Arc` that belongs
to this tree alone -/
inductive Held where
  | raw
  | shared
  | own
  deriving DecidableEq

/-- arc_radix_tree.rs:34-43, lazy_radix_tree.rs:22-32 -/
structure CTree (K V : Type) where
  pre : List K
  val : Option V
  held : Held
  kids : List (CTree K V)

/-- What is counted: vectors made from a slice of the archive, vectors copied because they were shared, the nodes cloned in doing so, and other new vectors -/
structure Mem where
  loads : Nat
  copies : Nat
  cloned : Nat
  fresh : Nat

/-- nothing -/
def Mem.zero : Mem := ⟨0, 0, 0, 0⟩
/-- both -/
def Mem.add (a b : Mem) : Mem := ⟨a.loads + b.loads, a.copies + b.copies, a.cloned + b.cloned, a.fresh + b.fresh⟩

/-- a result and what it cost -/
structure Charged (α : Type) where
  mem : Mem
  res : α

/-- sequencing adds the costs -/
instance : Monad Charged where
  pure a := ⟨Mem.zero, a⟩
  bind m f := ⟨m.mem.add (f m.res).mem, (f m.res).res⟩

section
variable {K V W : Type}

/-- `clone` of a node that stays where it is (lazy_radix_tree.rs:21, arc_radix_tree.rs:33): its `Arc` has another owner now; a slice is copied as a slice -/
def CTree.share (t : CTree K V) : CTree K V :=
  match t.held with
  | .own => { t with held := .shared }
  | _ => t

/-- `children()` (arc_radix_tree.rs:66-68, lazy_radix_tree.rs:55-57 with 101-103): a slice is loaded -/
def CTree.load (t : CTree K V) : Charged (CTree K V) :=
  match t.held with
  | .raw => ⟨⟨1, 0, 0, 0⟩, { t with held := .own }⟩
  | _ => pure t

/-- `children_mut()` (arc_radix_tree.rs:89-91, lazy_radix_tree.rs:78-80 with 105-107): a slice is loaded; a shared vector is copied (`Arc::make_mut`), by cloning its elements -/
def CTree.childrenMut (t : CTree K V) : Charged (CTree K V) :=
  match t.held with
  | .raw => ⟨⟨1, 0, 0, 0⟩, { t with held := .own }⟩
  | .shared => ⟨⟨0, 1, t.kids.length, 0⟩, { t with held := .own, kids := t.kids.map CTree.share }⟩
  | .own => pure t

/-- `is_empty()` (mod.rs:573-575), which looks at the children of a node without value, and so loads them; also the node afterwards -/
def CTree.checkEmpty (t : CTree K V) : Charged (Bool × CTree K V) :=
  if t.val.isSome then pure (false, t)
  else do
    let u ← t.load
    pure (u.kids.isEmpty, u)

/-- `retain(|x| !x.is_empty())` (mod.rs:146) -/
def retain : List (CTree K V) → Charged (List (CTree K V))
  | [] => pure []
  | c :: cs => do
    let r ← c.checkEmpty
    let ds ← retain cs
    pure (if r.1 then ds else r.2 :: ds)

/-- `split(n)` (mod.rs:131-140) for `n < prefix.len()`: one new vector -/
def CTree.split (t : CTree K V) (n : Nat) : Charged (CTree K V) :=
  ⟨⟨0, 0, 0, 1⟩, { pre := t.pre.take n, val := none, held := .own, kids := [{ t with pre := t.pre.drop n }] }⟩

/-- `prepend0` (mod.rs:160-167) -/
def CTree.prepend (t : CTree K V) (p : List K) : Charged (CTree K V) :=
  if p.isEmpty then pure t
  else do
    let r ← t.checkEmpty
    pure (if r.1 then r.2 else { r.2 with pre := p ++ r.2.pre })

/-- the middle of `unsplit` (mod.rs:148-152) -/
def CTree.mergeOnlyChild (t : CTree K V) : Charged (CTree K V) :=
  match t.kids, t.val with
  | [c], none => c.prepend t.pre
  | _, _ => pure t

/-- `unsplit` (mod.rs:143-158) -/
def CTree.unsplit (t : CTree K V) : Charged (CTree K V) := do
  let t ← t.childrenMut
  let ks ← retain t.kids
  let u ← CTree.mergeOnlyChild { t with kids := ks }
  let r ← u.checkEmpty
  pure (if r.1 then { r.2 with pre := [] } else r.2)

mutual
/-- `materialize_shortened(n)` for `n < prefix.len()` (mod.rs:642-652, 771-783): one new vector for each node -/
def copyOf : Nat → Tree K V → Charged (CTree K V)
  | n, ⟨p, v, ks⟩ => do
    let cs ← copiesOf ks
    ⟨⟨0, 0, 0, 1⟩, { pre := p.drop n, val := v, held := .own, kids := cs }⟩
/-- the children (mod.rs:647-650) -/
def copiesOf : List (Tree K V) → Charged (List (CTree K V))
  | [] => pure []
  | k :: ks => do
    let c ← copyOf 0 k
    let cs ← copiesOf ks
    pure (c :: cs)
end

variable [Ord K]

/-- `a.prefix()[0].cmp(&b.prefix()[0])` (mod.rs:1268-1270 and so on) -/
def headCmp (a : CTree K V) (b : Tree K W) : Ordering := compare a.pre.head? b.pre.head?

/-- copies of children of `that` that have no partner (`RadixTreeConverter`, mod.rs:944-952) if they are taken over -/
def takeOver (conv : Option (Tree K W → Charged (CTree K V))) : List (Tree K W) → Charged (List (CTree K V))
  | [] => pure []
  | b :: bs =>
    match conv with
    | none => pure []
    | some f => do
      let c ← f b
      let cs ← takeOver conv bs
      pure (c :: cs)

/-- The merge operations on child vectors (mod.rs:1262-1293, 1338-1369, 1415-1446, 1492-1523, 1526-1557). `takeA`: keep children of `self` without partner; `conv`: take over those of `that`. -/
def joinKids (takeA : Bool) (conv : Option (Tree K W → Charged (CTree K V))) (rec : CTree K V → Tree K W → Charged (CTree K V)) :
    List (CTree K V) → List (Tree K W) → Charged (List (CTree K V))
  | [], bs => takeOver conv bs
  | a :: as, [] => pure (if takeA then a :: as else [])
  | a :: as, b :: bs =>
    match headCmp a b with
    | .lt => do
      let rs ← joinKids takeA conv rec as (b :: bs)
      pure (if takeA then a :: rs else rs)
    | .gt => do
      let c ← takeOver conv [b]
      let rs ← joinKids takeA conv rec (a :: as) bs
      pure (c ++ rs)
    | .eq => do
      let x ← rec a b
      let r ← x.checkEmpty
      let rs ← joinKids takeA conv rec as bs
      pure (if r.1 then rs else r.2 :: rs)
termination_by as bs => as.length + bs.length

/-- `outer_combine_children_with` and so on (mod.rs:169-235) -/
def CTree.mergeKids (takeA : Bool) (conv : Option (Tree K W → Charged (CTree K V))) (rec : CTree K V → Tree K W → Charged (CTree K V)) (t : CTree K V) (bs : List (Tree K W)) :
    Charged (CTree K V) := do
  let t ← t.childrenMut
  let ks ← joinKids takeA conv rec t.kids bs
  pure { t with kids := ks }

/-- `*self.value_mut() = None; self.children_mut().clear()` (mod.rs:427-428, 485-486, 496-497, 542-543) -/
def CTree.clear (t : CTree K V) : Charged (CTree K V) := do
  let t ← t.childrenMut
  pure { t with val := none, kids := [] }

/-- `children_mut().sort_by_key(|x| x.prefix()[0])` for two children (mod.rs:388) -/
def sortTwo (a b : CTree K V) : List (CTree K V) := if compare a.pre.head? b.pre.head? = .gt then [b, a] else [a, b]

/-- the cases of `outer_combine_with` (mod.rs:350-389) -/
def outerCases (rec : CTree K V → Tree K V → Charged (CTree K V)) (f : Tree.MutFn V V) (n : Nat) (self : CTree K V) (that : Tree K V) : Charged (CTree K V) :=
  if n = self.pre.length ∧ n = that.pre.length then
    CTree.mergeKids true (some (copyOf 0)) rec { self with val := (Tree.outerVal f self.val that.val).1 } that.kids
  else if n = self.pre.length then do
    let _ ← copyOf n that
    self.mergeKids true (some (copyOf 0)) rec [{ that with pre := that.pre.drop n }]
  else if n = that.pre.length then do
    let s ← self.split n
    CTree.mergeKids true (some (copyOf 0)) rec { s with val := (Tree.outerVal f s.val that.val).1 } that.kids
  else do
    let s ← self.split n
    let c ← copyOf n that
    let s ← s.childrenMut
    pure { s with kids := s.kids.flatMap fun x => sortTwo x c }

/-- the cases of `inner_combine_with` (mod.rs:403-429) -/
def innerCases (rec : CTree K V → Tree K W → Charged (CTree K V)) (f : Tree.MutFn V W) (n : Nat) (self : CTree K V) (that : Tree K W) : Charged (CTree K V) :=
  if n = self.pre.length ∧ n = that.pre.length then
    CTree.mergeKids false none rec { self with val := (Tree.innerVal f self.val that.val).1 } that.kids
  else if n = self.pre.length then do
    let _ ← copyOf n that
    CTree.mergeKids false none rec { self with val := none } [{ that with pre := that.pre.drop n }]
  else if n = that.pre.length then do
    let s ← self.split n
    s.mergeKids false none rec that.kids
  else self.clear

/-- the cases of `left_combine_with` (mod.rs:445-466) -/
def leftCases (rec : CTree K V → Tree K W → Charged (CTree K V)) (f : Tree.MutFn V W) (n : Nat) (self : CTree K V) (that : Tree K W) : Charged (CTree K V) :=
  if n = self.pre.length ∧ n = that.pre.length then
    CTree.mergeKids true none rec { self with val := (Tree.leftVal f self.val that.val).1 } that.kids
  else if n = self.pre.length then do
    let _ ← copyOf n that
    self.mergeKids true none rec [{ that with pre := that.pre.drop n }]
  else if n = that.pre.length then do
    let s ← self.split n
    s.mergeKids true none rec that.kids
  else pure self

/-- the cases of `remove_prefix_with` (mod.rs:479-509) -/
def removeCases (rec : CTree K V → Tree K W → Charged (CTree K V)) (f : W → Bool) (n : Nat) (self : CTree K V) (that : Tree K W) : Charged (CTree K V) :=
  if n = self.pre.length ∧ n = that.pre.length then
    if Tree.selected f that.val then self.clear else self.mergeKids true none rec that.kids
  else if n = that.pre.length then
    if Tree.selected f that.val then self.clear
    else do
      let s ← self.split n
      s.mergeKids true none rec that.kids
  else if n = self.pre.length then do
    let _ ← copyOf n that
    self.mergeKids true none rec [{ that with pre := that.pre.drop n }]
  else pure self

/-- the cases of `retain_prefix_with` (mod.rs:522-544) -/
def retainCases (rec : CTree K V → Tree K W → Charged (CTree K V)) (f : W → Bool) (n : Nat) (self : CTree K V) (that : Tree K W) : Charged (CTree K V) :=
  if n = self.pre.length ∧ n = that.pre.length then
    if !Tree.selected f that.val then CTree.mergeKids false none rec { self with val := none } that.kids else pure self
  else if n = that.pre.length then
    if !Tree.selected f that.val then do
      let s ← self.split n
      s.mergeKids false none rec that.kids
    else pure self
  else if n = self.pre.length then do
    let _ ← copyOf n that
    CTree.mergeKids false none rec { self with val := none } [{ that with pre := that.pre.drop n }]
  else self.clear

variable [DecidableEq K]

/-- `outer_combine_with` (mod.rs:345-391) with fuel -/
def outerGo (f : Tree.MutFn V V) : Nat → CTree K V → Tree K V → Charged (CTree K V)
  | 0, self, _ => pure self
  | fuel + 1, self, that => do
    let t ← outerCases (outerGo f fuel) f (Tree.commonPrefix self.pre that.pre) self that
    t.unsplit
/-- `inner_combine_with` (mod.rs:398-431) with fuel -/
def innerGo (f : Tree.MutFn V W) : Nat → CTree K V → Tree K W → Charged (CTree K V)
  | 0, self, _ => pure self
  | fuel + 1, self, that => do
    let t ← innerCases (innerGo f fuel) f (Tree.commonPrefix self.pre that.pre) self that
    t.unsplit
/-- `left_combine_with` (mod.rs:440-468) with fuel -/
def leftGo (f : Tree.MutFn V W) : Nat → CTree K V → Tree K W → Charged (CTree K V)
  | 0, self, _ => pure self
  | fuel + 1, self, that => do
    let t ← leftCases (leftGo f fuel) f (Tree.commonPrefix self.pre that.pre) self that
    t.unsplit
/-- `remove_prefix_with` (mod.rs:474-511) with fuel -/
def removeGo (f : W → Bool) : Nat → CTree K V → Tree K W → Charged (CTree K V)
  | 0, self, _ => pure self
  | fuel + 1, self, that => do
    let t ← removeCases (removeGo f fuel) f (Tree.commonPrefix self.pre that.pre) self that
    t.unsplit
/-- `retain_prefix_with` (mod.rs:517-546) with fuel -/
def retainGo (f : W → Bool) : Nat → CTree K V → Tree K W → Charged (CTree K V)
  | 0, self, _ => pure self
  | fuel + 1, self, that => do
    let t ← retainCases (retainGo f fuel) f (Tree.commonPrefix self.pre that.pre) self that
    t.unsplit
end

/-! ### Public functions -/

section
variable {K V W : Type}

mutual
/-- the tree without the state of its vectors -/
def CTree.plain : CTree K V → Tree K V
  | ⟨p, v, _, ks⟩ => ⟨p, v, plains ks⟩
/-- of a list of trees -/
def plains : List (CTree K V) → List (Tree K V)
  | [] => []
  | c :: cs => c.plain :: plains cs
end

mutual
/-- A tree that has just been opened (a node made by `materialize_shallow`, lazy_radix_tree.rs:154-167): nothing is loaded -/
def opened : Tree K V → CTree K V
  | ⟨p, v, ks⟩ => ⟨p, v, .raw, openeds ks⟩
/-- a list of trees -/
def openeds : List (Tree K V) → List (CTree K V)
  | [] => []
  | k :: ks => opened k :: openeds ks
end

variable [Ord K] [DecidableEq K]

/-- `outer_combine_with` (mod.rs:345-391) -/
def CTree.outerCombineWith (a : CTree K V) (b : Tree K V) (f : Tree.MutFn V V) : Charged (CTree K V) := outerGo f (a.plain.size + b.size + 1) a b
/-- `inner_combine_with` (mod.rs:398-431) -/
def CTree.innerCombineWith (a : CTree K V) (b : Tree K W) (f : Tree.MutFn V W) : Charged (CTree K V) := innerGo f (a.plain.size + b.size + 1) a b
/-- `left_combine_with` (mod.rs:440-468) -/
def CTree.leftCombineWith (a : CTree K V) (b : Tree K W) (f : Tree.MutFn V W) : Charged (CTree K V) := leftGo f (a.plain.size + b.size + 1) a b
/-- `remove_prefix_with` (mod.rs:474-511) -/
def CTree.removePrefixWith (a : CTree K V) (b : Tree K W) (f : W → Bool) : Charged (CTree K V) := removeGo f (a.plain.size + b.size + 1) a b
/-- `retain_prefix_with` (mod.rs:517-546) -/
def CTree.retainPrefixWith (a : CTree K V) (b : Tree K W) (f : W → Bool) : Charged (CTree K V) := retainGo f (a.plain.size + b.size + 1) a b
/-- `insert` (mod.rs:261-266) -/
def CTree.insert (a : CTree K V) (key : List K) (v : V) : Charged (CTree K V) := a.outerCombineWith (Tree.single key v) (fun _ b => (b, .ret true))
/-- removing one key: `difference_with` (mod.rs:336-338) with a tree of that key -/
def CTree.remove (a : CTree K V) (key : List K) : Charged (CTree K V) := a.leftCombineWith (Tree.single key ()) (fun a _ => (a, .ret false))

/-- `enum FindResult` (mod.rs:699-718) -/
inductive Found (K V : Type) where
  | found (t : CTree K V)
  | prefix (t : CTree K V) (rt : Nat)
  | notFound

/-- `find` (mod.rs:724-760), which loads the children it searches; also the tree afterwards. `act` is done to the node that is found (`id`, or `CTree.share` if it is cloned). -/
def findGo (act : CTree K V → CTree K V) : Nat → CTree K V → List K → Charged (Found K V × CTree K V)
  | 0, t, _ => pure (.notFound, t)
  | fuel + 1, t, p =>
    if p.length - Tree.commonPrefix t.pre p = 0 ∧ t.pre.length - Tree.commonPrefix t.pre p = 0 then pure (.found t, act t)
    else if p.length - Tree.commonPrefix t.pre p = 0 then pure (.prefix t (t.pre.length - Tree.commonPrefix t.pre p), act t)
    else if t.pre.length - Tree.commonPrefix t.pre p = 0 then do
      let t ← t.load
      match binarySearchBy (fun q : List K => compare q.head? p[Tree.commonPrefix t.pre p]?) (t.kids.map CTree.pre) with
      | .found i =>
        match t.kids[i]? with
        | none => pure (.notFound, t)
        | some c => do
          let r ← findGo act fuel c (p.drop (Tree.commonPrefix t.pre p))
          pure (r.1, { t with kids := t.kids.set i r.2 })
      | .notFound _ => pure (.notFound, t)
    else pure (.notFound, t)

/-- `get` (mod.rs:619-626), and the tree afterwards -/
def CTree.get (t : CTree K V) (key : List K) : Charged (Option V × CTree K V) := do
  let r ← findGo id (t.plain.size + 1) t key
  match r.1 with
  | .found x => pure (x.val, r.2)
  | _ => pure (none, r.2)

/-- `filter_prefix` (mod.rs:269-285): a clone of the node found, and the tree afterwards -/
def CTree.filterPrefix (t : CTree K V) (p : List K) : Charged (CTree K V × CTree K V) := do
  let r ← findGo CTree.share (t.plain.size + 1) t p
  match r.1 with
  | .found x => pure ({ x.share with pre := p }, r.2)
  | .prefix x rt => do
    let y ← CTree.prepend { x.share with pre := x.pre.drop (x.pre.length - rt) } p
    pure (y, r.2)
  | .notFound => pure (⟨[], none, .raw, []⟩, r.2)
end

end Verif.Cow
