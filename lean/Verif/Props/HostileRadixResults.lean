import Verif.Lemmas.HostileRadixResult
import Verif.Lemmas.HostileRadixResultNew
import Verif.Props.HostileRadix
import Verif.Props.Radix
/-!
# C86, third part: key components that answer like a total order, but may panic

If `==` and `cmp` are `=` and a total order whenever they answer, then every call that returns, returns what the plain operation returns: all the
theorems about radix trees apply to it. A panic in the middle of a combination in place leaves a valid tree (unless it was sorting that panicked, when the
children may be left in a wrong order, see `C86_finding_unsorted`), and the entries of that tree are entries of the tree it was
called on, or all of them entries of the result that the call would have had.
-/
namespace Verif
open Std
namespace Hostile
namespace Radix
variable {W K V X : Type} [Ord K] [DecidableEq K] [TransOrd K] [LawfulEqOrd K]

/-- what a call on `x` that was to leave `plain` may end with -/
def EndsLike (sortPanics : Prop) (x : Tree K V) (plain : Tree K V × Flow) (t : Tree K V) (res : Outcome Bool) : Prop :=
  (res = .ret true → plain = (t, .cont)) ∧
  (res = .panic → (Tree.Valid t ∨ sortPanics) ∧
    ((∀ key v, Tree.Entry t key v → Tree.Entry x key v) ∨ ∀ key v, Tree.Entry t key v → Tree.Entry plain.1 key v))

/-- **C86 (outer_combine_with, ordered keys that may panic).** -/
theorem C86_ordered_outer_combine_with (k : Keys W K) (hk : Answers k) (sort : Sorter W (Tree K V)) (hsort : Rearranges sort) (hs : Sorts sort)
    (f : Tree.MutFn V V) (a b : Tree K V) (ha : Tree.Valid a) (hb : Tree.Valid b) (w : W) (t : Tree K V) (res : Outcome Bool)
    (h : (outerCombineWith k sort a b f w).1 = (t, res)) : EndsLike (SortingPanics sort) a (a.outerCombineWith b f) t res :=
  (body_run hk fun w => outerWithCases_along hk hs hsort (outerWithGo_like hk hs hsort f _) f _ a b ha hb w).result ha (Tree.outerWithCases_valid ha hb) h

/-- **C86 (insert, ordered keys that may panic).** If `insert` returns, the tree holds the new entry and the old ones (except the one with the same key). If it
panics, it holds no others, and is still valid unless sorting panicked. -/
theorem C86_ordered_insert (k : Keys W K) (hk : Answers k) (sort : Sorter W (Tree K V)) (hsort : Rearranges sort) (hs : Sorts sort)
    (a : Tree K V) (ha : Tree.Valid a) (key : List K) (v : V) (w : W) (t : Tree K V) (res : Outcome Bool) (h : (insert k sort a key v w).1 = (t, res)) :
    (res = .ret true → Tree.Valid t ∧ ∀ key' v', Tree.Entry t key' v' ↔ (key' = key ∧ v' = v) ∨ (key' ≠ key ∧ Tree.Entry a key' v')) ∧
    (res = .panic → (Tree.Valid t ∨ SortingPanics sort) ∧ ∀ key' v', Tree.Entry t key' v' → (key' = key ∧ v' = v) ∨ Tree.Entry a key' v') := by
  obtain ⟨r, h1, h2, h3⟩ := Tree.C42_insert a ha key v
  have hd := C86_ordered_outer_combine_with k hk sort hsort hs (fun _ b => (b, .ret true)) a (Tree.single key v) ha (Tree.canonical_single key v).1 w t res h
  have h1 : a.outerCombineWith (Tree.single key v) (fun _ b => (b, .ret true)) = (r, .cont) := h1
  rw [h1] at hd
  refine ⟨fun e => ?_, fun e => ?_⟩
  · cases hd.1 e
    exact ⟨h2, h3⟩
  · refine ⟨(hd.2 e).1, fun key' v' he => ?_⟩
    rcases (hd.2 e).2 with hh | hh
    · exact .inr (hh _ _ he)
    · exact ((h3 key' v').1 (hh _ _ he)).imp_right And.right

/-- a sort that never runs -/
def idle : Sorter W (Tree K V) := fun l w => ((l, .ret ()), w)
theorem idle_noPanic : SortingPanics (idle : Sorter W (Tree K V)) → False := fun ⟨_, _, _, h⟩ => by cases h

theorem EndsLike.mono {P Q : Prop} (hpq : P → Q) {x : Tree K V} {plain : Tree K V × Flow} {t : Tree K V} {res : Outcome Bool} (h : EndsLike P x plain t res) :
    EndsLike Q x plain t res := ⟨h.1, fun e => ⟨(h.2 e).1.imp_right hpq, (h.2 e).2⟩⟩

/-- **C86 (inner_combine_with, left_combine_with, ordered keys that may panic).** -/
theorem C86_ordered_inner_combine_with (k : Keys W K) (hk : Answers k) (f : Tree.MutFn V X) (a : Tree K V) (b : Tree K X)
    (ha : Tree.Valid a) (hb : Tree.Valid b) (w : W) (t : Tree K V) (res : Outcome Bool)
    (h : (innerCombineWith k a b f w).1 = (t, res)) : EndsLike False a (a.innerCombineWith b f) t res :=
  EndsLike.mono idle_noPanic ((body_run (sort := idle) hk fun w => innerWithCases_along hk (innerWithGo_like hk f _) f _ a b ha hb w).result ha
    (Tree.innerWithCases_valid ha hb) h)

theorem C86_ordered_left_combine_with (k : Keys W K) (hk : Answers k) (f : Tree.MutFn V X) (a : Tree K V) (b : Tree K X)
    (ha : Tree.Valid a) (hb : Tree.Valid b) (w : W) (t : Tree K V) (res : Outcome Bool)
    (h : (leftCombineWith k a b f w).1 = (t, res)) : EndsLike False a (a.leftCombineWith b f) t res :=
  EndsLike.mono idle_noPanic ((body_run (sort := idle) hk fun w => leftWithCases_along hk (leftWithGo_like hk f _) f _ a b ha hb w).result ha
    (Tree.leftWithCases_valid ha hb) h)

/-- **C86 (remove_prefix_with, retain_prefix_with, ordered keys that may panic).** -/
theorem C86_ordered_remove_prefix_with (k : Keys W K) (hk : Answers k) (f : X → Bool) (a : Tree K V) (b : Tree K X)
    (ha : Tree.Valid a) (hb : Tree.Valid b) (w : W) (t : Tree K V) (res : Outcome Bool)
    (h : (removePrefixWith k a b f w).1 = (t, res)) : EndsLike False a (a.removePrefixWith b f) t res :=
  EndsLike.mono idle_noPanic ((body_run (sort := idle) hk fun w => removePrefixCases_along hk (removePrefixGo_like hk f _) f _ a b ha hb w).result ha
    (Tree.removePrefixCases_valid ha hb) h)

theorem C86_ordered_retain_prefix_with (k : Keys W K) (hk : Answers k) (f : X → Bool) (a : Tree K V) (b : Tree K X)
    (ha : Tree.Valid a) (hb : Tree.Valid b) (w : W) (t : Tree K V) (res : Outcome Bool)
    (h : (retainPrefixWith k a b f w).1 = (t, res)) : EndsLike False a (a.retainPrefixWith b f) t res :=
  EndsLike.mono idle_noPanic ((body_run (sort := idle) hk fun w => retainPrefixCases_along hk (retainPrefixGo_like hk f _) f _ a b ha hb w).result ha
    (Tree.retainPrefixCases_valid ha hb) h)

/-- **C86 (combinations into a new tree, ordered keys that may panic).** What returns is the plain result. -/
theorem C86_ordered_combine (k : Keys W K) (hk : Answers k) (sort : Sorter W (Tree K V)) (hs : Sorts sort) (f : V → V → Option V) (g : V → X → Option V)
    (g' : V → Option X → Option V) (a b : Tree K V) (c : Tree K X) (ha : Tree.Valid a) (hb : Tree.Valid b) (hc : Tree.Valid c) (w : W) (t : Tree K V) :
    ((outerCombine k sort a b f w).1 = .ret t → a.outerCombine b f = .ret t) ∧ ((innerCombine k a c g w).1 = .ret t → a.innerCombine c g = .ret t) ∧
    ((leftCombine k a c g' w).1 = .ret t → a.leftCombine c g' = .ret t) :=
  ⟨outerGo_like hk hs f _ a b ha hb w t, innerGo_like hk g _ a c ha hc w t, leftGo_like hk g' _ a c ha hc w t⟩

/-- **C86 (questions, ordered keys that may panic).** Every answer is the right one. -/
theorem C86_ordered_questions (k : Keys W K) (hk : Answers k) (a : Tree K V) (b : Tree K X) (ha : Tree.Valid a) (hb : Tree.Valid b) (key : List K) (w : W) :
    (∀ r, Tree.Canonical a → (isSubset k a b w).1 = .ret r → (r = true ↔ ∀ key, Tree.HasEntry a key → Tree.HasEntry b key)) ∧
    (∀ r, (intersects k a b w).1 = .ret r → (r = true ↔ ∃ key, Tree.HasEntry a key ∧ Tree.HasEntry b key)) ∧
    (∀ r, (get k a key w).1 = .ret r → ∀ v, r = some v ↔ Tree.Entry a key v) ∧
    ∀ t, (filterPrefix k a key w).1 = .ret t → a.filterPrefix key = .ret t := by
  refine ⟨fun r hc e => ?_, fun r e => ?_, fun r e => ?_, fun t e => filterPrefix_like hk a key ha w t e⟩
  · obtain ⟨q, h1, h2⟩ := Tree.C48_is_subset a b hc hb
    have := isSubsetGo_like hk _ a a.pre b b.pre ha hb w r e
    rw [show Tree.isSubsetGo _ a a.pre b b.pre = .ret q from h1] at this
    cases this
    exact h2
  · obtain ⟨q, h1, -, h2⟩ := Tree.C48_intersects_is_disjoint a b ha hb
    have := intersectsGo_like hk _ a a.pre b b.pre ha hb w r e
    rw [show Tree.intersectsGo _ a a.pre b b.pre = .ret q from h1] at this
    cases this
    exact h2
  · obtain ⟨q, h1, h2⟩ := Tree.C41_get a ha key
    have := get_like hk a key ha w r e
    rw [h1] at this
    cases this
    exact h2

/-! ### Examples -/
section examples

theorem fuse_answers : Answers fuse := by
  refine ⟨fun x y w b h => ?_, fun x y w o h => ?_⟩ <;> cases w with
  | zero => cases h
  | succ n => cases h; rfl

/-- a sort that panics before it has moved anything if the fuse has burnt down -/
def fuseSort : Sorter Nat (Tree Nat Nat) := fun l n => match n with
  | 0 => ((l, .panic), 0)
  | n + 1 => ((Tree.sortKids l, .ret ()), n)

theorem fuseSort_rearranges : Rearranges fuseSort := fun l n => match n with
  | 0 => List.Perm.refl l
  | n + 1 => stableSort_perm Tree.headCmp l
theorem fuseSort_sorts : Sorts fuseSort := fun l n h => match n with
  | 0 => by cases h
  | n + 1 => rfl

/-- three keys -/
def three : Tree Nat Nat := ⟨[], none, [Tree.single [1] 100, ⟨[2], some 200, [Tree.single [5] 250]⟩]⟩
example : Tree.Valid three := by
  refine .mk ?_ ?_ ?_
  · intro c hc; rcases List.mem_cons.1 hc with rfl | hc
    · simp [Tree.single]
    · obtain rfl := List.mem_singleton.1 hc; simp
  · exact List.pairwise_pair.2 rfl
  · intro c hc; rcases List.mem_cons.1 hc with rfl | hc
    · exact (Tree.canonical_single _ _).1
    · obtain rfl := List.mem_singleton.1 hc
      refine .mk ?_ ?_ ?_
      · intro c hc; obtain rfl := List.mem_singleton.1 hc; simp [Tree.single]
      · exact List.pairwise_singleton _ _
      · intro c hc; obtain rfl := List.mem_singleton.1 hc; exact (Tree.canonical_single _ _).1

example : (insert fuse fuseSort three [2, 3] 7 20).1 =
    (⟨[], none, [Tree.single [1] 100, ⟨[2], some 200, [Tree.single [3] 7, Tree.single [5] 250]⟩]⟩, .ret true) := by decide +kernel
/-- the comparison panics while the children are searched: everything from there on is lost -/
example : (insert fuse fuseSort three [2, 3] 7 2).1 = (⟨[], none, [Tree.single [1] 100]⟩, .panic) := by decide +kernel

/-- **C86 (finding).** If the comparison panics while `insert` sorts the two children of a node it has just split, they are left in the wrong order. The old key
is still in the tree (there is a path that spells it), but it is not found any more, however well the comparisons work from then on. -/
theorem C86_finding_unsorted :
    (insert fuse fuseSort (Tree.single [5] 100) [3] 7 1).1 = (⟨[], none, [Tree.single [5] 100, Tree.single [3] 7]⟩, .panic) ∧
    Tree.Entry (⟨[], none, [Tree.single [5] 100, Tree.single [3] 7]⟩ : Tree Nat Nat) [5] 100 ∧
    ∀ n, (get fuse (⟨[], none, [Tree.single [5] 100, Tree.single [3] 7]⟩ : Tree Nat Nat) [5] (n + 9)).1 = .ret none := by
  refine ⟨by decide +kernel, .there (p := []) (.head _) .here, fun n => ?_⟩
  have e : compare 3 5 = Ordering.lt := rfl
  simp [e, get, find, findGo, commonPrefix, Tree.commonPrefixM, Tree.size, binarySearchBy, bsLoop, childCmp, getUnchecked, bind, pure, Tree.single, call, fuse]

end examples

end Radix
end Hostile
end Verif
