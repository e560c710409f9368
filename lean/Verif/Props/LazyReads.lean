import Verif.Lemmas.LazyReadsOps
import Verif.Props.CopyOnWrite
/-!
# What the relations and the intersection load: C96

`children()` of a node of a `LazyRadixTree` loads the children when it is called for the first time, and does nothing else. `Seen` counts the calls on nodes
of the left and of the right operand, so these are upper bounds for what is loaded.
-/
namespace Verif.Tree
open Std

section
variable {K V W : Type} [Ord K] [DecidableEq K]

/-- **C96.** `is_subset` and `intersects` (and so `is_superset` and `is_disjoint`) look at the children of at most as many nodes of each tree as the other tree has key
components, plus one; the sizes of the two trees do not matter otherwise. -/
theorem C96_relations [TransOrd K] [LawfulEqOrd K] (a : Tree K V) (b : Tree K W) (ha : Valid a) (hb : Valid b) :
    ((isSubsetL a b).res = a.isSubset b ∧ (isSubsetL a b).seen.left ≤ b.components + 1 ∧ (isSubsetL a b).seen.right ≤ a.components + 1) ∧
    ((intersectsL a b).res = a.intersects b ∧ (intersectsL a b).seen.left ≤ b.components + 1 ∧ (intersectsL a b).seen.right ≤ a.components + 1) := by
  have e1 : a.components = a.pre.length + components.componentsL a.kids := components_def a
  have e2 : b.components = b.pre.length + components.componentsL b.kids := components_def b
  have s1 := (isSubsetGoL_atMost leftSide (a.size + b.size + 1) a a.pre b b.pre ha hb).1
  have s2 := (isSubsetGoL_atMost rightSide (a.size + b.size + 1) a a.pre b b.pre ha hb).1
  have i1 := (intersectsGoL_atMost leftSide (a.size + b.size + 1) a a.pre b b.pre ha hb).1
  have i2 := (intersectsGoL_atMost rightSide (a.size + b.size + 1) a a.pre b b.pre ha hb).1
  simp only [rest, Nat.zero_mul, Nat.one_mul, Nat.zero_add, Nat.add_zero, ← e1, ← e2] at s1 s2 i1 i2
  exact ⟨⟨s1.1, s1.2, s2.2⟩, ⟨i1.1, i1.2, i2.2⟩⟩

/-- **C96.** The same with one key: whether it is in the tree can be asked by `intersects`, too, at the cost of at most one more node than it has components. -/
theorem C96_one_key [TransOrd K] [LawfulEqOrd K] (t : Tree K V) (ht : Valid t) (k : List K) (w : W) :
    (intersectsL t (single k w)).res = t.intersects (single k w) ∧ (intersectsL t (single k w)).seen.left ≤ k.length + 1 := by
  obtain ⟨_, h1, h2, _⟩ := C96_relations t (single k w) ht (canonical_single k w).1
  refine ⟨h1, ?_⟩
  rw [(Cow.single_size k w).1] at h2
  exact h2

/-- **C96.** `inner_combine` (and so `intersection`) looks at the children of each node at most once; for any operands, and any function. -/
theorem C96_intersection (a : Tree K V) (b : Tree K W) (f : V → W → Option V) :
    (innerCombineL a b f).res = a.innerCombine b f ∧ (innerCombineL a b f).seen.left ≤ a.nodes ∧ (innerCombineL a b f).seen.right ≤ b.nodes := by
  have h1 := innerGoL_atMost (C := leftC) f (a.size + b.size + 1) 1 1 1 0 (fun k => Nat.le_refl _) (fun k => Nat.zero_le _) a b
  have h2 := innerGoL_atMost (C := rightC) f (a.size + b.size + 1) 1 1 0 1 (fun k => Nat.zero_le _) (fun k => Nat.le_refl _) a b
  simp only [Nat.one_mul, Nat.zero_mul, Nat.zero_add, Nat.add_zero] at h1 h2
  exact ⟨h1.1, h1.2, h2.2⟩

/-- **C96.** And it may have to look at every one of them for nothing: the intersection of a tree whose root prefix starts with `x` and has more than one component with a tree of the
single key `[x]` is empty, and all nodes of the first tree are looked at, however many there are. `intersection_with` looks at two vectors at most (`C94_in_place`, `w + 1` loads for
each), `intersects` at two. -/
theorem C96_intersection_loads_all (t : Tree K V) (ht : Valid t) (x y : K) (p : List K) (hp : t.pre = x :: y :: p) (w : W) (f : V → W → Option V) :
    (innerCombineL t (single [x] w) f).seen.left = t.nodes ∧ (∃ e, (innerCombineL t (single [x] w) f).res = .ret e ∧ e.isEmpty = true) := by
  have hn : commonPrefix t.pre (single [x] w).pre = 1 := by rw [hp]; simp [single, commonPrefix]
  have hm := materializeShortened_eq ht (n := 1) (by rw [hp]; simp)
  have hs : t.shorten 1 = { pre := y :: p, val := t.val, kids := t.kids } := by unfold shorten; rw [hp]; rfl
  rw [hs] at hm
  have h1 : ¬ 1 = t.pre.length := by rw [hp]; simp
  have h2 : 1 = (single [x] w).pre.length := rfl
  have hg : innerCombineL t (single [x] w) f = (do
      seeL t.nodes
      seeR 1
      pure (mkNode [x] none [])) := by
    unfold innerCombineL
    rw [innerGoL, hn, innerCasesL, if_neg (fun h => h1 h.1), if_neg h1, if_pos h2, copyCalls_eq, Nat.one_mul, hm, hp]
    generalize (innerGoL f (t.size + (single [x] w).size) 0 1 : Tree K V → Tree K W → Noted (Call (Tree K V))) = rec
    have hk : mergeChildrenM (pureOpM quietCmp false false materialize noConverter rec) [{ pre := y :: p, val := t.val, kids := t.kids }] (single [x] w).kids = pure (.ret []) := by
      unfold mergeChildrenM driveAllM
      rw [driveM]
      simp [single, headed, MergeState.aSlice, MergeState.bSlice, pureOpM, SliceMS.mut]
      rfl
    simp only [bindCM, List.drop_one, List.tail_cons]
    rw [hk]
    rfl
  rw [hg]
  exact ⟨rfl, _, rfl, rfl⟩
end

/-- the example trees of `Props/Radix.lean`: the hypotheses are met; some children are looked at, not all -/
example : Valid demoA ∧ Valid demoB ∧ (isSubsetL demoA demoB).seen = ⟨2, 2⟩ ∧ (intersectsL demoA demoB).seen = ⟨1, 1⟩ ∧ (intersectsL demoB demoB).seen = ⟨0, 0⟩ ∧
    (innerCombineL demoA demoB (fun a _ => some a)).seen = ⟨4, 3⟩ ∧ demoA.nodes = 4 ∧ demoB.nodes = 3 := by
  refine ⟨demoA_canonical.1, demoB_canonical.1, by decide +kernel, by decide +kernel, by decide +kernel, by decide +kernel, by decide, by decide⟩

/-- a tree with the keys `[1, 2]`, `[1, 2, 3]`, `[1, 2, 4]` -/
private def under : Tree Nat Char := ⟨[1, 2], some 'a', [⟨[3], some 'b', []⟩, ⟨[4], some 'c', []⟩]⟩

/-- the hypotheses of `C96_intersection_loads_all` are met; `intersects` looks at one node only -/
example : Valid under ∧ under.pre = 1 :: 2 :: [] ∧ under.nodes = 3 ∧ (innerCombineL under (single [1] 'x') (fun a _ => some a)).seen.left = 3 ∧
    (intersectsL under (single [1] 'x')).seen = ⟨0, 1⟩ := by
  refine ⟨.mk ?_ ?_ ?_, rfl, rfl, by decide +kernel, by decide +kernel⟩
  · intro c hc
    rcases List.mem_cons.1 hc with rfl | hc
    · exact List.cons_ne_nil _ _
    · rw [List.mem_singleton.1 hc]; exact List.cons_ne_nil _ _
  · refine List.pairwise_cons.2 ⟨fun c hc => ?_, List.pairwise_singleton ..⟩
    rw [List.mem_singleton.1 hc]
    decide
  · intro c hc
    rcases List.mem_cons.1 hc with rfl | hc
    · exact .mk (by simp) List.Pairwise.nil (by simp)
    · rw [List.mem_singleton.1 hc]
      exact .mk (by simp) List.Pairwise.nil (by simp)

end Verif.Tree
