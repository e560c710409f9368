import Verif.Lemmas.LazyReadsInPlace
import Verif.Props.LazyReads
/-!
# What the in-place operations load of the other tree: C96

As in `Props/LazyReads.lean`, `Seen` counts calls of `children()`, here on nodes of the operand (`seen.right`); for the tree that is changed see `Props/CopyOnWrite.lean`.
-/
namespace Verif.Tree
open Std

section
variable {K V W : Type} [Ord K] [TransOrd K] [LawfulEqOrd K] [DecidableEq K]

/-- **C96.** `outer_combine_with` (and so `union_with`) looks at the children of every node of the operand exactly once; `inner_combine_with`, `left_combine_with` (and so
`intersection_with` and `difference_with`), `remove_prefix_with` and `retain_prefix_with` at those of each node at most once. -/
theorem C96_operand (a : Tree K V) (b : Tree K V) (c : Tree K W) (ha : Valid a) (hb : Valid b) (hc : Valid c) (m : V → V → V × Bool) (m' : V → W → V × Bool) (s : W → Bool) :
    ((outerCombineWithL a b (closure m)).res = a.outerCombineWith b (closure m) ∧ (outerCombineWithL a b (closure m)).seen.right = b.nodes) ∧
    ((innerCombineWithL a c (closure m')).res = a.innerCombineWith c (closure m') ∧ (innerCombineWithL a c (closure m')).seen.right ≤ c.nodes) ∧
    ((leftCombineWithL a c (closure m')).res = a.leftCombineWith c (closure m') ∧ (leftCombineWithL a c (closure m')).seen.right ≤ c.nodes) ∧
    ((removePrefixWithL a c s).res = a.removePrefixWith c s ∧ (removePrefixWithL a c s).seen.right ≤ c.nodes) ∧
    ((retainPrefixWithL a c s).res = a.retainPrefixWith c s ∧ (retainPrefixWithL a c s).seen.right ≤ c.nodes) := by
  have o := outerWithGoL_ok (closure m) (a.size + b.size + 1) 1 a b
  have i := innerWithGoL_ok (closure m') (a.size + c.size + 1) 1 a c
  have l := leftWithGoL_ok (closure m') (a.size + c.size + 1) 1 a c
  have r := removePrefixGoL_ok s (a.size + c.size + 1) 1 a c
  have t := retainPrefixGoL_ok s (a.size + c.size + 1) 1 a c
  rw [Nat.one_mul] at o i l r t
  have oc : (a.outerCombineWith b (closure m)).2 = .cont := by rw [outerCombineWith_spec ha hb (closure_noPanic m)]
  have ic : (a.innerCombineWith c (closure m')).2 = .cont := by rw [innerCombineWith_spec ha hc (closure_noPanic m')]
  have lc : (a.leftCombineWith c (closure m')).2 = .cont := by
    obtain ⟨x, h, _⟩ := leftCombineWith_spec ha hc (closure_noPanic m')
    rw [h]
  have rc : (a.removePrefixWith c s).2 = .cont := by
    obtain ⟨x, h, _⟩ := removePrefixWith_spec ha hc s
    rw [h]
  have tc : (a.retainPrefixWith c s).2 = .cont := by
    obtain ⟨x, h, _⟩ := retainPrefixWith_spec ha hc s
    rw [h]
  exact ⟨⟨o.1, Nat.le_antisymm (o.2 oc).1 ((o.2 oc).2 rfl)⟩, ⟨i.1, (i.2 ic).1⟩, ⟨l.1, (l.2 lc).1⟩, ⟨r.1, (r.2 rc).1⟩, ⟨t.1, (t.2 tc).1⟩⟩

/-- **C96.** And they may have to look at every one of them for nothing: intersecting in place a tree of the single key `[x]` with a tree whose root prefix starts with `x` and has
more than one component leaves nothing, subtracting that tree changes nothing, and both look at all its nodes, however many there are. -/
theorem C96_operand_loads_all (t : Tree K W) (ht : Valid t) (x y : K) (p : List K) (hp : t.pre = x :: y :: p) (v : V) (m : V → W → V × Bool) :
    ((innerCombineWithL (single [x] v) t (closure m)).res.1.isEmpty = true ∧ (innerCombineWithL (single [x] v) t (closure m)).seen.right = t.nodes) ∧
    ((leftCombineWithL (single [x] v) t (closure m)).res.1 = single [x] v ∧ (leftCombineWithL (single [x] v) t (closure m)).seen.right = t.nodes) := by
  have hn : commonPrefix (single [x] v).pre t.pre = 1 := by rw [hp]; simp [single, commonPrefix]
  have hm := materializeShortened_eq ht (n := 1) (by rw [hp]; simp)
  have h1 : ¬ 1 = t.pre.length := by rw [hp]; simp
  have h2 : 1 = (single [x] v).pre.length := rfl
  have hs : t.shorten 1 = { pre := y :: p, val := t.val, kids := t.kids } := by unfold shorten; rw [hp]; rfl
  rw [hs] at hm
  have key : ∀ (takeA : Bool) (recM : Tree K V → Tree K W → Noted (Tree K V × Flow)) (s : Tree K V), s.kids = [] →
      childrenWithL (inPlaceOpL 0 takeA false noConverter recM) s [{ pre := y :: p, val := t.val, kids := t.kids }] = pure ({ s with kids := [] }, .cont) := by
    intro takeA recM s hk
    unfold childrenWithL mergeAll
    rw [hk, binaryMerge]
    cases s
    simp [headed, MergeState.aSlice, MergeState.bSlice, inPlaceOpL, InPlaceMS.mut, InPlaceMS.skipB, Seen.add, Seen.zero]
    rfl
  constructor
  · have hg : innerCombineWithL (single [x] v) t (closure m) = finishL (do
        seeR t.nodes
        pure ({ single [x] v with val := none, kids := [] }, .cont)) := by
      unfold innerCombineWithL
      rw [innerWithGoL, hn, innerWithCasesL, if_neg (fun h => h1 h.2), if_pos h2, copyCalls_eq, Nat.one_mul, hm]
      show finishL (do seeR t.nodes; childrenWithL _ _ _) = _
      rw [key _ _ _ rfl]
    rw [hg]
    exact ⟨rfl, rfl⟩
  · have hg : leftCombineWithL (single [x] v) t (closure m) = finishL (do
        seeR t.nodes
        pure (single [x] v, .cont)) := by
      unfold leftCombineWithL
      rw [leftWithGoL, hn, leftWithCasesL, if_neg (fun h => h1 h.2), if_pos h2, copyCalls_eq, Nat.one_mul, hm]
      show finishL (do seeR t.nodes; childrenWithL _ _ _) = _
      rw [key _ _ _ rfl]
      rfl
    rw [hg]
    exact ⟨rfl, rfl⟩
end

/-- the example trees of `Props/Radix.lean`: the operand of a union is looked at completely, that of the others not always -/
example : Valid demoA ∧ Valid demoB ∧ demoA.nodes = 4 ∧ demoB.nodes = 3 ∧
    (outerCombineWithL demoA demoB (closure fun a _ => (a, true))).seen.right = 3 ∧
    (innerCombineWithL demoA demoB (closure fun a _ => (a, true))).seen.right = 3 ∧
    (leftCombineWithL (single [7] 'x') demoB (closure fun a _ => (a, false))).seen.right = 1 ∧
    (removePrefixWithL demoA demoB (fun _ => true)).seen.right = 0 := by
  refine ⟨demoA_canonical.1, demoB_canonical.1, by decide, by decide, by decide +kernel, by decide +kernel, by decide +kernel, by decide +kernel⟩

/-- a tree with the keys `[1, 2]`, `[1, 2, 3]`, `[1, 2, 4]` -/
private def stem : Tree Nat Char := ⟨[1, 2], some 'a', [⟨[3], some 'b', []⟩, ⟨[4], some 'c', []⟩]⟩

/-- the hypotheses of `C96_operand_loads_all` are met -/
example : Valid stem ∧ stem.pre = 1 :: 2 :: [] ∧ stem.nodes = 3 ∧ (leftCombineWithL (single [1] 'x') stem (closure fun a _ => (a, false))).seen.right = 3 := by
  refine ⟨.mk ?_ ?_ ?_, rfl, rfl, by decide +kernel⟩
  · intro c hc
    rcases List.mem_cons.1 hc with rfl | hc
    · exact List.cons_ne_nil _ _
    · rw [List.mem_singleton.1 hc]; exact List.cons_ne_nil _ _
  · refine List.pairwise_cons.2 ⟨fun c hc => ?_, List.pairwise_singleton ..⟩
    rw [List.mem_singleton.1 hc]
    decide
  · intro c hc
    rcases List.mem_cons.1 hc with rfl | hc
    · exact .mk (by simp) List.Pairwise.nil (by simp)
    · rw [List.mem_singleton.1 hc]
      exact .mk (by simp) List.Pairwise.nil (by simp)

end Verif.Tree
