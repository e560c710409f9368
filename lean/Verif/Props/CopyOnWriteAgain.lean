import Verif.Props.CopyOnWrite
/-!
# The other tree is copied again at every level: C94

In the in-place operations, a node of `self` that ends above the other tree (mod.rs:362-366 and so on) makes a `materialize_shortened` copy of the whole other tree,
and then goes on into a child of its own with that copy, where the same may happen again.
-/
namespace Verif.Cow
open Verif.Tree (Valid Narrow closure)

/-- `n + 1` nodes below each other, all with a value and a prefix of one component -/
def tower : Nat → Tree Nat Unit
  | 0 => ⟨[1], some (), []⟩
  | n + 1 => ⟨[1], some (), [tower n]⟩
/-- one long prefix, and `m` children -/
def brush (n m : Nat) : Tree Nat Unit := ⟨List.replicate n 1, some (), (List.range m).map fun i => ⟨[i], some (), []⟩⟩

theorem leaf_ok (i : Nat) : Tree.Valid (⟨[i], some (), []⟩ : Tree Nat Unit) ∧ Tree.Full (⟨[i], some (), []⟩ : Tree Nat Unit) :=
  ⟨Tree.valid_iff.2 Tree.Kids.nil, Tree.full_iff.2 ⟨nofun, nofun⟩⟩

theorem tower_ok : ∀ n, Tree.Valid (tower n) ∧ Tree.Full (tower n)
  | 0 => leaf_ok 1
  | n + 1 => by
    obtain ⟨h1, h2⟩ := tower_ok n
    have hp : (tower n).pre ≠ [] := by cases n <;> exact nofun
    refine ⟨Tree.valid_iff.2 ⟨?_, List.pairwise_singleton _ _, ?_⟩, Tree.full_iff.2 ⟨nofun, ?_⟩⟩
    · intro c hc; rw [List.mem_singleton.1 hc]; exact hp
    · intro c hc; rw [List.mem_singleton.1 hc]; exact h1
    · intro c hc; rw [List.mem_singleton.1 hc]; exact h2

theorem brush_ok (n m : Nat) : Tree.Valid (brush n m) ∧ Tree.Full (brush n m) := by
  refine ⟨Tree.valid_iff.2 ⟨?_, ?_, ?_⟩, Tree.full_iff.2 ⟨nofun, ?_⟩⟩
  · intro c hc; obtain ⟨i, _, rfl⟩ := List.mem_map.1 hc; exact nofun
  · exact List.pairwise_map.2 (List.pairwise_lt_range.imp fun {i j} h => Nat.compare_eq_lt.2 h)
  · intro c hc; obtain ⟨i, _, rfl⟩ := List.mem_map.1 hc; exact (leaf_ok i).1
  · intro c hc; obtain ⟨i, _, rfl⟩ := List.mem_map.1 hc; exact (leaf_ok i).2

theorem copiesOf_fresh : ∀ l : List (Tree Nat Unit), (copiesOf l).mem.fresh ≥ l.length
  | [] => Nat.le_refl 0
  | ⟨p, v, ks⟩ :: cs => by
    have ih := copiesOf_fresh cs
    simp only [copiesOf, copyOf, bind_mem, bind_res, pure_mem, add_zero, Mem.add, List.length_cons]
    omega

theorem leaves_nodes : ∀ l : List Nat, Tree.nodes.nodesL (l.map fun i => (⟨[i], some (), []⟩ : Tree Nat Unit)) = l.length
  | [] => rfl
  | i :: l => by
    show 1 + 0 + Tree.nodes.nodesL (l.map _) = l.length + 1
    rw [leaves_nodes l, Nat.add_comm]

theorem copyOf_brush (k n m : Nat) : m + 1 ≤ (copyOf k (brush n m)).mem.fresh := by
  have h := copiesOf_fresh (brush n m).kids
  have hl : (brush n m).kids.length = m := by simp [brush]
  simp only [copyOf, brush, bind_mem, Mem.add] at h hl ⊢
  omega

theorem brush_drop (n m : Nat) : { (brush (n + 1) m) with pre := (brush (n + 1) m).pre.drop 1 } = brush n m := by
  simp [brush, List.replicate_succ]

theorem tower_again (f : Tree.MutFn Unit Unit) (m : Nat) : ∀ (n fuel k : Nat), n < fuel → n + 2 ≤ k →
    (n + 1) * (m + 1) ≤ (outerGo f fuel (opened (tower n)) (brush k m)).mem.fresh
  | n, 0, _, h, _ => absurd h (Nat.not_lt_zero _)
  | n, fuel + 1, 0, _, h => by omega
  | n, fuel + 1, k + 1, h, hk => by
    have hk1 : ∃ j, k = j + 1 := ⟨k - 1, by omega⟩
    obtain ⟨j, rfl⟩ := hk1
    have hp : (opened (tower n)).pre = [1] := by cases n <;> rfl
    have hc : Tree.commonPrefix (opened (tower n)).pre (brush (j + 1 + 1) m).pre = 1 := by
      rw [hp]; simp [brush, List.replicate_succ, Tree.commonPrefix]
    have hl : (opened (tower n)).pre.length = 1 := by rw [hp]; rfl
    have hb : (brush (j + 1 + 1) m).pre.length = j + 1 + 1 := by simp [brush]
    rw [outerGo, hc]
    simp only [bind_mem, Mem.add]
    refine Nat.le_trans ?_ (Nat.le_add_right _ _)
    unfold outerCases
    rw [hl, hb, if_neg (by omega), if_pos rfl]
    simp only [bind_mem, Mem.add]
    have h1 := copyOf_brush 1 (j + 1 + 1) m
    have hd : { (brush (j + 1 + 1) m) with pre := (brush (j + 1 + 1) m).pre.drop 1 } = brush (j + 1) m := brush_drop (j + 1) m
    rw [hd]
    match n, h, hk with
    | 0, _, _ => omega
    | n + 1, h, hk =>
      have ih := tower_again f m n fuel (j + 1) (by omega) (by omega)
      have hm : (CTree.mergeKids true (some (copyOf 0)) (outerGo f fuel) (opened (tower (n + 1))) [brush (j + 1) m]).mem.fresh ≥
          (outerGo f fuel (opened (tower n)) (brush (j + 1) m)).mem.fresh := by
        have e1 : (opened (tower (n + 1))).childrenMut.res.kids = [opened (tower n)] := rfl
        have e2 : headCmp (opened (tower n)) (brush (j + 1) m) = .eq := by
          unfold headCmp
          have : (opened (tower n)).pre = [1] := by cases n <;> rfl
          rw [this]; rfl
        simp only [CTree.mergeKids, bind_mem, Mem.add, e1, joinKids, e2]
        omega
      have e : (n + 1 + 1) * (m + 1) = (n + 1) * (m + 1) + (m + 1) := Nat.succ_mul _ _
      omega

/-- **C94.** The number of vectors that are created is not linear in the size of the two trees together: for all `n` and `m` there are two trees in normal form, with `n + 1`
and `m + 1` nodes, of which the one hangs below the other, such that `outer_combine_with` (and so `union_with`) copies the second one once for every node of the first one. -/
theorem C94_copies_again (n m : Nat) : ∃ a b : Tree Nat Unit, Tree.Canonical a ∧ Tree.Canonical b ∧ a.nodes = n + 1 ∧ b.nodes = m + 1 ∧
    ∀ f : Unit → Unit → Unit × Bool, (n + 1) * (m + 1) ≤ ((opened a).outerCombineWith b (closure f)).mem.fresh := by
  refine ⟨tower n, brush (n + 2) m, ⟨(tower_ok n).1, .inr (tower_ok n).2⟩, ⟨(brush_ok _ m).1, .inr (brush_ok _ m).2⟩, ?_, ?_, fun f => ?_⟩
  · induction n with
    | zero => rfl
    | succ n ih => show 1 + (Tree.nodes (tower n) + 0) = _; rw [ih]; omega
  · show 1 + Tree.nodes.nodesL ((List.range m).map fun i => (⟨[i], some (), []⟩ : Tree Nat Unit)) = _
    rw [leaves_nodes, List.length_range, Nat.add_comm]
  · refine tower_again _ m n _ (n + 2) ?_ (Nat.le_refl _)
    have : n + 2 ≤ (brush (n + 2) m).size := by
      simp only [brush, Tree.size, List.length_replicate]; omega
    omega

/-- two trees with three and four nodes: twelve new nodes at least, for a union with seven -/
example : 12 ≤ ((opened (tower 2)).outerCombineWith (brush 4 3) (closure fun _ b => (b, true))).mem.fresh ∧
    ((opened (tower 2)).outerCombineWith (brush 4 3) (closure fun _ b => (b, true))).res.plain.nodes = 7 := by decide +kernel
end Verif.Cow
