import Verif.Spec.RadixWork
import Verif.Lemmas.RadixWorkRel
import Verif.Props.RadixCost
/-!
# C85: what combining and relating radix trees costs

`outerCombineWithC` etc. are the functions of `Model/RadixTree.lean` with calls of `==` and `cmp` counted (`Model/RadixWork.lean`); `result` is what they
return and `use` what was counted.
-/
namespace Verif
namespace Tree
open Std
section
variable {K : Type} [Ord K] [DecidableEq K] {V W : Type}

private theorem narrowMono {w w' : Nat} (h : w ≤ w') : ∀ {t : Tree K V}, Narrow w t → Narrow w' t
  | _, .mk h1 h2 => .mk (Nat.le_trans h1 h) (fun c hc => narrowMono h (h2 c hc))

private theorem length_le_nodesL : ∀ ks : List (Tree K V), ks.length ≤ nodes.nodesL ks
  | [] => Nat.zero_le _
  | c :: ks => by
    have h1 := length_le_nodesL ks
    have h2 := nodes_pos c
    rw [nodes.nodesL, List.length_cons]; omega

mutual
private theorem narrowNodes : ∀ t : Tree K V, Narrow t.nodes t
  | ⟨p, v, ks⟩ => .mk (by rw [nodes]; have := length_le_nodesL ks; omega)
      (fun c hc => narrowMono (by rw [nodes]; omega) (narrowKids ks c hc))
private theorem narrowKids : ∀ (ks : List (Tree K V)), ∀ c ∈ ks, Narrow (nodes.nodesL ks) c
  | [], c, hc => by cases hc
  | d :: ks, c, hc => by
    rcases List.mem_cons.1 hc with h | h
    · rw [h]
      exact narrowMono (by rw [nodes.nodesL]; omega) (narrowNodes d)
    · exact narrowMono (by rw [nodes.nodesL]; omega) (narrowKids ks c h)
end

private theorem combineCost {R : Type} {a : Tree K V} {b : Tree K W} {c : Counts R} {r : R}
    (h : ∀ wa wb, 1 ≤ wa → 1 ≤ wb → Narrow wa a → Narrow wb b → Bounded (Nat.log2 wb + 2) ((Nat.log2 wa + 1) * (Nat.log2 wb + 2)) a b c r) :
    c.result = r ∧ CombineCost a b c.use := by
  have key : ∀ u, Spent c r u → c.result = r ∧ c.use = u := fun u hu => by
    have : c ⟨0, 0, 0⟩ = (r, (0 : Use) + u) := hu 0
    rw [Use.zero_add] at this
    exact ⟨congrArg Prod.fst this, congrArg Prod.snd this⟩
  obtain ⟨u, hu, ⟨h1, h2⟩, _⟩ := h _ _ (nodes_pos a) (nodes_pos b) (narrowNodes a) (narrowNodes b)
  obtain ⟨k1, k2⟩ := key u hu
  rw [k2]
  refine ⟨k1, h1.1, h2.1, fun wb hb nb => ?_, fun wa wb ha hb na nb => ?_, h1.2.2, h2.2.2⟩
  · obtain ⟨u', hu', ⟨g1, _⟩, _⟩ := h _ _ (nodes_pos a) hb (narrowNodes a) nb
    rw [← k2, (key u' hu').2]
    exact g1.2.1
  · obtain ⟨u', hu', ⟨_, g2⟩, _⟩ := h _ _ ha hb na nb
    rw [← k2, (key u' hu').2]
    exact g2.2.1

/-- **C85.** `outer_combine_with` and `outer_combine` (thus `union`, `union_with`): the counted functions return what the functions return, and the counts are
bounded by the size of either tree. No condition on the trees or the closures. -/
theorem C85_outer (a b : Tree K V) (f : MutFn V V) (g : V → V → Option V) :
    ((outerCombineWithC a b f).result = a.outerCombineWith b f ∧ CombineCost a b (outerCombineWithC a b f).use) ∧
    ((outerCombineC a b g).result = a.outerCombine b g ∧ CombineCost a b (outerCombineC a b g).use) :=
  ⟨combineCost fun _ _ ha hb na nb => outerWithGo_bounded rfl rfl ha hb f _ a b na nb,
    combineCost fun _ _ ha hb na nb => outerGo_bounded rfl rfl ha hb g _ a b na nb⟩

/-- **C85.** `inner_combine_with` and `inner_combine` (thus `intersection`, `intersection_with`). -/
theorem C85_inner (a : Tree K V) (b : Tree K W) (f : MutFn V W) (g : V → W → Option V) :
    ((innerCombineWithC a b f).result = a.innerCombineWith b f ∧ CombineCost a b (innerCombineWithC a b f).use) ∧
    ((innerCombineC a b g).result = a.innerCombine b g ∧ CombineCost a b (innerCombineC a b g).use) :=
  ⟨combineCost fun _ _ ha hb na nb => innerWithGo_bounded rfl rfl ha hb f _ a b na nb,
    combineCost fun _ _ ha hb na nb => innerGo_bounded rfl rfl ha hb g _ a b na nb⟩

/-- **C85.** `left_combine_with` and `left_combine` (thus `difference`, `difference_with`). -/
theorem C85_left (a : Tree K V) (b : Tree K W) (f : MutFn V W) (g : V → Option W → Option V) :
    ((leftCombineWithC a b f).result = a.leftCombineWith b f ∧ CombineCost a b (leftCombineWithC a b f).use) ∧
    ((leftCombineC a b g).result = a.leftCombine b g ∧ CombineCost a b (leftCombineC a b g).use) :=
  ⟨combineCost fun _ _ ha hb na nb => leftWithGo_bounded rfl rfl ha hb f _ a b na nb,
    combineCost fun _ _ ha hb na nb => leftGo_bounded rfl rfl ha hb g _ a b na nb⟩

/-- **C85.** `remove_prefix_with` and `retain_prefix_with`. -/
theorem C85_prefix (a : Tree K V) (b : Tree K W) (f : W → Bool) :
    ((removePrefixWithC a b f).result = a.removePrefixWith b f ∧ CombineCost a b (removePrefixWithC a b f).use) ∧
    ((retainPrefixWithC a b f).result = a.retainPrefixWith b f ∧ CombineCost a b (retainPrefixWithC a b f).use) :=
  ⟨combineCost fun _ _ ha hb na nb => removePrefixGo_bounded rfl rfl ha hb f _ a b na nb,
    combineCost fun _ _ ha hb na nb => retainPrefixGo_bounded rfl rfl ha hb f _ a b na nb⟩

/-- **C85.** Inserting a key: at most as many tests of equality as the key has components, about twice as many comparisons times the logarithm of the number
of children per node, and at most two children to sort - whatever the size of the tree. -/
theorem C85_insert (t : Tree K V) (key : List K) (v : V) (w : Nat) (hw : 1 ≤ w) (hn : Narrow w t) :
    (insertC t key v).result = t.insert key v ∧ (insertC t key v).use.eqs ≤ key.length ∧
    (insertC t key v).use.cmps ≤ 2 * (key.length + 1) * (Nat.log2 w + 1) ∧ (insertC t key v).use.sorted ≤ 2 := by
  obtain ⟨⟨h1, h2⟩, _⟩ := C85_outer t (single key v) (fun _ b => (b, .ret true)) (fun _ _ => none)
  have hs : Narrow 1 (single key v) := .mk (Nat.zero_le _) (fun c hc => by cases hc)
  have e1 : (single key v : Tree K V).components = key.length := rfl
  have e2 : (single key v : Tree K V).nodes = 1 := rfl
  have h3 := h2.cmpsB w 1 hw (Nat.le_refl _) hn hs
  have h4 := h2.eqsB
  have h5 := h2.sortedB
  rw [e1] at h4
  rw [e2] at h5
  rw [e1, e2] at h3
  refine ⟨h1, h4, ?_, h5⟩
  have l1 : Nat.log2 1 = 0 := by decide
  rw [l1] at h3
  have : (1 + key.length) * ((Nat.log2 w + 1) * (0 + 2)) = 2 * (key.length + 1) * (Nat.log2 w + 1) := by
    rw [Nat.zero_add, Nat.mul_comm (Nat.log2 w + 1) 2, ← Nat.mul_assoc, Nat.mul_comm (1 + key.length) 2, Nat.add_comm 1]
  rw [← this]
  exact h3

private theorem relationCost {a : Tree K V} {b : Tree K W} {c : Counts (Call Bool)} {r : Call Bool}
    (h : ∀ wa wb, Narrow wa a → Narrow wb b →
      ∃ u, Spent c r u ∧ RelUse (Nat.log2 wb + 2) ((Nat.log2 wa + 1) * (Nat.log2 wb + 2)) a a.pre b b.pre u) :
    c.result = r ∧ RelationCost a b c.use := by
  have key : ∀ u, Spent c r u → c.result = r ∧ c.use = u := fun u hu => by
    have : c ⟨0, 0, 0⟩ = (r, (0 : Use) + u) := hu 0
    rw [Use.zero_add] at this
    exact ⟨congrArg Prod.fst this, congrArg Prod.snd this⟩
  obtain ⟨u, hu, h1⟩ := h _ _ (narrowNodes a) (narrowNodes b)
  obtain ⟨k1, k2⟩ := key u hu
  refine ⟨k1, ?_, fun wb nb => ?_, fun wa wb na nb => ?_, by rw [k2]; exact h1.sorted⟩
  · rw [k2, components_def, components_def]; exact h1.eqs
  · obtain ⟨u', hu', g⟩ := h _ _ (narrowNodes a) nb
    rw [(key u' hu').2]
    exact Nat.le_trans g.cmpsA (Nat.mul_le_mul_right _ (by rw [nodes_def a]; omega))
  · obtain ⟨u', hu', g⟩ := h _ _ na nb
    rw [(key u' hu').2]
    exact Nat.le_trans g.cmpsB (Nat.mul_le_mul_right _ (by rw [nodes_def b]; omega))

/-- **C85.** `is_subset`, `is_superset`, `intersects`, `is_disjoint`, for trees built with the public interface (or otherwise valid). The tests of equality
are bounded by the components of both trees together only, see `C85_relations_scan`. -/
theorem C85_relations [TransOrd K] [LawfulEqOrd K] (a : Tree K V) (b : Tree K W) (ha : Valid a) (hb : Valid b) :
    ((isSubsetC a b).result = a.isSubset b ∧ RelationCost a b (isSubsetC a b).use) ∧
    ((intersectsC a b).result = a.intersects b ∧ RelationCost a b (intersectsC a b).use) :=
  ⟨relationCost fun wa wb na nb => by
      obtain ⟨u, h1, h2, _⟩ := isSubsetGo_spent rfl rfl (a.size + b.size + 1) a a.pre b b.pre ⟨ha, na⟩ ⟨hb, nb⟩
      exact ⟨u, h1, h2⟩,
    relationCost fun wa wb na nb => by
      obtain ⟨u, h1, h2, _⟩ := intersectsGo_spent rfl rfl (a.size + b.size + 1) a a.pre b b.pre ⟨ha, na⟩ ⟨hb, nb⟩
      exact ⟨u, h1, h2⟩⟩
end

/-! ### The relations scan linearly -/

/-- a tree with the `w` keys `[i], [i + 1], ..` of one component each -/
private def fan (i : Nat) : Nat → List (Tree Nat Unit)
  | 0 => []
  | w + 1 => single [i] () :: fan (i + 1) w

private theorem fan_mem {c : Tree Nat Unit} : ∀ {w i : Nat}, c ∈ fan i w → ∃ j, i ≤ j ∧ j < i + w ∧ c = single [j] ()
  | 0, _, h => by cases h
  | w + 1, i, h => by
    rcases List.mem_cons.1 h with rfl | h
    · exact ⟨i, by omega, by omega, rfl⟩
    · obtain ⟨j, h1, h2, h3⟩ := fan_mem h
      exact ⟨j, by omega, by omega, h3⟩

private theorem fan_length : ∀ w i : Nat, (fan i w).length = w
  | 0, _ => rfl
  | w + 1, i => by rw [fan, List.length_cons, fan_length]

private theorem valid_single (k : List Nat) : Valid (single k () : Tree Nat Unit) :=
  .mk (fun c hc => by cases hc) List.Pairwise.nil (fun c hc => by cases hc)

private theorem fan_asc : ∀ w i : Nat, AscendingBy (fun c : Tree Nat Unit => c.pre.head?) (fan i w)
  | 0, _ => List.Pairwise.nil
  | w + 1, i => by
    refine List.pairwise_cons.2 ⟨fun c hc => ?_, fan_asc w (i + 1)⟩
    obtain ⟨j, h1, _, rfl⟩ := fan_mem hc
    show compare (some i) (some j) = .lt
    exact Nat.compare_eq_lt.2 (by omega)

private theorem fan_canonical (w : Nat) (hw : 2 ≤ w) : Canonical (⟨[], none, fan 0 w⟩ : Tree Nat Unit) := by
  refine ⟨.mk ?_ (fan_asc w 0) ?_, .inr (.mk (fun _ => by rw [fan_length]; exact hw) ?_)⟩ <;> intro c hc <;> obtain ⟨j, _, _, rfl⟩ := fan_mem hc
  · simp [single]
  · exact valid_single _
  · exact .mk (fun h => by cases h) (fun c hc => by cases hc)

private theorem scan_fan {p : Tree Nat Unit → Counts (Call Bool)} (x : Nat)
    (hp : ∀ j, j < x → Spent (p (single [j] ())) (.ret false) (eqsOnly 1)) : ∀ w i, i + w ≤ x → Spent (anyM p (fan i w)) (.ret false) (eqsOnly w)
  | 0, _, _ => Spent.pure _
  | w + 1, i, h => by
    have := Spent.bind (hp i (by omega)) (f := fun c => match c with
      | .panic => pure .panic
      | .ret true => pure (.ret true)
      | .ret false => anyM p (fan (i + 1) w)) (scan_fan x hp w (i + 1) (by omega))
    rw [show eqsOnly 1 + eqsOnly w = eqsOnly (w + 1) from Use.ext' (Nat.add_comm ..) rfl rfl] at this
    exact this

/-- **C85.** Where a node of one tree lies inside a prefix of the other, `is_subset` and `intersects` go through the children one after the other, without
binary search: with a tree of `w` keys and a tree of a single key they make `w` tests of equality, where a lookup of that key makes one (C77). -/
theorem C85_relations_scan (w : Nat) (hw : 2 ≤ w) : ∃ (t : Tree Nat Unit) (k : List Nat), Canonical t ∧ t.kids.length = w ∧ k.length = 1 ∧
    (intersectsC t (single k ())).use.eqs = w ∧ (intersectsC (single k ()) t).use.eqs = w ∧ (isSubsetC (single k ()) t).use.eqs = w := by
  refine ⟨⟨[], none, fan 0 w⟩, [w], fan_canonical w hw, fan_length w 0, rfl, ?_, ?_, ?_⟩
  · have h : Spent (intersectsC (⟨[], none, fan 0 w⟩ : Tree Nat Unit) (single [w] ())) (.ret false) (eqsOnly w) := by
      have := scan_fan (p := fun lc => intersectsGoM countEq countCmp (Tree.size (⟨[], none, fan 0 w⟩ : Tree Nat Unit) + (single [w] () : Tree Nat Unit).size)
        lc lc.pre (single [w] ()) [w]) w (fun j hj u => by
          have hjw : ¬ j = w := by omega
          show (intersectsGoM countEq countCmp (Tree.size (⟨[], none, fan 0 w⟩ : Tree Nat Unit) + 1 + 1) (single [j] ()) [j] (single [w] ()) [w]) u = _
          simp [intersectsGoM, commonPrefixM, countEq, hjw, bind, StateT.bind, pure, StateT.pure]
          rfl) w 0 (by omega)
      exact this
    exact congrArg (fun x => x.2.eqs) (h 0) |>.trans (Nat.zero_add _)
  · have h : Spent (intersectsC (single [w] ()) (⟨[], none, fan 0 w⟩ : Tree Nat Unit)) (.ret false) (eqsOnly w) := by
      have := scan_fan (p := fun rc => intersectsGoM countEq countCmp ((single [w] () : Tree Nat Unit).size + Tree.size (⟨[], none, fan 0 w⟩ : Tree Nat Unit))
        (single [w] () : Tree Nat Unit) [w] rc rc.pre) w (fun j hj u => by
          have hjw : ¬ w = j := by omega
          rw [show (single [w] () : Tree Nat Unit).size + Tree.size (⟨[], none, fan 0 w⟩ : Tree Nat Unit) =
            Tree.size (⟨[], none, fan 0 w⟩ : Tree Nat Unit) + 1 + 1 from Nat.add_comm ..]
          show (intersectsGoM countEq countCmp (Tree.size (⟨[], none, fan 0 w⟩ : Tree Nat Unit) + 1 + 1) (single [w] ()) [w] (single [j] ()) [j]) u = _
          simp [intersectsGoM, commonPrefixM, countEq, hjw, bind, StateT.bind, pure, StateT.pure]
          rfl) w 0 (by omega)
      exact this
    exact congrArg (fun x => x.2.eqs) (h 0) |>.trans (Nat.zero_add _)
  · have h : Spent (isSubsetC (single [w] ()) (⟨[], none, fan 0 w⟩ : Tree Nat Unit)) (.ret false) (eqsOnly w) := by
      have := scan_fan (p := fun rc => isSubsetGoM countEq countCmp ((single [w] () : Tree Nat Unit).size + Tree.size (⟨[], none, fan 0 w⟩ : Tree Nat Unit))
        (single [w] () : Tree Nat Unit) [w] rc rc.pre) w (fun j hj u => by
          have hjw : ¬ w = j := by omega
          rw [show (single [w] () : Tree Nat Unit).size + Tree.size (⟨[], none, fan 0 w⟩ : Tree Nat Unit) =
            Tree.size (⟨[], none, fan 0 w⟩ : Tree Nat Unit) + 1 + 1 from Nat.add_comm ..]
          show (isSubsetGoM countEq countCmp (Tree.size (⟨[], none, fan 0 w⟩ : Tree Nat Unit) + 1 + 1) (single [w] ()) [w] (single [j] ()) [j]) u = _
          simp [isSubsetGoM, commonPrefixM, countEq, hjw, bind, StateT.bind, pure, StateT.pure]
          rfl) w 0 (by omega)
      exact this
    exact congrArg (fun x => x.2.eqs) (h 0) |>.trans (Nat.zero_add _)

/-- the example trees of `Props/Radix.lean`: the hypotheses are met, and something is counted -/
example : Valid demoA ∧ Valid demoB ∧ Narrow 2 demoA ∧
    (outerCombineC demoA demoB (fun a _ => some a)).use = ⟨3, 4, 0⟩ ∧ demoA.nodes = 4 ∧ demoA.components = 4 ∧ demoB.nodes = 3 ∧ demoB.components = 4 ∧
    (insertC demoA [1, 2, 6] 'q').use = ⟨2, 3, 0⟩ ∧ (isSubsetC demoA demoB).use = ⟨3, 1, 0⟩ := by
  refine ⟨demoA_canonical.1, demoB_canonical.1, ?_, by decide +kernel, by decide, by decide, by decide, by decide, by decide +kernel, by decide +kernel⟩
  repeat' first | constructor | (simp only [List.mem_cons, List.not_mem_nil, or_false]; rintro _ (rfl | rfl)) | (simp; done)
  all_goals simp

end Tree
end Verif
