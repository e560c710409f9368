import Verif.Lemmas.RadixCost
import Verif.Props.Radix
/-!
# How deep, how long, how large: C76–C78

The recursive functions of the model take the permitted depth of the recursion as an argument (`outerGo f fuel a b` etc.) and count exceeding it as a
panic; `a.outerCombine b f` etc. are the public functions. `Shallow n t`: no node is further than `n` key components from the root.
-/
namespace Verif
namespace Tree
open Std
section
variable {K : Type} [Ord K] [TransOrd K] [LawfulEqOrd K] [DecidableEq K] {V W : Type}

/-! ## C76: the depth of the recursion -/

/-- **C76.** In a tree built with the public interface the distance of nodes from the root is bounded by the length of the keys. -/
theorem C76_shallow_iff_short_keys (t : Tree K V) (h : Reachable t) (n : Nat) : Shallow n t ↔ KeysUpTo n t := by
  have h := C47_reachable_canonical t h
  constructor
  · rintro hs k ⟨v, he⟩
    exact hs k he.node
  · intro hk p hp
    rcases h.2 with rfl | hf
    · cases hp with
      | here => exact Nat.zero_le _
      | there hc _ => cases hc
    · obtain ⟨r, he⟩ := hf.node_entry hp
      have := hk _ he
      rw [List.length_append] at this
      omega

/-- **C76.** Combining two trees, one of which (either) is at most `n` deep, recurses to a depth of at most `n + 1`, however many entries there are: with
that limit the recursion computes the same result (which is not a panic, by C51). -/
theorem C76_combine_depth (a b : Tree K V) (c : Tree K W) (ha : Valid a) (hb : Valid b) (hc : Valid c) (n fuel : Nat) (hn : n + 1 ≤ fuel)
    (hab : Shallow n a ∨ Shallow n b) (hac : Shallow n a ∨ Shallow n c) (g : V → V → Option V) (g' : V → W → Option V)
    (g'' : V → Option W → Option V) (m : V → V → V × Bool) (m' : V → W → V × Bool) (s : W → Bool) :
    outerGo g fuel a b = a.outerCombine b g ∧ innerGo g' fuel a c = a.innerCombine c g' ∧ leftGo g'' fuel a c = a.leftCombine c g'' ∧
    outerWithGo (closure m) fuel a b = a.outerCombineWith b (closure m) ∧
    innerWithGo (closure m') fuel a c = a.innerCombineWith c (closure m') ∧
    leftWithGo (closure m') fuel a c = a.leftCombineWith c (closure m') ∧
    removePrefixGo s fuel a c = a.removePrefixWith c s ∧ retainPrefixGo s fuel a c = a.retainPrefixWith c s ∧
    intersectsGo fuel a a.pre c c.pre = a.intersects c ∧ isSubsetGo fuel a a.pre c c.pre = a.isSubset c := by
  have h1 : min a.reach b.reach < fuel := by
    rcases hab with h | h <;> (have := h.reach; omega)
  have h2 : min a.reach c.reach < fuel := by
    rcases hac with h | h <;> (have := h.reach; omega)
  exact ⟨outerGo_depth g ha hb h1, innerGo_depth g' ha hc h2, leftGo_depth g'' ha hc h2, outerWithGo_depth (closure_noPanic m) ha hb h1,
    innerWithGo_depth (closure_noPanic m') ha hc h2, leftWithGo_depth (closure_noPanic m') ha hc h2, removePrefixGo_depth s ha hc h2,
    retainPrefixGo_depth s ha hc h2, intersects_depth ha hc h2, isSubset_depth ha hc h2⟩

/-- **C76.** Looking up or inserting a key recurses to a depth of at most one more than the length of *that* key, whatever is in the tree. -/
theorem C76_key_depth (t : Tree K V) (h : Valid t) (k : List K) (v : V) (fuel : Nat) (hf : k.length + 1 ≤ fuel) :
    findGo fuel t k = t.find k ∧ outerWithGo (fun _ b => (b, .ret true)) fuel t (single k v) = t.insert k v := by
  constructor
  · by_cases hs : k.length < t.size + 1
    · exact findGo_depth h k (by omega) hs
    · obtain ⟨r1, e1, _⟩ := find_spec fuel t k h (by omega)
      obtain ⟨r2, e2, _⟩ := find_spec (t.size + 1) t k h (by omega)
      have : findGo fuel t k = findGo (t.size + 1) t k := by
        have key : ∀ d, findGo (t.size + 1 + d) t k = findGo (t.size + 1) t k := by
          intro d
          exact findGo_size h k (by omega) (by omega)
        have := key (fuel - (t.size + 1))
        rwa [show t.size + 1 + (fuel - (t.size + 1)) = fuel by omega] at this
      exact this
  · have hr : (single k v : Tree K V).reach = k.length := by rw [reach_eq]; simp [single, reach.reachL]
    exact outerWithGo_depth (closure_noPanic (fun _ w => (w, true))) h (canonical_single k v).1 (by omega)

/-- **C76.** What follows the structure of the tree (dropping, cloning, comparing, copying and saving a tree recurse from a node to its
children) is nested at most `n + 1` deep, and so is the stack of an iterator at any time. -/
theorem C76_nesting (t : Tree K V) (h : Valid t) (n : Nat) (hn : Shallow n t) :
    (∀ m, Chain t m → m ≤ n + 1) ∧
    (∀ q (s : Iter K V), Later Iter.turn (Iter.new t q) s → s.stack.length ≤ n + 1) ∧
    (∀ s : Values K V, Later Values.turn t.values s → s.stack.length ≤ n + 1) := by
  have hr := hn.reach
  refine ⟨fun m hm => ?_, fun q s hs => ?_, fun s hs => ?_⟩
  · have := hm.le_reach h
    omega
  · have := ((iter_onPath t (s := Iter.new t q) .root hs).bound h).1
    omega
  · have := ((values_onPath t (s := t.values) .root hs).bound h).1
    omega

/-- three nested nodes and a key of two components: the hypotheses are met with `n = 2`, and a limit of 2 is not enough -/
example : Shallow 2 (⟨[], some 'a', [⟨[1], some 'b', [⟨[2], some 'c', []⟩]⟩]⟩ : Tree Nat Char) ∧
    (match findGo 3 (⟨[], some 'a', [⟨[1], some 'b', [⟨[2], some 'c', []⟩]⟩]⟩ : Tree Nat Char) [1, 2] with
      | .ret (.found t) => t.val | _ => none) = some 'c' ∧
    (match findGo 2 (⟨[], some 'a', [⟨[1], some 'b', [⟨[2], some 'c', []⟩]⟩]⟩ : Tree Nat Char) [1, 2] with
      | .panic => true | _ => false) = true :=
  ⟨shallow_iff.2 (by decide), by decide +kernel, by decide +kernel⟩
example : Valid demoA ∧ Valid demoB ∧ Shallow 3 demoA ∧ Shallow 4 demoB ∧ ¬Shallow 3 demoB :=
  ⟨demoA_canonical.1, demoB_canonical.1, shallow_iff.2 (by decide), shallow_iff.2 (by decide), fun h => absurd h.reach (by decide)⟩

/-! ## C77: the cost of a lookup -/

omit [TransOrd K] [LawfulEqOrd K] in
/-- **C77.** A lookup (`find`, which `get`, `contains_key`, `scan_prefix` and `filter_prefix` start with) tests at most as many pairs of key components
for equality as the key has components. No condition on the tree. -/
theorem C77_equality_tests (t : Tree K V) (k : List K) :
    (findM tickEq (fun a b => pure (compare a b)) t k).result = t.find k ∧
    (findM tickEq (fun a b => pure (compare a b)) t k).work.cmps ≤ k.length := by
  obtain ⟨n, h, hn⟩ := findGo_eqs (t.size + 1) t k
  exact ⟨h.result, by rw [show findM tickEq (fun a b => pure (compare a b)) t k = findGoM _ _ (t.size + 1) t k from rfl, h.work]; exact hn⟩

omit [TransOrd K] [LawfulEqOrd K] in
/-- **C77.** If no node has more than `w` children, a lookup of a key makes at most `length * (log2 w + 2)` order comparisons, independently of the number
of entries. -/
theorem C77_comparisons (t : Tree K V) (h : Valid t) (w : Nat) (hw : Narrow w t) (k : List K) :
    (findM (fun a b => pure (decide (a = b))) (tick2 compare) t k).result = t.find k ∧
    (findM (fun a b => pure (decide (a = b))) (tick2 compare) t k).work.cmps ≤ k.length * (Nat.log2 w + 2) := by
  obtain ⟨n, h, hn⟩ := findGo_cmps (fuel := t.size + 1) h hw k
  exact ⟨h.result, by rw [show findM (fun a b => pure (decide (a = b))) (tick2 compare) t k = findGoM _ _ (t.size + 1) t k from rfl, h.work]; exact hn⟩

omit [TransOrd K] [LawfulEqOrd K] in
/-- **C77.** In particular if there are only `w` different key components (`rank` numbers them in ascending order): `10 * length` for bytes. -/
theorem C77_alphabet (t : Tree K V) (h : Valid t) (w : Nat) (rank : K → Nat) (hr : ∀ x y, compare x y = .lt → rank x < rank y)
    (hb : ∀ x, rank x < w) (k : List K) :
    (findM (fun a b => pure (decide (a = b))) (tick2 compare) t k).work.cmps ≤ k.length * (Nat.log2 w + 2) :=
  (C77_comparisons t h w (h.narrow rank hr hb) k).2

/-- keys of bytes -/
example (t : Tree (Fin 256) V) (h : Valid t) (k : List (Fin 256)) :
    (findM (fun a b => pure (decide (a = b))) (tick2 compare) t k).work.cmps ≤ k.length * 10 :=
  C77_alphabet t h 256 Fin.val (fun x y h => by
    have := Nat.compare_eq_lt.1 (show compare x.val y.val = .lt from h)
    exact this) (fun x => x.isLt) k
example : Valid demoA ∧ Narrow 2 demoA := by
  refine ⟨demoA_canonical.1, ?_⟩
  repeat' first | constructor | (simp only [List.mem_cons, List.not_mem_nil, or_false]; rintro _ (rfl | rfl)) | (simp; done)
  all_goals simp

/-! ## C78: space and iteration -/

/-- **C78.** A tree built with the public interface that holds `m > 0` entries has at most `2 m - 1` nodes, and the nodes together hold at most as many key
components as the keys have. -/
theorem C78_space (t : Tree K V) (h : Reachable t) (l : List (List K × V)) (hl : Yields Iter.turn t.iter l) :
    (l = [] ∧ t.nodes = 1 ∨ 1 ≤ l.length ∧ t.nodes ≤ 2 * l.length - 1) ∧ t.components ≤ (l.map (fun e => e.1.length)).sum := by
  have e : l = items t.pre t := by
    have := iter_tree _ t (Nat.le_refl _) [] [] [] (yields_nil [])
    rw [List.nil_append, List.append_nil] at this
    exact hl.unique this
  subst e
  rcases (C47_reachable_canonical t h).2 with rfl | hf
  · exact ⟨.inl ⟨rfl, rfl⟩, Nat.zero_le _⟩
  · have h1 := nodes_bound t hf t.pre
    have h2 := components_bound t hf []
    simp only [List.nil_append, List.length_nil, Nat.zero_mul, Nat.add_zero] at h2
    have h3 := h2.1
    exact ⟨.inr ⟨h3, by omega⟩, h2.2⟩

omit [Ord K] [TransOrd K] [LawfulEqOrd K] [DecidableEq K] in
/-- **C78.** A complete iteration takes three turns of the loop per node (including the last one), for keys and values and for values only. No condition on
the tree. -/
theorem C78_iteration (t : Tree K V) : Turns Iter.turn t.iter (3 * t.nodes) ∧ Turns Values.turn t.values (3 * t.nodes) := by
  have hp : 1 ≤ t.nodes := by obtain ⟨p, v, ks⟩ := t; simp only [nodes]; omega
  have h1 := iter_turns t t.pre [] 1 (fun _ => .done rfl)
  have h2 := values_turns t [] 1 (.done rfl)
  rw [show 3 * t.nodes - 1 + 1 = 3 * t.nodes by omega] at h1 h2
  exact ⟨h1, h2⟩

/-- the bound on the nodes is attained -/
example : Reachable demoA ∧ demoA.nodes = 4 ∧ demoA.components = 4 ∧
    (⟨[], none, [⟨[1], some 'a', []⟩, ⟨[2], some 'b', []⟩]⟩ : Tree Nat Char).nodes = 2 * 2 - 1 :=
  ⟨C47_canonical_reachable _ demoA_canonical, rfl, rfl, rfl⟩

end
end Tree
end Verif
