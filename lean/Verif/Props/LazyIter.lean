import Verif.Lemmas.LazyIter
import Verif.Props.CopyOnWrite
/-!
# Iterations that are stopped early: C95

`Run turn s n l m s'`: `n` turns of the loop in `next`, starting in `s`, yielded the items `l` and cost `m`. A `CTree` is a tree whose vectors of children may not
be loaded yet (`Props/CopyOnWrite.lean`).
-/
namespace Verif.Cow
open Verif.Tree (Iter Values Valid Canonical Full KeysUpTo Shallow Yields den)
open Std

section
variable {K : Type} [Ord K] [TransOrd K] [LawfulEqOrd K] [DecidableEq K] {V : Type}

omit [TransOrd K] [LawfulEqOrd K] [DecidableEq K] in
theorem full_shallow {t : Tree K V} (hf : Full t) {n : Nat} (hk : KeysUpTo n t) : t.reach ≤ n := by
  refine Shallow.reach fun p hp => ?_
  obtain ⟨r, he⟩ := hf.node_entry hp
  have := hk _ he
  rw [List.length_append] at this
  omega

omit [TransOrd K] [LawfulEqOrd K] [DecidableEq K] in
/-- the bounds for an iterator that starts at a node -/
theorem node_bounds (t : CTree K V) (hv : Valid t.plain) (hf : Full t.plain) {r : Nat} (hr : t.plain.reach ≤ r) (q : List K) {n : Nat} {l : List (List K × V)} {m : Mem}
    {s : CIter K V} (h : Run CIter.turn (CIter.new t q) n l m s) : n ≤ 6 * l.length + 2 * (r + 1) ∧ m.loads ≤ 2 * l.length + r + 1 := by
  obtain ⟨ld, h1, h2⟩ := Progress.run h
  obtain ⟨b1, b2, _⟩ := h2.bounds hf
  have b3 := (h2.onPath.bound hv).1
  have : (plainStack s.stack).length = s.stack.length := List.length_map ..
  omega

omit [Ord K] [TransOrd K] [LawfulEqOrd K] [DecidableEq K] in
theorem empty_bounds (t : CTree K V) (he : t.plain = Tree.empty) (q : List K) {n : Nat} {l : List (List K × V)} {m : Mem}
    {s : CIter K V} (h : Run CIter.turn (CIter.new t q) n l m s) : n ≤ 2 ∧ m.loads ≤ 1 := by
  obtain ⟨ld, h1, h2⟩ := Progress.run h
  obtain ⟨b1, b2⟩ := h2.within (by rw [he]; rfl)
  omega

/-- **C95.** In a tree whose keys have at most `d` components, getting the first `j` entries (or values) from an iterator takes at most `6 j + 2 (d + 1)` turns of its loop and loads at most
`2 j + d + 1` vectors of children, however many entries the tree has; nothing is copied or created. What has come is always the beginning of the complete iteration. -/
theorem C95_iteration (t : CTree K V) (ht : Canonical t.plain) (d : Nat) (hd : KeysUpTo d t.plain) :
    (∀ n l m s, Run CIter.turn t.iter n l m s →
      n ≤ 6 * l.length + 2 * (d + 1) ∧ Within 0 0 (2 * l.length + d + 1) 0 m ∧ ∀ all, Yields Iter.turn t.plain.iter all → l <+: all) ∧
    (∀ n l m s, Run CValues.turn t.values n l m s →
      n ≤ 6 * l.length + 2 * (d + 1) ∧ Within 0 0 (2 * l.length + d + 1) 0 m ∧ ∀ all, Yields Values.turn t.plain.values all → l <+: all) := by
  have bounds : ∀ q n l m s, Run CIter.turn (CIter.new t q) n l m s → n ≤ 6 * l.length + 2 * (d + 1) ∧ Within 0 0 (2 * l.length + d + 1) 0 m := by
    intro q n l m s h
    have h0 := run_reads h
    have : n ≤ 6 * l.length + 2 * (d + 1) ∧ m.loads ≤ 2 * l.length + d + 1 := by
      rcases ht.2 with he | hf
      · have := empty_bounds t he q h
        omega
      · exact node_bounds t ht.1 hf (full_shallow hf hd) q h
    exact ⟨this.1, Nat.le_of_eq h0.1, by simp [h0.2.1], this.2, Nat.le_of_eq h0.2.2.1⟩
  constructor
  · intro n l m s h
    refine ⟨(bounds _ n l m s h).1, (bounds _ n l m s h).2, fun all hy => ?_⟩
    have e : t.iter.plain = t.plain.iter := by
      show (⟨t.pre, [(t.plain, 0)]⟩ : Iter K V) = ⟨t.plain.pre, [(t.plain, 0)]⟩
      rw [plain_pre]
    obtain ⟨rest, e, _⟩ := h.prefix_of turn_plain (e ▸ hy)
    exact ⟨rest, e.symm⟩
  · intro n l m s h
    obtain ⟨path, l', h', rfl⟩ := values_as_iter t.pre h
    have b := bounds _ n l' m _ h'
    rw [List.length_map]
    refine ⟨b.1, b.2, fun all hy => ?_⟩
    obtain ⟨rest, e, _⟩ := h.prefix_of (f := CValues.plain) values_turn_plain hy
    exact ⟨rest, e.symm⟩

omit [Ord K] [TransOrd K] [LawfulEqOrd K] [DecidableEq K] in
/-- **C95.** Each number of entries or values is reached (the runs of the other theorems exist). -/
theorem C95_reached (t : CTree K V) :
    (∀ all, Yields Iter.turn t.plain.iter all → ∀ j, ∃ n m s, Run CIter.turn t.iter n (all.take j) m s) ∧
    (∀ all, Yields Values.turn t.plain.values all → ∀ j, ∃ n m s, Run CValues.turn t.values n (all.take j) m s) := by
  refine ⟨fun all hy j => ?_, fun all hy j => ?_⟩
  · exact Run.reaches turn_plain hy t.iter (by
      show (⟨t.pre, [(t.plain, 0)]⟩ : Iter K V) = ⟨t.plain.pre, [(t.plain, 0)]⟩
      rw [plain_pre]) _ _ (List.take_append_drop j all).symm
  · exact Run.reaches values_turn_plain hy t.values rfl _ _ (List.take_append_drop j all).symm

omit [Ord K] [TransOrd K] [LawfulEqOrd K] [DecidableEq K] in
/-- **C95.** An iteration, complete or not, loads no vector that is loaded already and none twice. No condition on the tree. -/
theorem C95_once (t : CTree K V) :
    (∀ n l m s, Run CIter.turn t.iter n l m s → m.loads ≤ unloaded t) ∧ (∀ n l m s, Run CValues.turn t.values n l m s → m.loads ≤ unloaded t) := by
  have key : ∀ q n l m s, Run CIter.turn (CIter.new t q) n l m s → m.loads ≤ unloaded t := by
    intro q n l m s h
    have := run_rest h
    simp only [CIter.new, restOf, restAt] at this
    omega
  refine ⟨fun n l m s h => key _ n l m s h, fun n l m s h => ?_⟩
  obtain ⟨path, l', h', _⟩ := values_as_iter t.pre h
  exact key _ n l' m _ h'

omit [TransOrd K] [LawfulEqOrd K] in
theorem find_empty (p : List K) : (∃ t', (Tree.empty : Tree K V).find p = .ret (.found t') ∧ t' = Tree.empty) ∨ ∃ t' a b, (Tree.empty : Tree K V).find p = .ret (.notFound t' a b) := by
  cases p with
  | nil => exact .inl ⟨Tree.empty, rfl, rfl⟩
  | cons x p => exact .inr ⟨_, _, _, rfl⟩

omit [Ord K] [TransOrd K] [LawfulEqOrd K] [DecidableEq K] in
theorem stop_bounds {n : Nat} {l : List (List K × V)} {m : Mem} {s : CIter K V} (h : Run CIter.turn CIter.empty n l m s) : n = 0 ∧ l = [] ∧ m = Mem.zero ∧ s = CIter.empty := by
  induction h with
  | start => exact ⟨rfl, rfl, rfl, rfl⟩
  | again _ ht ih => obtain ⟨_, _, _, rfl⟩ := ih; cases ht
  | yield _ ht ih => obtain ⟨_, _, _, rfl⟩ := ih; cases ht

/-- **C95.** `scan_prefix`: the search and getting the first `j` entries below the prefix load at most `length of the prefix + 2 j + d + 1` vectors, and the loop takes at most
`6 j + 2 (d + 1)` turns. What has come is the beginning of what `scan_prefix` enumerates without laziness. -/
theorem C95_scan_prefix (t : CTree K V) (ht : Canonical t.plain) (d : Nat) (hd : KeysUpTo d t.plain) (p : List K) :
    ∃ it, t.plain.scanPrefix p = .ret it ∧ ∀ n l m s, Run CIter.turn (t.scanPrefix p).res n l m s →
      n ≤ 6 * l.length + 2 * (d + 1) ∧ Within 0 0 (p.length + (2 * l.length + d + 1)) 0 ((t.scanPrefix p).mem.add m) ∧ ∀ all, Yields Iter.turn it all → l <+: all := by
  obtain ⟨h1, _, h3⟩ := find_plain (act := id) (fun _ => rfl) t ht.1 p
  obtain ⟨r, hr, S⟩ := Tree.find_eq ht.1 p
  -- the parts of the conclusion, from a bound for the iterator and its plain form
  have fin : ∀ (f : Charged (CIter K V)), f.mem = (findGo id (t.plain.size + 1) t p).mem → ∀ it, f.res.plain = it →
      (∀ n l m s, Run CIter.turn f.res n l m s → n ≤ 6 * l.length + 2 * (d + 1) ∧ m.loads ≤ 2 * l.length + d + 1) →
      ∀ n l m s, Run CIter.turn f.res n l m s →
        n ≤ 6 * l.length + 2 * (d + 1) ∧ Within 0 0 (p.length + (2 * l.length + d + 1)) 0 (f.mem.add m) ∧ ∀ all, Yields Iter.turn it all → l <+: all := by
    intro f hm it hi hb n l m s h
    obtain ⟨b1, b2⟩ := hb n l m s h
    have hrd := run_reads h
    have tot := h3.add (Reads.mono (l' := m.loads) ⟨hrd.1, hrd.2.1, hrd.2.2.1, Nat.le_refl _⟩ (Nat.le_refl _))
    rw [hm]
    refine ⟨b1, ⟨Nat.le_of_eq tot.1, by simp [tot.2.1], by have := tot.2.2.2; omega, Nat.le_of_eq tot.2.2.1⟩, fun all hy => ?_⟩
    obtain ⟨rest, e, _⟩ := h.prefix_of turn_plain (by rw [hi]; exact hy)
    exact ⟨rest, e.symm⟩
  -- the node found is full, and not deep
  have keys : KeysUpTo (d - p.length) r.sub ∧ (∀ k, Tree.HasEntry r.sub k → p.length ≤ d) ∨ ¬Valid r.sub := by
    by_cases hvs : Valid r.sub
    · left
      have hk : ∀ k, Tree.HasEntry r.sub k → p.length + k.length ≤ d := by
        intro k hk
        have hk := (Tree.has_iff hvs).1 hk
        rw [← S.den k] at hk
        have := hd _ ((Tree.has_iff ht.1).2 hk)
        rwa [List.length_append] at this
      exact ⟨fun k h => by have := hk k h; omega, fun k h => by have := hk k h; omega⟩
    · exact .inr hvs
  have deep : ∀ (t' : Tree K V) (j : Nat), r.sub = t'.shorten j → j ≤ t'.pre.length → j ≤ p.length → Valid t' → Full t' → t'.reach ≤ d := by
    intro t' j hs hj hjp hv hf
    have hvs : Valid r.sub := by rw [hs]; exact hv.setPre _
    have hfs : Full r.sub := by rw [hs]; exact hf.setPre _
    rcases keys with ⟨k1, k2⟩ | k
    · obtain ⟨k, v, he⟩ := hfs.entry_below
      have hp := k2 _ ⟨v, he⟩
      have h1 := full_shallow hfs k1
      rw [Tree.reach_eq] at h1 ⊢
      have : r.sub.kids = t'.kids := by rw [hs]; rfl
      have hpre : r.sub.pre.length = t'.pre.length - j := by rw [hs]; exact List.length_drop ..
      rw [this, hpre] at h1
      omega
    · exact absurd hvs k
  unfold Tree.scanPrefix CTree.scanPrefix
  have hr0 := hr
  rw [hr] at h1 ⊢
  revert h1 h3 fin
  generalize findGo id (t.plain.size + 1) t p = x
  obtain ⟨mem0, f, u⟩ := x
  intro h3 h1 fin
  cases f with
  | found c =>
    cases r with
    | found t' =>
      simp only [Like] at h1
      refine ⟨_, rfl, fin _ (add_zero _) _ (by rw [← h1]; rfl) fun n l m s h => ?_⟩
      replace h : Run CIter.turn (CIter.new c p) n l m s := h
      rcases ht.2 with he | hf
      · have : t' = Tree.empty := by
          rw [he] at hr0
          rcases find_empty (K := K) (V := V) p with ⟨t2, e, rfl⟩ | ⟨_, _, _, e⟩ <;> rw [e] at hr0 <;> injection hr0 with hr0 <;> injection hr0
          rename_i e; exact e.symm
        have := empty_bounds c (h1.trans this) p h
        omega
      · obtain ⟨s1, s2, _, _, _, q, s6⟩ := S.shape
        have hle := congrArg List.length s6
        rw [List.length_append] at hle
        exact node_bounds c (h1 ▸ s1) (h1 ▸ s2 hf) (h1 ▸ deep t' _ rfl (Nat.le_refl _) (by omega) s1 (s2 hf)) p h
    | _ => exact h1.elim
  | «prefix» c k =>
    cases r with
    | «prefix» t' k' =>
      obtain ⟨rfl, rfl⟩ := h1
      refine ⟨_, rfl, fin _ (add_zero _) _ (by simp only [plain_pre]; rfl) fun n l m s h => ?_⟩
      replace h : Run CIter.turn (CIter.new c (p ++ c.pre.drop (c.pre.length - k))) n l m s := h
      obtain ⟨s1, s2, s3, s4, _, q, s6⟩ := S.shape
      rcases ht.2 with he | hf
      · exfalso
        rw [he] at hr0
        rcases find_empty (K := K) (V := V) p with ⟨t2, e, rfl⟩ | ⟨_, _, _, e⟩ <;> rw [e] at hr0 <;> injection hr0 with hr0 <;> injection hr0
      · have hle := congrArg List.length s6
        rw [List.length_append, List.length_take] at hle
        exact node_bounds c s1 (s2 hf) (deep c.plain _ rfl (Nat.sub_le _ _) (by omega) s1 (s2 hf)) _ h
    | _ => exact h1.elim
  | notFound =>
    cases r with
    | notFound t' a b =>
      refine ⟨_, rfl, fin _ (add_zero _) _ rfl fun n l m s h => ?_⟩
      obtain ⟨rfl, rfl, rfl, _⟩ := stop_bounds (show Run CIter.turn CIter.empty n l m s from h)
      exact ⟨Nat.zero_le _, Nat.zero_le _⟩
    | _ => exact h1.elim

/-! ### Cases -/

/-- the hypotheses of the theorems; two vectors of `demo` are not loaded -/
example : Canonical demo.plain ∧ KeysUpTo 3 demo.plain ∧ unloaded demo = 2 := by
  refine ⟨Tree.demoA_canonical, fun k ⟨v, he⟩ => ?_, by decide +kernel⟩
  exact Tree.shallow_iff.2 (show Tree.reach demo.plain ≤ 3 by decide) k he.node

/-- all entries of `demo` -/
theorem demo_yields : Yields Iter.turn demo.plain.iter [([1, 2], 'a'), ([1, 2, 5], 'b'), ([1, 3], 'c')] := by
  have := Tree.iter_tree _ demo.plain (Nat.le_refl _) [] [] [] (Tree.yields_nil [])
  exact this

/-- so a run with the first two exists -/
example : ∃ n m s, Run CIter.turn demo.iter n [([1, 2], 'a'), ([1, 2, 5], 'b')] m s := (C95_reached demo).1 _ demo_yields 2

/-- the first entry takes three turns (the root without value, the step to its child, the child) and loads nothing, as the root's vector is loaded; the second takes two more and loads one -/
example : ∃ s, Run CIter.turn demo.iter 5 [([1, 2], 'a'), ([1, 2, 5], 'b')] ⟨1, 0, 0, 0⟩ s :=
  ⟨_, (((((Run.start (turn := CIter.turn) (s := demo.iter)).again rfl).again rfl).yield rfl).again rfl).yield rfl⟩

/-- `scan_prefix` finds the node of `[1, 2]` in the root's vector without loading any, that of `[1, 2, 5]` by loading one -/
example : (demo.scanPrefix [1, 2]).mem.loads = 0 ∧ (demo.scanPrefix [1, 2, 5]).mem.loads = 1 ∧
    ((demo.scanPrefix [1, 2]).res.stack.map fun e => e.1.val) = [some 'a'] := by decide +kernel

end
end Verif.Cow
