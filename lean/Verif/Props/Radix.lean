import Verif.Lemmas.RadixHistory
import Verif.Lemmas.RadixBool
/-!
# C41–C52: radix trees

`Entry t k v`, `HasEntry t k` (Spec/Radix.lean) say what a tree contains; `Valid` is what reading operations need, `Canonical` is what building
operations produce (C47) and `is_subset` needs. Histories (`Prog`, `Reachable`) are in Spec/RadixHistory.lean.

Keys are sequences over any type `K` with a lawful total order; `==` on key components is identity.
-/
namespace Verif
namespace Tree
open Std

/-! ### Trees for the examples -/

/-- the tree of `[1,2] ↦ 'a'`, `[1,2,5] ↦ 'b'`, `[1,3] ↦ 'c'` -/
def demoA : Tree Nat Char := ⟨[1], none, [⟨[2], some 'a', [⟨[5], some 'b', []⟩]⟩, ⟨[3], some 'c', []⟩]⟩
/-- the tree of `[] ↦ 'x'`, `[1,2] ↦ 'y'`, `[1,2,5,5] ↦ 'z'` -/
def demoB : Tree Nat Char := ⟨[], some 'x', [⟨[1, 2], some 'y', [⟨[5, 5], some 'z', []⟩]⟩]⟩

theorem demoA_canonical : Canonical demoA := by
  refine ⟨?_, .inr ?_⟩
  · repeat' first | constructor | (simp only [List.mem_cons, List.not_mem_nil, or_false]; rintro _ (rfl | rfl)) | (simp; done) | (simp; decide)
    all_goals first | simp | skip
    all_goals repeat' first | constructor | (simp only [List.mem_cons, List.not_mem_nil, or_false]; rintro _ rfl) | (simp; done)
  · repeat' first | constructor | (simp only [List.mem_cons, List.not_mem_nil, or_false]; rintro _ (rfl | rfl)) | (simp; done)
    all_goals first | simp | skip

theorem demoB_canonical : Canonical demoB := by
  refine ⟨?_, .inr ?_⟩
  · repeat' first | constructor | (simp only [List.mem_cons, List.not_mem_nil, or_false]; rintro _ rfl) | (simp; done)
    all_goals first | simp | skip
  · repeat' first | constructor | (simp only [List.mem_cons, List.not_mem_nil, or_false]; rintro _ rfl) | (simp; done)
    all_goals first | simp | skip

section
variable {K : Type} [Ord K] [TransOrd K] [LawfulEqOrd K] [DecidableEq K] {V W : Type}

/-! ## C41: lookup and iteration -/

/-- **C41.** `get(k)` returns `Some(v)` exactly if the tree stores `v` under `k`, and `None` otherwise. -/
theorem C41_get (t : Tree K V) (h : Valid t) (k : List K) :
    ∃ o, t.get k = .ret o ∧ ∀ v, o = some v ↔ Entry t k v :=
  ⟨den t k, get_eq h k, fun v => den_iff_entry h k v⟩

/-- **C41.** `contains_key(k)` tells whether something is stored under `k`. -/
theorem C41_contains_key (t : Tree K V) (h : Valid t) (k : List K) :
    ∃ b, t.containsKey k = .ret b ∧ (b = true ↔ HasEntry t k) :=
  ⟨_, containsKey_eq h k, (has_iff h).symm⟩

/-- **C41.** A key has at most one value. -/
theorem C41_functional (t : Tree K V) (h : Valid t) (k : List K) (v w : V) (hv : Entry t k v) (hw : Entry t k w) : v = w := by
  have := ((den_iff_entry h k v).2 hv).symm.trans ((den_iff_entry h k w).2 hw)
  simpa using this

/-- **C41.** `iter()` ends, yields exactly the entries, each once, in strictly ascending lexicographic key order; `values()` ends and yields
their values in the same order. -/
theorem C41_iter_values (t : Tree K V) (h : Valid t) :
    ∃ l : List (List K × V), Yields Iter.turn t.iter l ∧ l.Pairwise (fun x y => LexLt x.1 y.1) ∧
      (∀ k v, (k, v) ∈ l ↔ Entry t k v) ∧ Yields Values.turn t.values (l.map Prod.snd) := by
  obtain ⟨l, h1, h2, h3, h4⟩ := iter_new h []
  refine ⟨l, h1, h2, fun k v => ?_, h4⟩
  rw [h3]
  simp

/-- what an iterator yields is determined -/
theorem Yields.unique {σ ι : Type} {turn : σ → Turn σ ι} {s : σ} {l l' : List ι} (h : Yields turn s l) (h' : Yields turn s l') : l = l' := by
  induction h generalizing l' with
  | done e => cases h' <;> simp_all
  | again e _ ih =>
    cases h' with
    | done e' => simp_all
    | again e' y => rw [e] at e'; cases e'; exact ih y
    | yield e' y => rw [e] at e'; cases e'
  | yield e _ ih =>
    cases h' with
    | done e' => simp_all
    | again e' y => rw [e] at e'; cases e'
    | yield e' y => rw [e] at e'; cases e'; rw [ih y]

/-- **C41.** Whatever `iter()` yields is what `get` answers: `iter()` yields `(k, v)` iff `get(k)` is `Some(v)`. -/
theorem C41_iter_iff_get (t : Tree K V) (h : Valid t) (l : List (List K × V)) (hl : Yields Iter.turn t.iter l) (k : List K) (v : V) :
    (k, v) ∈ l ↔ t.get k = .ret (some v) := by
  obtain ⟨l', h1, _, h3, _⟩ := C41_iter_values t h
  rw [hl.unique h1, h3, get_eq h, ← den_iff_entry h]
  simp

example : Valid demoA ∧ Entry demoA [1, 2, 5] 'b' ∧ ¬HasEntry demoA [1] := by
  refine ⟨demoA_canonical.1, ?_, ?_⟩
  · exact (den_iff_entry demoA_canonical.1 _ _).1 (by decide +kernel)
  · rw [has_iff demoA_canonical.1]; decide +kernel

/-- lexicographic order is a strict order, so "ascending" above excludes repetitions -/
theorem LexLt.irrefl (a : List K) : ¬LexLt a a := by
  rintro (⟨c, r, h⟩ | ⟨p, x, y, r, s, h1, h2, h3⟩)
  · have := congrArg List.length h
    simp at this
  · rw [h1] at h2
    simp only [List.append_cancel_left_eq, List.cons.injEq] at h2
    rw [h2.1, cmp_self] at h3
    cases h3

/-! ## C42: histories -/

/-- **C42.** After `insert(k, v)` the tree stores `v` under `k` and everything else as before. -/
theorem C42_insert (t : Tree K V) (h : Valid t) (k : List K) (v : V) :
    ∃ r, t.insert k v = (r, .cont) ∧ Valid r ∧
      ∀ k' v', Entry r k' v' ↔ (k' = k ∧ v' = v) ∨ (k' ≠ k ∧ Entry t k' v') := by
  obtain ⟨r, h1, h2, _, h4⟩ := insert_good h k v
  refine ⟨r, h1, h2, fun k' v' => ?_⟩
  rw [← den_iff_entry h2, ← den_iff_entry h, h4]
  by_cases e : k' = k <;> simp [e, eq_comm]

/-- **C42.** Every history of public operations runs without panic, and afterwards `get` answers like the map the history stands for. -/
theorem C42_history (h : Prog K V) :
    ∃ t, h.run = .ret t ∧ ∀ k, t.get k = .ret (h.meaning k) := by
  obtain ⟨t, h1, h2, h3⟩ := run_spec h
  exact ⟨t, h1, fun k => by rw [get_eq h2.1, h3]⟩

/-- **C42.** Collecting pairs: the last pair with a key wins. -/
theorem C42_collect (l : List (List K × V)) :
    ∃ t, fromIter l = (t, .cont) ∧ ∀ k v, t.get k = .ret (some v) ↔ ∃ l₁ l₂, l = l₁ ++ (k, v) :: l₂ ∧ ∀ e ∈ l₂, e.1 ≠ k := by
  obtain ⟨r, hr, hc, hd⟩ := fromIter_good l (empty : Tree K V) canonical_empty
  refine ⟨r, hr, fun k v => ?_⟩
  rw [get_eq hc.1, hd, den_empty_none rfl]
  have key : ∀ l : List (List K × V), assoc l k = some v ↔ ∃ l₁ l₂, l = l₁ ++ (k, v) :: l₂ ∧ ∀ e ∈ l₁, e.1 ≠ k := by
    intro l
    induction l with
    | nil => simp [assoc]
    | cons e l ih =>
      rw [assoc]
      by_cases he : e.1 = k
      · rw [if_pos he]
        constructor
        · intro h
          refine ⟨[], l, ?_, by simp⟩
          simp only [Option.some.injEq] at h
          rw [List.nil_append, ← he, ← h]
        · rintro ⟨l₁, l₂, h1, h2⟩
          cases l₁ with
          | nil => simp at h1; rw [h1.1]
          | cons x l₁ => simp at h1; exact absurd he (by rw [h1.1]; exact h2 x (by simp))
      · rw [if_neg he, ih]
        constructor
        · rintro ⟨l₁, l₂, h1, h2⟩
          exact ⟨e :: l₁, l₂, by rw [h1]; rfl, by simpa using ⟨he, fun a b hab => h2 (a, b) hab⟩⟩
        · rintro ⟨l₁, l₂, h1, h2⟩
          cases l₁ with
          | nil => simp at h1; exact absurd (by rw [h1.1]) he
          | cons x l₁ =>
            simp at h1
            exact ⟨l₁, l₂, h1.2, fun a ha => h2 a (by simp [ha])⟩
  have e : ((assoc l.reverse k).or none) = assoc l.reverse k := by cases assoc l.reverse k <;> rfl
  rw [e]
  simp only [Call.ret.injEq]
  rw [key]
  constructor
  · rintro ⟨l₁, l₂, h1, h2⟩
    refine ⟨l₂.reverse, l₁.reverse, ?_, by simpa using h2⟩
    have := congrArg List.reverse h1
    simpa using this
  · rintro ⟨l₁, l₂, h1, h2⟩
    refine ⟨l₂.reverse, l₁.reverse, ?_, by simpa using h2⟩
    rw [h1]; simp

/-- a history with in-place and pure operations and its expected contents -/
example : (Prog.union (.insert (.single [1, 2] 'a') [1, 2, 5] 'b') (.differenceWith (.leaf 'x') (.single [7] ()))).meaning [1, 2, 5] = some 'b' ∧
    (Prog.union (.insert (.single [1, 2] 'a') [1, 2, 5] 'b') (.differenceWith (.leaf 'x') (.single [7] ()))).meaning [] = some 'x' := by
  simp [Prog.meaning]

/-! ## C43: outer combine and union -/

/-- **C43.** `outer_combine`: entries of one tree only are taken over, common ones are combined. -/
theorem C43_outer_combine (a b : Tree K V) (ha : Valid a) (hb : Valid b) (f : V → V → Option V) :
    ∃ r, outerCombine a b f = .ret r ∧ Valid r ∧ ∀ k v, Entry r k v ↔
      (Entry a k v ∧ ¬HasEntry b k) ∨ (Entry b k v ∧ ¬HasEntry a k) ∨ ∃ x y, Entry a k x ∧ Entry b k y ∧ f x y = some v := by
  obtain ⟨r, h1, h2, h3⟩ := outerCombine_spec ha hb f
  refine ⟨r, h1, h2.valid, fun k v => ?_⟩
  simp only [← den_iff_entry h2.valid, ← den_iff_entry ha, ← den_iff_entry hb, has_iff ha, has_iff hb, h3]
  cases den a k <;> cases den b k <;> simp [outerPureVal]

/-- **C43.** `outer_combine_with`: the same, in place; the closure may modify the value or ask for its removal. -/
theorem C43_outer_combine_with (a b : Tree K V) (ha : Valid a) (hb : Valid b) (f : V → V → V × Bool) :
    ∃ r, outerCombineWith a b (closure f) = (r, .cont) ∧ Valid r ∧ ∀ k v, Entry r k v ↔
      (Entry a k v ∧ ¬HasEntry b k) ∨ (Entry b k v ∧ ¬HasEntry a k) ∨ ∃ x y, Entry a k x ∧ Entry b k y ∧ f x y = (v, true) := by
  obtain ⟨r, h1, _, h2, h3⟩ := outerWith_good ha hb f
  refine ⟨r, h1, h2.valid, fun k v => ?_⟩
  simp only [← den_iff_entry h2.valid, ← den_iff_entry ha, ← den_iff_entry hb, has_iff ha, has_iff hb, h3]
  cases den a k <;> cases den b k <;> simp [onEither, kept]
  rename_i x y
  rcases f x y with ⟨z, e⟩
  cases e <;> simp

/-- **C43.** `union` and `union_with`: all entries of `a`, and those of `b` whose key `a` lacks (left biased). -/
theorem C43_union (a b : Tree K V) (ha : Valid a) (hb : Valid b) :
    ∃ r, union a b = .ret r ∧ unionWith a b = (r, .cont) ∧ Valid r ∧
      ∀ k v, Entry r k v ↔ Entry a k v ∨ (Entry b k v ∧ ¬HasEntry a k) := by
  obtain ⟨r, h1, h2, h3, h4⟩ := unionWith_good ha hb
  refine ⟨r, h2, h1, h3.valid, fun k v => ?_⟩
  simp only [← den_iff_entry h3.valid, ← den_iff_entry ha, ← den_iff_entry hb, has_iff ha, h4]
  cases den a k <;> cases den b k <;> simp

example : Valid demoA ∧ Valid demoB ∧ Entry demoA [1, 2] 'a' ∧ Entry demoB [1, 2] 'y' ∧ Entry demoB [] 'x' ∧ ¬HasEntry demoA [] := by
  refine ⟨demoA_canonical.1, demoB_canonical.1, (den_iff_entry demoA_canonical.1 _ _).1 (by decide +kernel),
    (den_iff_entry demoB_canonical.1 _ _).1 (by decide +kernel), (den_iff_entry demoB_canonical.1 _ _).1 (by decide +kernel), ?_⟩
  rw [has_iff demoA_canonical.1]; decide +kernel

/-! ## C44: inner combine and intersection -/

/-- **C44.** `inner_combine` -/
theorem C44_inner_combine (a : Tree K V) (b : Tree K W) (ha : Valid a) (hb : Valid b) (f : V → W → Option V) :
    ∃ r, innerCombine a b f = .ret r ∧ Valid r ∧ ∀ k v, Entry r k v ↔ ∃ x y, Entry a k x ∧ Entry b k y ∧ f x y = some v := by
  obtain ⟨r, h1, h2, h3⟩ := innerCombine_spec ha hb f
  refine ⟨r, h1, h2.valid, fun k v => ?_⟩
  simp only [← den_iff_entry h2.valid, ← den_iff_entry ha, ← den_iff_entry hb, h3]
  cases den a k <;> cases den b k <;> simp [innerPureVal]

/-- **C44.** `inner_combine_with` -/
theorem C44_inner_combine_with (a : Tree K V) (b : Tree K W) (ha : Valid a) (hb : Valid b) (f : V → W → V × Bool) :
    ∃ r, innerCombineWith a b (closure f) = (r, .cont) ∧ Valid r ∧
      ∀ k v, Entry r k v ↔ ∃ x y, Entry a k x ∧ Entry b k y ∧ f x y = (v, true) := by
  obtain ⟨r, h1, _, h2, h3⟩ := innerWith_good ha hb f
  refine ⟨r, h1, h2.valid, fun k v => ?_⟩
  simp only [← den_iff_entry h2.valid, ← den_iff_entry ha, ← den_iff_entry hb, h3]
  cases den a k <;> cases den b k <;> simp [onBoth, kept]
  rename_i x y
  rcases f x y with ⟨z, e⟩
  cases e <;> simp

/-- **C44.** `intersection` and `intersection_with`: the entries of `a` whose key `b` has. -/
theorem C44_intersection (a : Tree K V) (b : Tree K W) (ha : Valid a) (hb : Valid b) :
    ∃ r, intersection a b = .ret r ∧ intersectionWith a b = (r, .cont) ∧ Valid r ∧
      ∀ k v, Entry r k v ↔ Entry a k v ∧ HasEntry b k := by
  obtain ⟨r, h1, h2, h3, h4⟩ := intersectionWith_good ha hb
  refine ⟨r, h2, h1, h3.valid, fun k v => ?_⟩
  simp only [← den_iff_entry h3.valid, ← den_iff_entry ha, has_iff hb, h4]
  cases den a k <;> cases den b k <;> simp

/-! ## C45: left combine and difference -/

/-- **C45.** `left_combine_with`: the closure is applied to common keys, other entries of `a` are kept, other entries of `b` ignored. -/
theorem C45_left_combine_with (a : Tree K V) (b : Tree K W) (ha : Valid a) (hb : Valid b) (f : V → W → V × Bool) :
    ∃ r, leftCombineWith a b (closure f) = (r, .cont) ∧ Valid r ∧ ∀ k v, Entry r k v ↔
      (Entry a k v ∧ ¬HasEntry b k) ∨ ∃ x y, Entry a k x ∧ Entry b k y ∧ f x y = (v, true) := by
  obtain ⟨r, h1, _, h2, h3⟩ := leftWith_good ha hb f
  refine ⟨r, h1, h2.valid, fun k v => ?_⟩
  simp only [← den_iff_entry h2.valid, ← den_iff_entry ha, ← den_iff_entry hb, has_iff hb, h3]
  cases den a k <;> cases den b k <;> simp [onLeft, kept]
  rename_i x y
  rcases f x y with ⟨z, e⟩
  cases e <;> simp

/-- **C45.** `difference` and `difference_with` remove exactly the keys of `b`. -/
theorem C45_difference (a : Tree K V) (b : Tree K W) (ha : Valid a) (hb : Valid b) :
    ∃ r, difference a b = .ret r ∧ differenceWith a b = (r, .cont) ∧ Valid r ∧
      ∀ k v, Entry r k v ↔ Entry a k v ∧ ¬HasEntry b k := by
  obtain ⟨r, h1, h2, h3, h4⟩ := differenceWith_good ha hb
  refine ⟨r, h2, h1, h3.valid, fun k v => ?_⟩
  simp only [← den_iff_entry h3.valid, ← den_iff_entry ha, has_iff hb, h4]
  cases den a k <;> cases den b k <;> simp

/-- **C45.** `left_combine(b, f)`: at common keys the result is `f(v, Some(w))`. At keys of `a` that `b` lacks it is `f(v, None)` only
if the keys of `b` fork there (or `b` is empty and the key is empty), otherwise `v`. -/
theorem C45_left_combine (a : Tree K V) (b : Tree K W) (ha : Valid a) (hb : Canonical b) (f : V → Option W → Option V) :
    ∃ r, leftCombine a b f = .ret r ∧ Valid r ∧ ∀ k v, Entry r k v ↔
      (∃ x y, Entry a k x ∧ Entry b k y ∧ f x (some y) = some v) ∨
      (∃ x, Entry a k x ∧ ¬HasEntry b k ∧ (KeysFork b k ∨ (k = [] ∧ ∀ k', ¬HasEntry b k')) ∧ f x none = some v) ∨
      (Entry a k v ∧ ¬HasEntry b k ∧ ¬(KeysFork b k ∨ (k = [] ∧ ∀ k', ¬HasEntry b k'))) := by
  obtain ⟨r, h1, h2, h3⟩ := leftCombine_good ha hb f
  refine ⟨r, h1, h2.valid, fun k v => ?_⟩
  have hk := h3 k
  rw [empty_iff hb] at hk
  have hfork : KeysFork b k ↔ Branch b k := by simp only [KeysFork, Branch, has_iff hb.1]
  have hemp : (∀ k', ¬HasEntry b k') ↔ ∀ k', den b k' = none := by
    simp only [has_iff hb.1, Option.not_isSome_iff_eq_none]
  rw [hfork, hemp]
  simp only [← den_iff_entry h2.valid, ← den_iff_entry ha, ← den_iff_entry hb.1, has_iff hb.1]
  cases hbk : den b k with
  | some w =>
    have := hk.1 (.inl (by simp [hbk]))
    rw [this, hbk]
    cases den a k <;> simp
  | none =>
    rw [hbk] at hk
    by_cases hx : Branch b k ∨ (k = [] ∧ ∀ k', den b k' = none)
    · rw [hk.1 (.inr (hx.imp id And.symm))]
      simp only [hx, not_true, and_false, or_false]
      cases den a k <;> simp
    · rw [hk.2 (by simpa [and_comm] using hx)]
      simp only [hx, not_false_eq_true, false_and, and_false]
      cases den a k <;> simp

/-- **C45.** So `left_combine` does not consult `f` at all keys of the left tree: here `f` drops everything, and yet an entry survives. -/
theorem C45_left_combine_not_everywhere :
    ∃ (a : Tree Nat Char) (b : Tree Nat Unit), Canonical a ∧ Canonical b ∧
      leftCombine a b (fun _ _ => none) = .ret a ∧ Entry a [1] 'a' ∧ ¬HasEntry b [1] := by
  refine ⟨single [1] 'a', single [2] (), canonical_single _ _, canonical_single _ _, ?_, .here, ?_⟩
  · obtain ⟨r, h1, h2, h3⟩ := leftCombine_good (canonical_single [1] 'a').1 (canonical_single [2] ()) (fun _ _ => none)
    rw [h1]
    refine congrArg _ (canonical_ext (h2.canonical (canonical_single _ _) (canonical_single _ _)) (canonical_single _ _) ?_)
    intro k
    by_cases hk : k = [1]
    · refine (h3 k).2 ?_
      subst hk
      rintro (h | ⟨c, d, s, s', _, h, _⟩ | ⟨h, _⟩)
      · rw [den_single] at h; simp at h
      · rw [den_single] at h; simp at h
      · cases h
    · rw [den_single, if_neg hk]
      have := h3 k
      rw [show den (single [1] 'a') k = none by rw [den_single, if_neg hk]] at this
      by_cases hx : (den (single [2] ()) k).isSome = true ∨ Branch (single [2] ()) k ∨ (single [2] () = empty ∧ k = [])
      · rw [this.1 hx]; rfl
      · exact this.2 hx
  · rw [has_iff (canonical_single _ _).1, den_single]
    simp

example : Valid demoA ∧ Canonical demoB := ⟨demoA_canonical.1, demoB_canonical⟩

/-! ## C46: pure and in-place operations -/

/-- **C46.** `union` and `union_with`, `intersection` and `intersection_with`, `difference` and `difference_with` compute the same tree. -/
theorem C46_algebra (a b : Tree K V) (c : Tree K W) (ha : Valid a) (hb : Valid b) (hc : Valid c) :
    (∃ r, union a b = .ret r ∧ unionWith a b = (r, .cont)) ∧
    (∃ r, intersection a c = .ret r ∧ intersectionWith a c = (r, .cont)) ∧
    (∃ r, difference a c = .ret r ∧ differenceWith a c = (r, .cont)) := by
  obtain ⟨r, h1, h2, _⟩ := unionWith_good ha hb
  obtain ⟨s, h3, h4, _⟩ := intersectionWith_good ha hc
  obtain ⟨t, h5, h6, _⟩ := differenceWith_good ha hc
  exact ⟨⟨r, h2, h1⟩, ⟨s, h4, h3⟩, ⟨t, h6, h5⟩⟩

/-- **C46.** The same for the combinations with closures that compute the same value: `f` returns the new value and whether to keep it,
`g` returns the value if it is to be kept. -/
theorem C46_combine (a b : Tree K V) (c : Tree K W) (ha : Valid a) (hb : Valid b) (hc : Valid c)
    (f : V → V → V × Bool) (g : V → V → Option V) (hfg : ∀ x y, g x y = if (f x y).2 then some (f x y).1 else none)
    (f' : V → W → V × Bool) (g' : V → W → Option V) (hfg' : ∀ x y, g' x y = if (f' x y).2 then some (f' x y).1 else none) :
    (∃ r, outerCombine a b g = .ret r ∧ outerCombineWith a b (closure f) = (r, .cont)) ∧
    (∃ r, innerCombine a c g' = .ret r ∧ innerCombineWith a c (closure f') = (r, .cont)) ∧
    (∃ r, leftCombine a c (fun v w => match w with | some w => g' v w | none => some v) = .ret r ∧
      leftCombineWith a c (closure f') = (r, .cont)) := by
  obtain rfl : g = fun x y => kept (f x y) := by funext x y; exact hfg x y
  obtain rfl : g' = fun x y => kept (f' x y) := by funext x y; exact hfg' x y
  obtain ⟨r, h1, h2, _⟩ := outerWith_good ha hb f
  obtain ⟨s, h3, h4, _⟩ := innerWith_good ha hc f'
  obtain ⟨t, h5, h6, _⟩ := leftWith_good ha hc f'
  refine ⟨⟨r, h2, h1⟩, ⟨s, h4, h3⟩, ⟨t, ?_, h5⟩⟩
  rw [← h6]
  congr 1
  funext v w
  cases w <;> rfl

example : (∀ x y : Nat, (fun x y => if x + y > 3 then some (x + y) else none) x y =
    if ((fun x y : Nat => (x + y, decide (x + y > 3))) x y).2 then some ((fun x y : Nat => (x + y, decide (x + y > 3))) x y).1 else none) := by
  intro x y
  by_cases h : x + y > 3 <;> simp [h]

/-! ## C47: canonical form -/

/-- **C47.** Every tree built with the public interface is canonical. -/
theorem C47_reachable_canonical (t : Tree K V) (h : Reachable t) : Canonical t := by
  obtain ⟨p, hp⟩ := h
  obtain ⟨t', h1, h2, _⟩ := run_spec p
  rw [hp] at h1
  cases h1
  exact h2

theorem assoc_mem {l : List (List K × V)} {k : List K} {v : V} (h : l.Pairwise (fun x y => x.1 ≠ y.1)) : assoc l k = some v ↔ (k, v) ∈ l := by
  induction l with
  | nil => simp [assoc]
  | cons e l ih =>
    rw [List.pairwise_cons] at h
    rw [assoc]
    by_cases he : e.1 = k
    · rw [if_pos he]
      constructor
      · intro h'
        simp only [Option.some.injEq] at h'
        rw [← he, ← h']; simp
      · intro hm
        rcases List.mem_cons.1 hm with rfl | hm
        · rfl
        · exact absurd he (h.1 _ hm)
    · rw [if_neg he, ih h.2, List.mem_cons]
      constructor
      · exact .inr
      · rintro (rfl | h')
        · exact absurd rfl he
        · exact h'

/-- **C47.** Conversely every canonical tree can be built (by collecting its entries), so theorems about canonical trees are theorems about all
trees a user can have. -/
theorem C47_canonical_reachable (t : Tree K V) (h : Canonical t) : Reachable t := by
  obtain ⟨l, _, h2, h3, _⟩ := C41_iter_values t h.1
  obtain ⟨r, hr, hc, hd⟩ := run_spec (.fromIter l : Prog K V)
  refine ⟨.fromIter l, ?_⟩
  rw [hr]
  refine congrArg _ (canonical_ext hc h ?_)
  intro k
  rw [hd]
  have hp : l.reverse.Pairwise (fun x y => x.1 ≠ y.1) := by
    rw [List.pairwise_reverse]
    refine h2.imp ?_
    intro x y hxy e
    rw [e] at hxy
    exact LexLt.irrefl _ hxy
  refine Option.ext fun v => ?_
  show assoc l.reverse k = some v ↔ _
  rw [assoc_mem hp, List.mem_reverse, h3, ← den_iff_entry h.1]

/-- **C47.** `==` on trees (`RadixTree`'s derived `PartialEq`) built with the public interface decides whether they have the same keys with
pairwise `==` values, whatever their histories. -/
theorem C47_eq (eqV : V → V → Bool) (a b : Tree K V) (ha : Reachable a) (hb : Reachable b) :
    treeEq eqV a b = true ↔
      (∀ k, HasEntry a k ↔ HasEntry b k) ∧ ∀ k v w, Entry a k v → Entry b k w → eqV v w = true := by
  have ha := C47_reachable_canonical a ha
  have hb := C47_reachable_canonical b hb
  rw [treeEq_iff ha hb]
  simp only [has_iff ha.1, has_iff hb.1, ← den_iff_entry ha.1, ← den_iff_entry hb.1]
  constructor
  · intro h
    refine ⟨fun k => ?_, fun k v w hv hw => ?_⟩
    · have := h k
      revert this
      cases den a k <;> cases den b k <;> simp [optEq]
    · have := h k
      rw [hv, hw] at this
      exact this
  · rintro ⟨h1, h2⟩ k
    have h1 := h1 k
    have h2 := h2 k
    revert h1 h2
    cases den a k <;> cases den b k <;> simp [optEq]

/-- **C47.** In particular trees with the same entries are identical, prefixes and children included. -/
theorem C47_ext (a b : Tree K V) (ha : Reachable a) (hb : Reachable b) (h : ∀ k v, Entry a k v ↔ Entry b k v) : a = b := by
  have ha := C47_reachable_canonical a ha
  have hb := C47_reachable_canonical b hb
  refine canonical_ext ha hb (fun k => Option.ext fun v => ?_)
  rw [den_iff_entry ha.1, den_iff_entry hb.1]
  exact h k v

/-- **C47.** `is_empty` tells whether there is no entry. -/
theorem C47_is_empty (t : Tree K V) (h : Reachable t) : t.isEmpty = true ↔ ∀ k, ¬HasEntry t k := by
  have h := C47_reachable_canonical t h
  simp only [has_iff h.1, Option.not_isSome_iff_eq_none]
  rw [← empty_iff h]
  constructor
  · intro he
    rcases h.2 with h' | h'
    · exact h'
    · have := h'.nonempty
      rw [he] at this; cases this
  · rintro rfl; rfl

example : Reachable demoA ∧ Reachable demoB := ⟨C47_canonical_reachable _ demoA_canonical, C47_canonical_reachable _ demoB_canonical⟩

/-! ## C48: relations between key sets -/

/-- **C48.** `is_subset` -/
theorem C48_is_subset (l : Tree K V) (r : Tree K W) (hl : Canonical l) (hr : Valid r) :
    ∃ b, isSubset l r = .ret b ∧ (b = true ↔ ∀ k, HasEntry l k → HasEntry r k) := by
  obtain ⟨b, h1, h2⟩ := isSubset_spec (l.size + r.size + 1) l r hl.1 hr hl.kids_full
    (fun hp => hl.2.resolve_left (fun e => hp (by rw [e]; rfl))) (by omega)
  refine ⟨b, h1, ?_⟩
  rw [h2]
  simp only [Within, has_iff hl.1, has_iff hr]

/-- **C48.** On trees that are merely valid (such as validated archives) the answer "yes" is still reliable. -/
theorem C48_is_subset_sound (l : Tree K V) (r : Tree K W) (hl : Valid l) (hr : Valid r) :
    ∃ b, isSubset l r = .ret b ∧ (b = true → ∀ k, HasEntry l k → HasEntry r k) := by
  obtain ⟨b, h1, h2⟩ := isSubset_sound (l.size + r.size + 1) l r hl hr (by omega)
  refine ⟨b, h1, fun hb => ?_⟩
  simp only [has_iff hl, has_iff hr]
  exact h2 hb

/-- **C48.** `is_superset` -/
theorem C48_is_superset (l : Tree K V) (r : Tree K W) (hl : Valid l) (hr : Canonical r) :
    ∃ b, isSuperset l r = .ret b ∧ (b = true ↔ ∀ k, HasEntry r k → HasEntry l k) := C48_is_subset r l hr hl

/-- **C48.** `intersects` and `is_disjoint` -/
theorem C48_intersects_is_disjoint (l : Tree K V) (r : Tree K W) (hl : Valid l) (hr : Valid r) :
    ∃ b, intersects l r = .ret b ∧ isDisjoint l r = .ret !b ∧ (b = true ↔ ∃ k, HasEntry l k ∧ HasEntry r k) := by
  obtain ⟨b, h1, h2⟩ := intersects_spec (l.size + r.size + 1) l r hl hr (by omega)
  refine ⟨b, h1, by show notC (intersects l r) = _; unfold intersects; rw [h1]; rfl, ?_⟩
  simp only [has_iff hl, has_iff hr]
  cases b with
  | false =>
    have := h2.1 rfl
    simp only [Bool.false_eq_true, false_iff]
    rintro ⟨k, hk⟩
    exact this k hk
  | true =>
    simp only [true_iff]
    apply Classical.byContradiction
    intro hn
    have := h2.2 (fun k hk => hn ⟨k, hk⟩)
    cases this

example : Canonical demoA ∧ Valid demoB ∧ (HasEntry demoA [1, 2] ∧ HasEntry demoB [1, 2]) ∧ HasEntry demoA [1, 3] ∧ ¬HasEntry demoB [1, 3] := by
  refine ⟨demoA_canonical, demoB_canonical.1, ?_⟩
  simp only [has_iff demoA_canonical.1, has_iff demoB_canonical.1]
  decide +kernel

/-! ## C49: prefix queries -/

/-- **C49.** `filter_prefix(p)` keeps exactly the entries whose key starts with `p`. -/
theorem C49_filter_prefix (t : Tree K V) (h : Valid t) (p : List K) :
    ∃ r, t.filterPrefix p = .ret r ∧ Valid r ∧ (Canonical t → Canonical r) ∧ ∀ k v, Entry r k v ↔ Entry t k v ∧ ∃ s, k = p ++ s := by
  obtain ⟨r, h1, h2, h3, h4, h5⟩ := filterPrefix_spec h p
  refine ⟨r, h1, h2, h3, fun k v => ?_⟩
  rw [← den_iff_entry h2, ← den_iff_entry h]
  by_cases hp : ∃ s, k = p ++ s
  · obtain ⟨s, rfl⟩ := hp
    rw [h4]; simp
  · rw [h5 k (fun s e => hp ⟨s, e⟩)]; simp [hp]

/-- **C49.** `scan_prefix(p)` iterates over exactly these, in ascending order, and ends. -/
theorem C49_scan_prefix (t : Tree K V) (h : Valid t) (p : List K) : ∃ it, t.scanPrefix p = .ret it ∧ EnumeratesUnder it t p :=
  scanPrefix_spec h p

/-- **C49.** `prepend(p)` puts `p` in front of every key. -/
theorem C49_prepend (t : Tree K V) (h : Valid t) (p : List K) :
    Valid (t.prepend p) ∧ (Canonical t → Canonical (t.prepend p)) ∧ ∀ k v, Entry (t.prepend p) k v ↔ ∃ s, k = p ++ s ∧ Entry t s v := by
  refine ⟨h.prepend p, fun hc => hc.prepend p, fun k v => ?_⟩
  by_cases he : t.isEmpty = true
  · rw [prepend_isEmpty he, ← den_iff_entry h, den_empty_none he]
    simp only [← den_iff_entry h, den_empty_none he]
    simp
  · exact entry_prepend (by simpa using he)

/-- a prefix that ends in the middle of a fragment -/
example : Valid demoB ∧ Entry demoB [1, 2, 5, 5] 'z' ∧ ∃ s, [1, 2, 5, 5] = [1, 2, 5] ++ s :=
  ⟨demoB_canonical.1, (den_iff_entry demoB_canonical.1 _ _).1 (by decide +kernel), [5], rfl⟩

/-! ## C50: prefix-set operations -/

/-- some key of `b` whose value satisfies `f` is a prefix of `k` -/
def CoveredBy (b : Tree K W) (f : W → Bool) (k : List K) : Prop := ∃ p r w, k = p ++ r ∧ Entry b p w ∧ f w = true

/-- **C50.** `remove_prefix_with` -/
theorem C50_remove_prefix_with (a : Tree K V) (b : Tree K W) (ha : Valid a) (hb : Valid b) (f : W → Bool) :
    ∃ r, removePrefixWith a b f = (r, .cont) ∧ Valid r ∧ ∀ k v, Entry r k v ↔ Entry a k v ∧ ¬CoveredBy b f k := by
  obtain ⟨r, h1, h2, h3⟩ := removePrefixWith_spec ha hb f
  refine ⟨r, h1, h2.valid, fun k v => ?_⟩
  have e : CoveredBy b f k ↔ Covered f b k := by simp only [CoveredBy, Covered, den_iff_entry hb]
  rw [e, ← den_iff_entry h2.valid, ← den_iff_entry ha]
  by_cases hc : Covered f b k
  · rw [(h3 k).1 hc]; simp [hc]
  · rw [(h3 k).2 hc]; simp [hc]

/-- **C50.** `retain_prefix_with` -/
theorem C50_retain_prefix_with (a : Tree K V) (b : Tree K W) (ha : Valid a) (hb : Valid b) (f : W → Bool) :
    ∃ r, retainPrefixWith a b f = (r, .cont) ∧ Valid r ∧ ∀ k v, Entry r k v ↔ Entry a k v ∧ CoveredBy b f k := by
  obtain ⟨r, h1, h2, h3⟩ := retainPrefixWith_spec ha hb f
  refine ⟨r, h1, h2.valid, fun k v => ?_⟩
  have e : CoveredBy b f k ↔ Covered f b k := by simp only [CoveredBy, Covered, den_iff_entry hb]
  rw [e, ← den_iff_entry h2.valid, ← den_iff_entry ha]
  by_cases hc : Covered f b k
  · rw [(h3 k).1 hc]; simp [hc]
  · rw [(h3 k).2 hc]; simp [hc]

example : Valid demoA ∧ Valid demoB ∧ CoveredBy demoB (· == 'y') [1, 2, 5] ∧ Entry demoA [1, 2, 5] 'b' :=
  ⟨demoA_canonical.1, demoB_canonical.1, ⟨[1, 2], [5], 'y', rfl, (den_iff_entry demoB_canonical.1 _ _).1 (by decide +kernel), rfl⟩,
    (den_iff_entry demoA_canonical.1 _ _).1 (by decide +kernel)⟩

/-! ## C51: no panics, termination -/

/-- **C51.** On valid trees no operation panics. Since the model counts exceeding a recursion depth of `fuel` as a panic, this also shows that
the recursions end, at a depth of at most the number of nodes and key components of both trees. -/
theorem C51_no_panic (a b : Tree K V) (c : Tree K W) (ha : Valid a) (hb : Valid b) (hc : Valid c) (fuel fuel' : Nat)
    (hf : a.size + b.size < fuel) (hf' : a.size + c.size < fuel') (p : List K) (v : V) (g : V → V → Option V)
    (g' : V → W → Option V) (g'' : V → Option W → Option V) (m : V → V → V × Bool) (m' : V → W → V × Bool) (s : W → Bool) :
    (∃ r, outerGo g fuel a b = .ret r) ∧ (∃ r, innerGo g' fuel' a c = .ret r) ∧ (∃ r, leftGo g'' fuel' a c = .ret r) ∧
    (∃ r, outerWithGo (closure m) fuel a b = (r, .cont)) ∧ (∃ r, innerWithGo (closure m') fuel' a c = (r, .cont)) ∧
    (∃ r, leftWithGo (closure m') fuel' a c = (r, .cont)) ∧ (∃ r, removePrefixGo s fuel' a c = (r, .cont)) ∧
    (∃ r, retainPrefixGo s fuel' a c = (r, .cont)) ∧ (∃ r, a.insert p v = (r, .cont)) ∧
    (∃ r, intersectsGo fuel' a a.pre c c.pre = .ret r) ∧
    (∃ r, findGo fuel a p = .ret r) ∧ (∃ r, a.filterPrefix p = .ret r) ∧ (∃ r, a.scanPrefix p = .ret r) ∧
    (∃ r, isSubsetGo fuel' a a.pre c c.pre = .ret r) := by
  refine ⟨⟨_, outerGo_eq _ a b ha hb hf⟩, ⟨_, innerGo_eq _ a c ha hc hf'⟩, ⟨_, leftGo_eq _ a c ha hc hf'⟩,
    ⟨_, outerWithGo_eq (closure_noPanic m) _ a b ha hb hf⟩, ⟨_, innerWithGo_eq (closure_noPanic m') _ a c ha hc hf'⟩,
    ⟨_, leftWithGo_eq (closure_noPanic m') _ a c ha hc hf'⟩, ⟨_, removePrefixGo_eq _ a c ha hc hf'⟩,
    ⟨_, retainPrefixGo_eq _ a c ha hc hf'⟩, ?_, ?_, ?_, ?_, ?_, ?_⟩
  · obtain ⟨r, h, _⟩ := insert_good ha p v; exact ⟨r, h⟩
  · obtain ⟨r, h, _⟩ := intersects_spec fuel' a c ha hc hf'; exact ⟨r, h⟩
  · obtain ⟨r, h, _⟩ := find_spec fuel a p ha (by omega); exact ⟨r, h⟩
  · obtain ⟨r, h, _⟩ := filterPrefix_spec ha p; exact ⟨r, h⟩
  · obtain ⟨r, h, _⟩ := scanPrefix_spec ha p; exact ⟨r, h⟩
  · obtain ⟨r, h, _⟩ := isSubset_sound fuel' a c ha hc hf'; exact ⟨r, h⟩

/-! ## C52: archives -/

/-- **C52.** `check_bytes` accepts exactly the trees that are valid and whose key components and values pass their own checks; no
hypothesis on the tree. -/
theorem C52_check_bytes (okK : K → Bool) (okV : V → Bool) (t : Tree K V) :
    checkBytes okK okV t = .ok () ↔ Valid t ∧ PartsOk okK okV t := checkBytes_iff t

/-- **C52.** On every accepted archive the reading operations agree: iteration yields exactly what `get` finds, in strictly ascending order. -/
theorem C52_accepted (okK : K → Bool) (okV : V → Bool) (t : Tree K V) (h : checkBytes okK okV t = .ok ()) :
    ∃ l : List (List K × V), Yields Iter.turn t.iter l ∧ l.Pairwise (fun x y => LexLt x.1 y.1) ∧
      (∀ k v, (k, v) ∈ l ↔ t.get k = .ret (some v)) ∧ ∀ k, ∃ b, t.containsKey k = .ret b ∧ (b = true ↔ ∃ v, (k, v) ∈ l) := by
  have hv := ((checkBytes_iff t).1 h).1
  obtain ⟨l, h1, h2, h3, _⟩ := C41_iter_values t hv
  refine ⟨l, h1, h2, fun k v => C41_iter_iff_get t hv l h1 k v, fun k => ⟨_, containsKey_eq hv k, ?_⟩⟩
  rw [← has_iff hv]
  simp only [h3, HasEntry]

/-- **C52.** Loading what was saved gives the same tree, and what was saved from a tree built with the public interface is accepted. -/
theorem C52_roundtrip (t : Tree K V) : t.archive.deserialize = t ∧
    (Reachable t → checkBytes (fun _ => true) (fun _ => true) t.archive = .ok ()) := by
  rw [archive_eq, deserialize_eq]
  refine ⟨rfl, fun h => (checkBytes_iff t).2 ⟨(C47_reachable_canonical t h).1, ?_⟩⟩
  refine induct (P := fun t => PartsOk (fun _ => true) (fun _ => true) t) ?_ t
  intro p v ks ih
  exact .mk (fun _ _ => rfl) (fun _ _ => rfl) ih

/-- **C52.** Validation does not guarantee canonical form, and there are accepted archives without entries for which `is_subset` of the empty
tree answers "no". -/
theorem C52_not_canonical :
    ∃ t : Tree Nat Unit, checkBytes (fun _ => true) (fun _ => true) t = .ok () ∧ ¬Canonical t ∧ (∀ k, ¬HasEntry t k) ∧
      isSubset t (empty : Tree Nat Unit) = .ret false := by
  have hc : checkBytes (fun _ => true) (fun _ => true) (⟨[], none, [⟨[1], none, []⟩]⟩ : Tree Nat Unit) = .ok () := rfl
  have hv := ((checkBytes_iff _).1 hc).1
  refine ⟨⟨[], none, [⟨[1], none, []⟩]⟩, hc, ?_, ?_, ?_⟩
  · rintro ⟨_, h | h⟩
    · cases h
    · cases h with
      | mk h _ => simp at h
  · intro k
    rintro ⟨v, h⟩
    cases h with
    | there hm h =>
      simp at hm
      subst hm
      cases h with
      | there hm' _ => cases hm'
  · decide +kernel

example : checkBytes (fun _ => true) (fun _ => true) demoB = .ok () := rfl

end
end Tree
end Verif
