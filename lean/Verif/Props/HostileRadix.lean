import Verif.Lemmas.HostileRadixShape
import Verif.Lemmas.HostileRadixNew
import Verif.Lemmas.HostileRadixAsk
import Verif.Lemmas.TreeEq
/-!
# C86: radix trees over key components whose `==` and `cmp` obey no law

The components of the keys of a radix tree have a user supplied `Ord` and `Eq`. The theorems of the first part assume nothing about them: they may
answer at random, remember earlier calls, contradict each other, and panic. Every operation still ends, there is no undefined behaviour, and the values of the
tree that is left behind (also by a panic) are values of the trees that went in, none of them twice. But the tree may then be one that panics for ever after
(`C86_finding_*`). In the second part `==` never denies what `cmp` called `Equal`; this is enough for every panic to be one of the user's code, for every tree to
stay usable after a panic, and for the shape (no superfluous nodes) of the results.
-/
namespace Verif
namespace Hostile
namespace Radix
variable {W K V X : Type}

theorem Headed.toIn {t : Tree K V} (h : Headed t) : In False t := Out.toIn ⟨h, False.elim⟩
theorem Tidy.toIn {t : Tree K V} (h : Tidy t) : In True t := Out.toIn ⟨h.1, fun _ => h.2⟩
theorem Out.tidy {t : Tree K V} (h : Out True t) : Tidy t := ⟨h.1, h.2 trivial⟩

theorem ends {mp : Prop} {J I : Tree K V → Prop} {r : (Tree K V × Outcome Bool) × W} {t : Tree K V} {res : Outcome Bool} (h : OkS mp J I r) (hs : NotStopped r)
    (e : r.1 = (t, res)) : (res = .ret true ∨ res = .panic) ∧ J t := by
  obtain ⟨h1, h2, -, -⟩ := h
  unfold NotStopped at hs
  rw [e] at h1 h2 hs
  refine ⟨?_, h1⟩
  cases res with
  | ret b => cases b with
    | true => exact .inl rfl
    | false => exact absurd rfl hs
  | panic => exact .inr rfl
  | fault => exact absurd rfl h2

/-! ## Anything goes -/

/-- **C86 (outer_combine_with, any keys).** It returns or panics; whatever it leaves behind consists of values of the two trees. -/
theorem C86_outer_combine_with (k : Keys W K) (sort : Sorter W (Tree K V)) (hsort : Rearranges sort) (f : Tree.MutFn V V) (hf : Chooses f)
    (a b : Tree K V) (w : W) (t : Tree K V) (res : Outcome Bool) (h : (outerCombineWith k sort a b f w).1 = (t, res)) :
    (res = .ret true ∨ res = .panic) ∧ Within (vals t) (vals a ++ vals b) :=
  ends (outerWithGo_lim hsort hf _ a b w (by omega)) (outerWithGo_notStopped _ _ _ _) h

/-- **C86 (insert, any keys).** -/
theorem C86_insert (k : Keys W K) (sort : Sorter W (Tree K V)) (hsort : Rearranges sort) (a : Tree K V) (key : List K) (v : V)
    (w : W) (t : Tree K V) (res : Outcome Bool) (h : (insert k sort a key v w).1 = (t, res)) :
    (res = .ret true ∨ res = .panic) ∧ Within (vals t) (vals a ++ [v]) := by
  have := C86_outer_combine_with k sort hsort _ (fun _ _ => .inr rfl) a (Tree.single key v) w t res h
  exact this

/-- **C86 (inner_combine_with, any keys).** -/
theorem C86_inner_combine_with (k : Keys W K) (f : Tree.MutFn V X) (hf : Keeps f) (a : Tree K V) (b : Tree K X) (w : W) (t : Tree K V)
    (res : Outcome Bool) (h : (innerCombineWith k a b f w).1 = (t, res)) :
    (res = .ret true ∨ res = .panic) ∧ Within (vals t) (vals a) :=
  ends (innerWithGo_lim hf _ a b w (by omega)) (innerWithGo_notStopped _ _ _ _) h

/-- **C86 (left_combine_with, any keys).** -/
theorem C86_left_combine_with (k : Keys W K) (f : Tree.MutFn V X) (hf : Keeps f) (a : Tree K V) (b : Tree K X) (w : W) (t : Tree K V)
    (res : Outcome Bool) (h : (leftCombineWith k a b f w).1 = (t, res)) :
    (res = .ret true ∨ res = .panic) ∧ Within (vals t) (vals a) :=
  ends (leftWithGo_lim hf _ a b w (by omega)) (leftWithGo_notStopped _ _ _ _) h

/-- **C86 (remove_prefix_with, any keys).** -/
theorem C86_remove_prefix_with (k : Keys W K) (f : X → Bool) (a : Tree K V) (b : Tree K X) (w : W) (t : Tree K V)
    (res : Outcome Bool) (h : (removePrefixWith k a b f w).1 = (t, res)) :
    (res = .ret true ∨ res = .panic) ∧ Within (vals t) (vals a) :=
  ends (removePrefixGo_lim _ a b w (by omega)) (removePrefixGo_notStopped _ _ _ _) h

/-- **C86 (retain_prefix_with, any keys).** -/
theorem C86_retain_prefix_with (k : Keys W K) (f : X → Bool) (a : Tree K V) (b : Tree K X) (w : W) (t : Tree K V)
    (res : Outcome Bool) (h : (retainPrefixWith k a b f w).1 = (t, res)) :
    (res = .ret true ∨ res = .panic) ∧ Within (vals t) (vals a) :=
  ends (retainPrefixGo_lim _ a b w (by omega)) (retainPrefixGo_notStopped _ _ _ _) h

theorem noNice (k : Keys W K) : Nice False False k := ⟨False.elim, False.elim⟩

/-- **C86 (combinations into a new tree, any keys).** They end without undefined behaviour, and consist of values of the trees that went in. -/
theorem C86_combine (k : Keys W K) (sort : Sorter W (Tree K V)) (hsort : Rearranges sort) (f : V → V → Option V) (hf : ChoosesNew f)
    (a b : Tree K V) (w : W) :
    (outerCombine k sort a b f w).1 ≠ .fault ∧ ∀ t, (outerCombine k sort a b f w).1 = .ret t → Within (vals t) (vals a ++ vals b) := by
  obtain ⟨h1, -, h3⟩ := outerGo_ok (b := False) (noNice k) hsort False.elim hf _ a b (Nat.lt_succ_self _) False.elim False.elim w
  exact ⟨h3, fun t ht => (h1 t ht).1⟩

/-- **C86 (inner_combine, left_combine, any keys).** -/
theorem C86_combine_keeping (k : Keys W K) (f : V → X → Option V) (hf : KeepsNew f) (g : V → Option X → Option V) (hg : KeepsNew g)
    (a : Tree K V) (b : Tree K X) (w : W) :
    ((innerCombine k a b f w).1 ≠ .fault ∧ ∀ t, (innerCombine k a b f w).1 = .ret t → Within (vals t) (vals a)) ∧
    ((leftCombine k a b g w).1 ≠ .fault ∧ ∀ t, (leftCombine k a b g w).1 = .ret t → Within (vals t) (vals a)) := by
  obtain ⟨h1, -, h3⟩ := innerGo_ok (b := False) (c := False) (noNice k) hf _ a b (Nat.lt_succ_self _) False.elim False.elim w
  obtain ⟨g1, -, g3⟩ := leftGo_ok (b := False) (c := False) (noNice k) hg _ a b (Nat.lt_succ_self _) False.elim False.elim w
  refine ⟨⟨h3, fun t ht => ?_⟩, g3, fun t ht => ?_⟩
  · have := (h1 t ht).1
    rwa [List.append_nil] at this
  · have := (g1 t ht).1
    rwa [List.append_nil] at this

/-- **C86 (questions, any keys).** The relations and lookups end without undefined behaviour; a value that `get` finds is stored in the tree. -/
theorem C86_questions (k : Keys W K) (a : Tree K V) (b : Tree K X) (key : List K) (w : W) :
    (isSubset k a b w).1 ≠ .fault ∧ (intersects k a b w).1 ≠ .fault ∧
    ((get k a key w).1 ≠ .fault ∧ ∀ v, (get k a key w).1 = .ret (some v) → v ∈ vals a) ∧
    ((filterPrefix k a key w).1 ≠ .fault ∧ ∀ t, (filterPrefix k a key w).1 = .ret t → Within (vals t) (vals a)) := by
  obtain ⟨-, -, h1⟩ := isSubsetGo_ok (nice := False) (bad := False) (k := k) False.elim _ a a.pre b b.pre (Nat.lt_succ_self _) False.elim False.elim w
  obtain ⟨-, -, h2⟩ := intersectsGo_ok (nice := False) (bad := False) (k := k) False.elim _ a a.pre b b.pre (Nat.lt_succ_self _) False.elim False.elim w
  obtain ⟨g1, -, g3⟩ := get_ok (nice := False) (bad := False) (k := k) False.elim a key False.elim w
  obtain ⟨f1, -, f3⟩ := filterPrefix_ok (nice := False) (bad := False) (b := False) (k := k) False.elim a key False.elim w
  exact ⟨h1, h2, ⟨g3, fun v hv => g1 _ hv v rfl⟩, f3, fun t ht => (f1 t ht).1⟩

/-! ## `==` does not deny what `cmp` calls `Equal` -/

/-- what remains true of a tree after a call of the user's code may have panicked -/
theorem shapes {mp : Prop} {H : Prop} {P Q : Prop} {r : (Tree K V × Outcome Bool) × W} {t : Tree K V} {res : Outcome Bool}
    (h1 : Res mp False H r) (h2 : P → Q → Res mp True H r) (e : r.1 = (t, res)) :
    Headed t ∧ (res = .panic → mp) ∧ (res = .ret true → P → Q → Tidy t) := by
  obtain ⟨a1, -, a3, -⟩ := h1
  rw [e] at a1 a3
  refine ⟨a1, a3, fun hr hp hq => ?_⟩
  obtain ⟨-, -, -, b4⟩ := h2 hp hq
  rw [e] at b4
  exact (b4 hr).1.tidy

/-- **C86 (outer_combine_with, consistent keys).** Every panic is one of the user's code, the tree stays usable even then, and results are tidy. -/
theorem C86_consistent_outer_combine_with (k : Keys W K) (hk : Consistent k) (sort : Sorter W (Tree K V)) (hsort : Rearranges sort) (f : Tree.MutFn V V)
    (a b : Tree K V) (ha : Headed a) (hb : Headed b) (w : W) (t : Tree K V) (res : Outcome Bool) (h : (outerCombineWith k sort a b f w).1 = (t, res)) :
    Headed t ∧ (res = .panic → KeysPanic k ∨ SortingPanics sort ∨ ∃ v w, (f v w).2 = .panic) ∧ (res = .ret true → Tidy a → Tidy b → Tidy t) :=
  shapes (outerWithGo_shape .inl hk hsort (fun h => .inr (.inl h)) (fun h => .inr (.inr h)) _ a b w (by omega) ha.toIn hb.toIn)
    (fun ha hb => outerWithGo_shape .inl hk hsort (fun h => .inr (.inl h)) (fun h => .inr (.inr h)) _ a b w (by omega) ha.toIn hb.toIn) h

theorem single_headed (key : List K) (v : V) : Headed (Tree.single key v) := .mk (fun _ h => (by cases h)) (fun _ h => (by cases h))
theorem single_tidy (key : List K) (v : V) : Tidy (Tree.single key v) := ⟨single_headed key v, .inr (.mk (fun h => by cases h) (fun _ h => (by cases h)))⟩

/-- **C86 (insert, consistent keys).** -/
theorem C86_consistent_insert (k : Keys W K) (hk : Consistent k) (sort : Sorter W (Tree K V)) (hsort : Rearranges sort)
    (a : Tree K V) (ha : Headed a) (key : List K) (v : V) (w : W) (t : Tree K V) (res : Outcome Bool) (h : (insert k sort a key v w).1 = (t, res)) :
    Headed t ∧ (res = .panic → KeysPanic k ∨ SortingPanics sort) ∧ (res = .ret true → Tidy a → Tidy t) := by
  obtain ⟨h1, h2, h3⟩ := C86_consistent_outer_combine_with k hk sort hsort _ a (Tree.single key v) ha (single_headed key v) w t res h
  refine ⟨h1, fun hp => ?_, fun hr ha => h3 hr ha (single_tidy key v)⟩
  rcases h2 hp with h | h | ⟨_, _, h⟩
  · exact .inl h
  · exact .inr h
  · cases h

/-- **C86 (inner_combine_with, consistent keys).** -/
theorem C86_consistent_inner_combine_with (k : Keys W K) (hk : Consistent k) (f : Tree.MutFn V X) (a : Tree K V) (b : Tree K X)
    (ha : Headed a) (hb : Headed b) (w : W) (t : Tree K V) (res : Outcome Bool) (h : (innerCombineWith k a b f w).1 = (t, res)) :
    Headed t ∧ (res = .panic → KeysPanic k ∨ ∃ v w, (f v w).2 = .panic) ∧ (res = .ret true → Tidy a → Tidy t) := by
  obtain ⟨h1, h2, h3⟩ := shapes (P := Tidy a) (Q := True) (mp := KeysPanic k ∨ ∃ v w, (f v w).2 = .panic) (innerWithGo_shape .inl hk .inr _ a b w (by omega) ha.toIn hb.toIn)
    (fun ha _ => innerWithGo_shape .inl hk .inr _ a b w (by omega) ha.toIn hb.toIn) h
  exact ⟨h1, h2, fun hr ha => h3 hr ha trivial⟩

/-- **C86 (left_combine_with, consistent keys).** -/
theorem C86_consistent_left_combine_with (k : Keys W K) (hk : Consistent k) (f : Tree.MutFn V X) (a : Tree K V) (b : Tree K X)
    (ha : Headed a) (hb : Headed b) (w : W) (t : Tree K V) (res : Outcome Bool) (h : (leftCombineWith k a b f w).1 = (t, res)) :
    Headed t ∧ (res = .panic → KeysPanic k ∨ ∃ v w, (f v w).2 = .panic) ∧ (res = .ret true → Tidy a → Tidy t) := by
  obtain ⟨h1, h2, h3⟩ := shapes (P := Tidy a) (Q := True) (mp := KeysPanic k ∨ ∃ v w, (f v w).2 = .panic) (leftWithGo_shape .inl hk .inr _ a b w (by omega) ha.toIn hb.toIn)
    (fun ha _ => leftWithGo_shape .inl hk .inr _ a b w (by omega) ha.toIn hb.toIn) h
  exact ⟨h1, h2, fun hr ha => h3 hr ha trivial⟩

/-- **C86 (remove_prefix_with and retain_prefix_with, consistent keys).** -/
theorem C86_consistent_prefix_with (k : Keys W K) (hk : Consistent k) (f : X → Bool) (a : Tree K V) (b : Tree K X)
    (ha : Headed a) (hb : Headed b) (w : W) (t : Tree K V) (res : Outcome Bool)
    (h : (removePrefixWith k a b f w).1 = (t, res) ∨ (retainPrefixWith k a b f w).1 = (t, res)) :
    Headed t ∧ (res = .panic → KeysPanic k) ∧ (res = .ret true → Tidy a → Tidy t) := by
  rcases h with h | h
  · obtain ⟨h1, h2, h3⟩ := shapes (P := Tidy a) (Q := True) (removePrefixGo_shape id hk _ a b w (by omega) ha.toIn hb.toIn)
      (fun ha _ => removePrefixGo_shape id hk _ a b w (by omega) ha.toIn hb.toIn) h
    exact ⟨h1, h2, fun hr ha => h3 hr ha trivial⟩
  · obtain ⟨h1, h2, h3⟩ := shapes (P := Tidy a) (Q := True) (retainPrefixGo_shape id hk _ a b w (by omega) ha.toIn hb.toIn)
      (fun ha _ => retainPrefixGo_shape id hk _ a b w (by omega) ha.toIn hb.toIn) h
    exact ⟨h1, h2, fun hr ha => h3 hr ha trivial⟩

/-- **C86 (outer_combine, consistent keys).** (The closure itself does not panic here.) -/
theorem C86_consistent_combine (k : Keys W K) (hk : Consistent k) (sort : Sorter W (Tree K V)) (hsort : Rearranges sort) (f : V → V → Option V)
    (hf : ChoosesNew f) (a b : Tree K V) (ha : Headed a) (hb : Headed b) (w : W) :
    ((outerCombine k sort a b f w).1 = .panic → KeysPanic k ∨ SortingPanics sort) ∧
    ∀ t, (outerCombine k sort a b f w).1 = .ret t → Headed t ∧ (Tidy a → Tidy b → Tidy t) := by
  have hn : Nice True (KeysPanic k ∨ SortingPanics sort) k := ⟨fun _ => .inl, fun _ => hk⟩
  obtain ⟨h1, h2, -⟩ := outerGo_ok (b := False) hn hsort (fun _ => .inr) hf _ a b (Nat.lt_succ_self _) (fun _ => ha.toIn) (fun _ => hb.toIn) w
  refine ⟨fun h => h2 h trivial, fun t ht => ⟨((h1 t ht).2 trivial).1.1, fun ha hb => ?_⟩⟩
  obtain ⟨g1, -, -⟩ := outerGo_ok (b := True) hn hsort (fun _ => .inr) hf _ a b (Nat.lt_succ_self _) (fun _ => ha.toIn) (fun _ => hb.toIn) w
  exact ((g1 t ht).2 trivial).1.tidy

/-- **C86 (inner_combine and left_combine, consistent keys).** -/
theorem C86_consistent_combine_keeping (k : Keys W K) (hk : Consistent k) (f : V → X → Option V) (hf : KeepsNew f) (g : V → Option X → Option V)
    (hg : KeepsNew g) (a : Tree K V) (b : Tree K X) (ha : Headed a) (hb : Headed b) (w : W) (r : Outcome (Tree K V))
    (h : (innerCombine k a b f w).1 = r ∨ (leftCombine k a b g w).1 = r) :
    (r = .panic → KeysPanic k) ∧ ∀ t, r = .ret t → Headed t ∧ (Tidy a → Tidy t) := by
  have hn : Nice True (KeysPanic k) k := ⟨fun _ => id, fun _ => hk⟩
  rcases h with h | h
  · obtain ⟨h1, h2, -⟩ := innerGo_ok (b := False) (c := False) hn hf _ a b (Nat.lt_succ_self _) (fun _ => ha.toIn) (fun _ => hb.toIn) w
    refine ⟨fun e => h2 (h.trans e) trivial, fun t ht => ⟨((h1 t (h.trans ht)).2 trivial).1.1, fun ha => ?_⟩⟩
    obtain ⟨g1, -, -⟩ := innerGo_ok (b := True) (c := False) hn hf _ a b (Nat.lt_succ_self _) (fun _ => ha.toIn) (fun _ => hb.toIn) w
    exact ((g1 t (h.trans ht)).2 trivial).1.tidy
  · obtain ⟨h1, h2, -⟩ := leftGo_ok (b := False) (c := False) hn hg _ a b (Nat.lt_succ_self _) (fun _ => ha.toIn) (fun _ => hb.toIn) w
    refine ⟨fun e => h2 (h.trans e) trivial, fun t ht => ⟨((h1 t (h.trans ht)).2 trivial).1.1, fun ha => ?_⟩⟩
    obtain ⟨g1, -, -⟩ := leftGo_ok (b := True) (c := False) hn hg _ a b (Nat.lt_succ_self _) (fun _ => ha.toIn) (fun _ => hb.toIn) w
    exact ((g1 t (h.trans ht)).2 trivial).1.tidy

/-- **C86 (questions to a usable tree, any keys).** The relations and lookups panic only if `==` or `cmp` does; here even the two need not be consistent. -/
theorem C86_questions_panics (k : Keys W K) (a : Tree K V) (b : Tree K X) (ha : Headed a) (hb : Headed b) (key : List K) (w : W) :
    ((isSubset k a b w).1 = .panic → KeysPanic k) ∧ ((intersects k a b w).1 = .panic → KeysPanic k) ∧
    ((get k a key w).1 = .panic → KeysPanic k) ∧
    ((filterPrefix k a key w).1 = .panic → KeysPanic k) ∧ ∀ t, (filterPrefix k a key w).1 = .ret t → Headed t ∧ (Tidy a → Tidy t) := by
  have hn : True → KeysPanic k → KeysPanic k := fun _ => id
  obtain ⟨-, h1, -⟩ := isSubsetGo_ok hn _ a a.pre b b.pre (Nat.lt_succ_self _) (fun _ => ha) (fun _ => hb) w
  obtain ⟨-, h2, -⟩ := intersectsGo_ok hn _ a a.pre b b.pre (Nat.lt_succ_self _) (fun _ => ha) (fun _ => hb) w
  obtain ⟨-, h3, -⟩ := get_ok hn a key (fun _ => ha) w
  obtain ⟨f1, h4, -⟩ := filterPrefix_ok (b := False) hn a key (fun _ => ⟨ha, False.elim⟩) w
  refine ⟨fun h => h1 h trivial, fun h => h2 h trivial, fun h => h3 h trivial, fun h => h4 h trivial, fun t ht => ⟨((f1 t ht).2 trivial).1, fun ha => ?_⟩⟩
  obtain ⟨g1, -, -⟩ := filterPrefix_ok (b := True) hn a key (fun _ => ⟨ha.1, fun _ => ha.2⟩) w
  exact ((g1 t ht).2 trivial).tidy

/-! ### Histories -/

/-- a `&mut self` call on a tree; other trees are arguments -/
inductive TreeCall (K V : Type) where
  | insert (key : List K) (v : V)
  | outer (b : Tree K V) (f : Tree.MutFn V V)
  | inner (b : Tree K V) (f : Tree.MutFn V V)
  | left (b : Tree K V) (f : Tree.MutFn V V)
  | removePrefix (b : Tree K V) (f : V → Bool)
  | retainPrefix (b : Tree K V) (f : V → Bool)

/-- the call, what it leaves behind and how it ends -/
def TreeCall.run (k : Keys W K) (sort : Sorter W (Tree K V)) (t : Tree K V) (w : W) : TreeCall K V → (Tree K V × Outcome Bool) × W
  | .insert key v => Radix.insert k sort t key v w
  | .outer b f => outerCombineWith k sort t b f w
  | .inner b f => innerCombineWith k t b f w
  | .left b f => leftCombineWith k t b f w
  | .removePrefix b f => removePrefixWith k t b f w
  | .retainPrefix b f => retainPrefixWith k t b f w

/-- the tree that is an argument of the call -/
def TreeCall.argument : TreeCall K V → Tree K V
  | .insert key v => Tree.single key v
  | .outer b _ | .inner b _ | .left b _ | .removePrefix b _ | .retainPrefix b _ => b

/-- the closure of the call panics at least sometimes -/
def TreeCall.ClosurePanics : TreeCall K V → Prop
  | .outer _ f | .inner _ f | .left _ f => ∃ v w, (f v w).2 = .panic
  | _ => False

/-- one call after the other; panics are caught, and the tree is used on -/
def runCalls (k : Keys W K) (sort : Sorter W (Tree K V)) : List (TreeCall K V) → Tree K V → W → Tree K V × W
  | [], t, w => (t, w)
  | c :: cs, t, w => runCalls k sort cs (c.run k sort t w).1.1 (c.run k sort t w).2

theorem run_headed (k : Keys W K) (hk : Consistent k) (sort : Sorter W (Tree K V)) (hsort : Rearranges sort) (c : TreeCall K V) (hc : Headed c.argument)
    (t : Tree K V) (ht : Headed t) (w : W) :
    Headed (c.run k sort t w).1.1 ∧ ((c.run k sort t w).1.2 = .panic → KeysPanic k ∨ SortingPanics sort ∨ c.ClosurePanics) := by
  cases c with
  | insert key v =>
    obtain ⟨h1, h2, -⟩ := C86_consistent_insert k hk sort hsort t ht key v w _ _ rfl
    exact ⟨h1, fun h => (h2 h).elim .inl fun h => .inr (.inl h)⟩
  | outer b f =>
    obtain ⟨h1, h2, -⟩ := C86_consistent_outer_combine_with k hk sort hsort f t b ht hc w _ _ rfl
    exact ⟨h1, h2⟩
  | inner b f =>
    obtain ⟨h1, h2, -⟩ := C86_consistent_inner_combine_with k hk f t b ht hc w _ _ rfl
    exact ⟨h1, fun h => (h2 h).elim .inl fun h => .inr (.inr h)⟩
  | left b f =>
    obtain ⟨h1, h2, -⟩ := C86_consistent_left_combine_with k hk f t b ht hc w _ _ rfl
    exact ⟨h1, fun h => (h2 h).elim .inl fun h => .inr (.inr h)⟩
  | removePrefix b f =>
    obtain ⟨h1, h2, -⟩ := C86_consistent_prefix_with k hk f t b ht hc w _ _ (.inl rfl)
    exact ⟨h1, fun h => .inl (h2 h)⟩
  | retainPrefix b f =>
    obtain ⟨h1, h2, -⟩ := C86_consistent_prefix_with k hk f t b ht hc w _ _ (.inr rfl)
    exact ⟨h1, fun h => .inl (h2 h)⟩

/-- **C86 (histories).** After any calls, of which any may have panicked and been caught, the next call still panics only if the user's code does. -/
theorem C86_consistent_history (k : Keys W K) (hk : Consistent k) (sort : Sorter W (Tree K V)) (hsort : Rearranges sort) (cs : List (TreeCall K V))
    (hcs : ∀ c ∈ cs, Headed c.argument) (t : Tree K V) (ht : Headed t) (w : W) (c : TreeCall K V) (hc : Headed c.argument) :
    Headed (runCalls k sort cs t w).1 ∧
    ((c.run k sort (runCalls k sort cs t w).1 (runCalls k sort cs t w).2).1.2 = .panic → KeysPanic k ∨ SortingPanics sort ∨ c.ClosurePanics) := by
  induction cs generalizing t w with
  | nil => exact ⟨ht, (run_headed k hk sort hsort c hc t ht w).2⟩
  | cons c' cs ih =>
    exact ih (fun c h => hcs c (.tail _ h)) _ (run_headed k hk sort hsort c' (hcs c' (.head _)) t ht w).1 _

/-! ### Examples, and what happens to keys that are not consistent -/
section examples

/-- components that compare by the last digit, but are equal only if all digits are -/
def digits : Keys Nat Nat := ⟨fun x y n => (.ret (x == y), n + 1), fun x y n => (.ret (compare (x % 10) (y % 10)), n + 1)⟩
/-- the order and equality of numbers with a fuse -/
def fuse : Keys Nat Nat where
  eq x y n := match n with
    | 0 => (.panic, 0)
    | n + 1 => (.ret (x == y), n)
  cmp x y n := match n with
    | 0 => (.panic, 0)
    | n + 1 => (.ret (compare x y), n)
/-- answers at random -/
def random : Keys Nat Nat := ⟨fun _ _ n => (.ret (n % 2 == 0), n + 1), fun _ _ n => (.ret (if n % 3 = 0 then .lt else if n % 3 = 1 then .gt else .eq), n + 1)⟩
/-- a sort that leaves everything as it is -/
def lazySort : Sorter Nat (Tree Nat Nat) := fun l n => ((l, .ret ()), n)

theorem lazySort_rearranges : Rearranges lazySort := fun l _ => List.Perm.refl l
theorem fuse_consistent : Consistent fuse := by
  refine ⟨fun x y => x = y, fun x y w h => ?_, fun x y w b h e => ?_⟩
  · cases w with
    | zero => cases h
    | succ n => exact Std.LawfulEqOrd.eq_of_compare (by injection h)
  · cases w with
    | zero => cases e
    | succ n => cases e; simpa using h
example : KeysPanic fuse := .inl ⟨0, 0, 0, rfl⟩
theorem digits_inconsistent : ¬ Consistent digits := by
  rintro ⟨same, h1, h2⟩
  have := h2 1 11 0 false (h1 1 11 0 rfl) rfl
  cases this
theorem digits_no_panic : ¬ KeysPanic digits := by
  rintro (⟨x, y, w, h⟩ | ⟨x, y, w, h⟩) <;> cases h

/-- a tree with the keys 1 and 2 -/
def two : Tree Nat Nat := ⟨[], none, [Tree.single [1] 100, Tree.single [2] 200]⟩
example : Tidy two := by
  refine ⟨.mk ?_ ?_, .inr (.mk (fun _ => Nat.le_refl 2) ?_)⟩ <;> intro c hc <;> rcases List.mem_cons.1 hc with rfl | hc
  · simp [Tree.single]
  · rcases List.mem_cons.1 hc with rfl | hc
    · simp [Tree.single]
    · cases hc
  · exact single_headed _ _
  · rcases List.mem_cons.1 hc with rfl | hc
    · exact single_headed _ _
    · cases hc
  · exact .mk (fun h => by cases h) (fun _ h => (by cases h))
  · rcases List.mem_cons.1 hc with rfl | hc
    · exact .mk (fun h => by cases h) (fun _ h => (by cases h))
    · cases hc

/-- **C86 (finding).** With keys whose `cmp` says `Equal` where `==` says `false` (and which never panic), inserting one key into a good tree returns a tree one of
whose children has an empty prefix; … -/
theorem C86_finding_bad_tree : (insert digits lazySort two [11] 0 0).1 =
    (⟨[], none, [⟨[], none, [Tree.single [1] 100, Tree.single [11] 0]⟩, Tree.single [2] 200]⟩, .ret true) := by decide +kernel

/-- … and from then on the tree panics with an index out of bounds, although the keys do not: here the lookup of a key that is in the tree. -/
theorem C86_finding_bad_tree_panics :
    ∃ t, (insert digits lazySort two [11] 0 0).1 = (t, .ret true) ∧ (∀ n, (get digits t [1] n).1 = .panic) ∧ ¬ KeysPanic digits := by
  refine ⟨_, C86_finding_bad_tree, fun n => ?_, digits_no_panic⟩
  have e : compare 2 1 = Ordering.gt := rfl
  simp [e, get, find, findGo, commonPrefix, Tree.commonPrefixM, Tree.size, binarySearchBy, bsLoop, childCmp, getUnchecked, bind, pure, M.panic, Tree.single, call, digits]

/-- the fuse burns down in the middle: the tree loses children, but stays usable -/
example : (insert fuse lazySort two [2, 5] 0 1).1 = (⟨[], none, [Tree.single [1] 100]⟩, .panic) := by decide +kernel
example : (insert fuse lazySort two [2, 5] 0 9).1 =
    (⟨[], none, [Tree.single [1] 100, ⟨[2], some 200, [Tree.single [5] 0]⟩]⟩, .ret true) := by decide +kernel
/-- random answers -/
example : (insert random lazySort two [2] 0 0).1 = (⟨[], none, [Tree.single [1] 100, Tree.single [2] 200, Tree.single [2] 0]⟩, .ret true) := by decide +kernel
example : (runCalls fuse lazySort [.insert [2, 5] 0, .insert [3] 7] two 1).1 = ⟨[], none, []⟩ := by decide +kernel

end examples
end Radix
end Hostile
end Verif
