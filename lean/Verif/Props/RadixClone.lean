import Verif.Lemmas.RadixCloneEnd
import Verif.Props.RadixEffects
/-!
# C89: the in-place combinations of radix trees when `clone` of a value panics or returns something else

`clone` may have side effects, panic, and return anything; whether a vector of children is shared with another tree (`ArcRadixTree`) and must be
copied is up to an arbitrary answer. The closures are arbitrary too.
-/
namespace Verif
namespace Tree
open Std

variable {K V W S R : Type} [Ord K] [TransOrd K] [LawfulEqOrd K] [DecidableEq K]

/-- the values of the other tree that a combination gets to see -/
theorem seenOf_closed (e : Clones S V W) (a : Tree K V) (b : Tree K W) (calls : V → W → V → Prop) (copies : W → V → Prop) :
    Closed e (Made e a b calls copies) fun k w => ∃ w0, Entry b k w0 ∧ CloneOf e.other w0 w :=
  ⟨fun _ _ _ _ _ h hc => .cloned _ _ _ _ _ h hc, fun _ _ _ _ _ ⟨w0, h1, h2⟩ hc => ⟨w0, h1, .clone _ _ _ _ _ h2 hc⟩⟩

theorem seenOf_fn {f : MutFnE S V W} (e : Clones S V W) (a : Tree K V) (b : Tree K W) (copies : W → V → Prop) :
    FnOk f (Made e a b (fun v w v' => ∃ s, v' = (f v w s).1) copies) fun k w => ∃ w0, Entry b k w0 ∧ CloneOf e.other w0 w :=
  fun _ _ _ s h ⟨_, h1, h2⟩ => .called _ _ _ _ _ h h1 h2 ⟨s, rfl⟩

/-- **C89 (outer_combine_with, and so union_with and insert, any clone).** Whatever `clone` and the closure do, also after a panic: the tree is valid
again, and each entry is made from what the two trees had under the same key. -/
theorem C89_outer_any_clone (a b : Tree K V) (ha : Valid a) (hb : Valid b) (e : Clones S V V) (f : MutFnE S V V) (s : S) :
    Valid (a.outerCombineWithCl b e f s).1.1 ∧ ∀ k v, Entry (a.outerCombineWithCl b e f s).1.1 k v →
      Made e a b (fun v w v' => ∃ s, v' = (f v w s).1) (fun w v => ∃ s s', e.other w s = (.ret v, s')) k v := by
  have h := outerWithGoC_left (e := e) f (a.size + b.size + 1) _ _ (seenOf_closed e a b (fun v w v' => ∃ s, v' = (f v w s).1)
    fun w v => ∃ s s', e.other w s = (.ret v, s')) (fun k w s w' s' ⟨w0, h1, h2⟩ hc => .copied _ _ _ _ h1 h2 ⟨s, s', hc⟩) (seenOf_fn e a b _)
    a b s ha hb (fun k v h => .kept k v h) fun k w h => ⟨w, h, .self w⟩
  exact ⟨h.valid, h.ent⟩

/-- **C89 (inner_combine_with, and so intersection_with, any clone).** The same; nothing is taken over from the other tree. -/
theorem C89_inner_any_clone (a : Tree K V) (b : Tree K W) (ha : Valid a) (hb : Valid b) (e : Clones S V W) (f : MutFnE S V W) (s : S) :
    Valid (a.innerCombineWithCl b e f s).1.1 ∧ ∀ k v, Entry (a.innerCombineWithCl b e f s).1.1 k v →
      Made e a b (fun v w v' => ∃ s, v' = (f v w s).1) (fun _ _ => False) k v := by
  have h := innerWithGoC_left (e := e) f (a.size + b.size + 1) _ _ (seenOf_closed e a b (fun v w v' => ∃ s, v' = (f v w s).1)
    fun _ _ => False) (seenOf_fn e a b _) a b s ha hb (fun k v h => .kept k v h) fun k w h => ⟨w, h, .self w⟩
  exact ⟨h.valid, h.ent⟩

/-- **C89 (left_combine_with, and so difference_with, any clone).** -/
theorem C89_left_any_clone (a : Tree K V) (b : Tree K W) (ha : Valid a) (hb : Valid b) (e : Clones S V W) (f : MutFnE S V W) (s : S) :
    Valid (a.leftCombineWithCl b e f s).1.1 ∧ ∀ k v, Entry (a.leftCombineWithCl b e f s).1.1 k v →
      Made e a b (fun v w v' => ∃ s, v' = (f v w s).1) (fun _ _ => False) k v := by
  have h := leftWithGoC_left (e := e) f (a.size + b.size + 1) _ _ (seenOf_closed e a b (fun v w v' => ∃ s, v' = (f v w s).1)
    fun _ _ => False) (seenOf_fn e a b _) a b s ha hb (fun k v h => .kept k v h) fun k w h => ⟨w, h, .self w⟩
  exact ⟨h.valid, h.ent⟩

/-- **C89 (remove_prefix_with, any clone).** Each entry has the value the tree had under the key, or a clone of it. -/
theorem C89_remove_prefix_any_clone (a : Tree K V) (b : Tree K W) (ha : Valid a) (hb : Valid b) (e : Clones S V W) (f : PredE S W) (s : S) :
    Valid (a.removePrefixWithCl b e f s).1.1 ∧ ∀ k v, Entry (a.removePrefixWithCl b e f s).1.1 k v → ∃ v0, Entry a k v0 ∧ CloneOf e.own v0 v := by
  have h := removePrefixGoC_left (e := e) f (a.size + b.size + 1) (fun k v => ∃ v0, Entry a k v0 ∧ CloneOf e.own v0 v) (fun _ _ => True)
    ⟨fun k v s v' s' ⟨v0, h1, h2⟩ hc => ⟨v0, h1, .clone _ _ _ _ _ h2 hc⟩, fun _ _ _ _ _ _ _ => trivial⟩ a b s ha hb
    (fun k v h => ⟨v, h, .self v⟩) fun _ _ _ => trivial
  exact ⟨h.valid, h.ent⟩

/-- **C89 (retain_prefix_with, any clone).** -/
theorem C89_retain_prefix_any_clone (a : Tree K V) (b : Tree K W) (ha : Valid a) (hb : Valid b) (e : Clones S V W) (f : PredE S W) (s : S) :
    Valid (a.retainPrefixWithCl b e f s).1.1 ∧ ∀ k v, Entry (a.retainPrefixWithCl b e f s).1.1 k v → ∃ v0, Entry a k v0 ∧ CloneOf e.own v0 v := by
  have h := retainPrefixGoC_left (e := e) f (a.size + b.size + 1) (fun k v => ∃ v0, Entry a k v0 ∧ CloneOf e.own v0 v) (fun _ _ => True)
    ⟨fun k v s v' s' ⟨v0, h1, h2⟩ hc => ⟨v0, h1, .clone _ _ _ _ _ h2 hc⟩, fun _ _ _ _ _ _ _ => trivial⟩ a b s ha hb
    (fun k v h => ⟨v, h, .self v⟩) fun _ _ _ => trivial
  exact ⟨h.valid, h.ent⟩

/-- **C89 (insert, any clone).** Each entry has the value the tree had under the key or a clone of it, or the key is the new one and the value comes
from the new value by at least one clone. -/
theorem C89_insert_any_clone (a : Tree K V) (ha : Valid a) (key : List K) (v : V) (e : Clones S V V) (s : S) :
    Valid (a.insertCl key v e s).1.1 ∧ ∀ k x, Entry (a.insertCl key v e s).1.1 k x →
      (∃ v0, Entry a k v0 ∧ CloneOf e.own v0 x) ∨ (k = key ∧ ∃ w w' s s', CloneOf e.other v w ∧ e.other w s = (.ret w', s') ∧ CloneOf e.own w' x) := by
  have h := outerWithGoC_left (e := e) (fun a b s => match e.other b s with | (.panic, s) => (a, .panic, s) | (.ret b, s) => (b, .ret true, s))
    (a.size + (single key v : Tree K V).size + 1)
    (fun k x => (∃ v0, Entry a k v0 ∧ CloneOf e.own v0 x) ∨
      (k = key ∧ ∃ w w' s s', CloneOf e.other v w ∧ e.other w s = (.ret w', s') ∧ CloneOf e.own w' x))
    (fun k w => k = key ∧ CloneOf e.other v w) ⟨?_, ?_⟩ ?_ ?_ a (single key v) s ha (valid_iff.2 Kids.nil) ?_ ?_
  · exact ⟨h.valid, h.ent⟩
  · rintro k x s x' s' (⟨v0, h1, h2⟩ | ⟨h0, w, w', s1, s1', h1, h2, h3⟩) hc
    · exact .inl ⟨v0, h1, .clone _ _ _ _ _ h2 hc⟩
    · exact .inr ⟨h0, w, w', s1, s1', h1, h2, .clone _ _ _ _ _ h3 hc⟩
  · rintro k w s w' s' ⟨h1, h2⟩ hc
    exact ⟨h1, .clone _ _ _ _ _ h2 hc⟩
  · rintro k w s w' s' ⟨h1, h2⟩ hc
    exact .inr ⟨h1, w, w', s, s', h2, hc, .self _⟩
  · rintro k x w s hx ⟨h1, h2⟩
    rcases hc : e.other w s with ⟨w' | _, s'⟩
    · simp only [hc]; exact .inr ⟨h1, w, w', s, s', h2, hc, .self _⟩
    · simp only [hc]; exact hx
  · exact fun k x hx => .inl ⟨x, hx, .self x⟩
  · intro k x hx
    rw [entry_self (single key v), entry_node_iff] at hx
    rcases hx with ⟨h1, h2⟩ | ⟨c, hc, _⟩
    · simp only [single, Option.some.injEq] at h1 h2
      exact ⟨h1, h2 ▸ .self _⟩
    · simp [single] at hc

/-- **C89 (outer_combine_with, honest clone).** If `clone` returns equal values as long as it returns, then the run is the one with ideal clones, whose
calls and result C82 describes; or a clone panicked, and the tree is valid and holds what `CutOff` says. -/
theorem C89_outer_honest_clone (a b : Tree K V) (ha : Valid a) (hb : Valid b) (seen : S → R) (e : Clones S V V) (he : HonestClones seen e)
    (f : MutFnE S V V) (g : MutFnE R V V) (hf : WorksAs seen f g) (s : S) :
    ((a.outerCombineWithCl b e f s).1.1 = (a.outerCombineWithE b g (seen s)).1.1 ∧
      seen (a.outerCombineWithCl b e f s).1.2 = (a.outerCombineWithE b g (seen s)).1.2 ∧
      (a.outerCombineWithCl b e f s).2 = (a.outerCombineWithE b g (seen s)).2) ∨
    (ClonePanics e ∧ (a.outerCombineWithCl b e f s).2 = .panic ∧ Valid (a.outerCombineWithCl b e f s).1.1 ∧
      CutOff a (Entry (a.outerCombineWithE b g (seen s)).1.1) (a.outerCombineWithCl b e f s).1.1) :=
  outer_ends ha hb (faithful_of_honest he) (fnSim_of_worksAs hf) s

/-- **C89 (inner_combine_with, honest clone).** -/
theorem C89_inner_honest_clone (a : Tree K V) (b : Tree K W) (ha : Valid a) (hb : Valid b) (seen : S → R) (e : Clones S V W) (he : HonestClones seen e)
    (f : MutFnE S V W) (g : MutFnE R V W) (hf : WorksAs seen f g) (s : S) :
    ((a.innerCombineWithCl b e f s).1.1 = (a.innerCombineWithE b g (seen s)).1.1 ∧
      seen (a.innerCombineWithCl b e f s).1.2 = (a.innerCombineWithE b g (seen s)).1.2 ∧
      (a.innerCombineWithCl b e f s).2 = (a.innerCombineWithE b g (seen s)).2) ∨
    (ClonePanics e ∧ (a.innerCombineWithCl b e f s).2 = .panic ∧ Valid (a.innerCombineWithCl b e f s).1.1 ∧
      CutOff a (Entry (a.innerCombineWithE b g (seen s)).1.1) (a.innerCombineWithCl b e f s).1.1) :=
  inner_ends ha hb (faithful_of_honest he) (fnSim_of_worksAs hf) s

/-- **C89 (left_combine_with, honest clone).** -/
theorem C89_left_honest_clone (a : Tree K V) (b : Tree K W) (ha : Valid a) (hb : Valid b) (seen : S → R) (e : Clones S V W) (he : HonestClones seen e)
    (f : MutFnE S V W) (g : MutFnE R V W) (hf : WorksAs seen f g) (s : S) :
    ((a.leftCombineWithCl b e f s).1.1 = (a.leftCombineWithE b g (seen s)).1.1 ∧
      seen (a.leftCombineWithCl b e f s).1.2 = (a.leftCombineWithE b g (seen s)).1.2 ∧
      (a.leftCombineWithCl b e f s).2 = (a.leftCombineWithE b g (seen s)).2) ∨
    (ClonePanics e ∧ (a.leftCombineWithCl b e f s).2 = .panic ∧ Valid (a.leftCombineWithCl b e f s).1.1 ∧
      CutOff a (Entry (a.leftCombineWithE b g (seen s)).1.1) (a.leftCombineWithCl b e f s).1.1) :=
  left_ends ha hb (faithful_of_honest he) (fnSim_of_worksAs hf) s

/-- **C89 (remove_prefix_with, honest clone).** The run with ideal clones is described by C84. -/
theorem C89_remove_prefix_honest_clone (a : Tree K V) (b : Tree K W) (ha : Valid a) (hb : Valid b) (seen : S → R) (e : Clones S V W)
    (he : HonestClones seen e) (f : PredE S W) (g : PredE R W) (hf : AnswersAs seen f g) (s : S) :
    ((a.removePrefixWithCl b e f s).1.1 = (a.removePrefixWithE b g (seen s)).1.1 ∧
      seen (a.removePrefixWithCl b e f s).1.2 = (a.removePrefixWithE b g (seen s)).1.2 ∧
      (a.removePrefixWithCl b e f s).2 = (a.removePrefixWithE b g (seen s)).2) ∨
    (ClonePanics e ∧ (a.removePrefixWithCl b e f s).2 = .panic ∧ Valid (a.removePrefixWithCl b e f s).1.1 ∧
      CutOff a (Entry (a.removePrefixWithE b g (seen s)).1.1) (a.removePrefixWithCl b e f s).1.1) :=
  remove_ends ha hb (faithful_of_honest he) hf s

/-- **C89 (retain_prefix_with, honest clone).** -/
theorem C89_retain_prefix_honest_clone (a : Tree K V) (b : Tree K W) (ha : Valid a) (hb : Valid b) (seen : S → R) (e : Clones S V W)
    (he : HonestClones seen e) (f : PredE S W) (g : PredE R W) (hf : AnswersAs seen f g) (s : S) :
    ((a.retainPrefixWithCl b e f s).1.1 = (a.retainPrefixWithE b g (seen s)).1.1 ∧
      seen (a.retainPrefixWithCl b e f s).1.2 = (a.retainPrefixWithE b g (seen s)).1.2 ∧
      (a.retainPrefixWithCl b e f s).2 = (a.retainPrefixWithE b g (seen s)).2) ∨
    (ClonePanics e ∧ (a.retainPrefixWithCl b e f s).2 = .panic ∧ Valid (a.retainPrefixWithCl b e f s).1.1 ∧
      CutOff a (Entry (a.retainPrefixWithE b g (seen s)).1.1) (a.retainPrefixWithCl b e f s).1.1) :=
  retain_ends ha hb (faithful_of_honest he) hf s

/-- the result of an outer combination with a closure that just computes -/
theorem outer_pure (a b : Tree K V) (ha : Valid a) (hb : Valid b) (h : V → V → V) :
    (a.outerCombineWithE b (fun v w s => (h v w, .ret true, s)) ()).2 = .cont ∧
    ∀ k x, Entry (a.outerCombineWithE b (fun v w s => (h v w, .ret true, s)) ()).1.1 k x ↔
      (∃ v w, Entry a k v ∧ Entry b k w ∧ x = h v w) ∨ (Entry a k x ∧ ¬ HasEntry b k) ∨ (Entry b k x ∧ ¬ HasEntry a k) := by
  obtain ⟨args, ⟨_, h1⟩, h2⟩ := C82_outer_combine_with a b ha hb (fun v w s => (h v w, .ret true, s)) ()
  have hf : ∀ l : List (List K × V × V), fillEach (fun x s => keptSlot ((fun v w (s : Unit) => (h v w, Call.ret true, s)) x.2.1 x.2.2 s)) l () =
      (l.map fun x => (x, some (h x.2.1 x.2.2)), (), false) := by
    intro l
    induction l with
    | nil => rfl
    | cons x l ih => simp only [keptSlot] at ih ⊢; simp [fillEach, ih]
  obtain ⟨_, r2, _, r4, _⟩ := h2 _ _ _ (hf args)
  refine ⟨r2, fun k x => ?_⟩
  rw [(r4 rfl).1 k x, OuterAfter]
  refine or_congr ?_ Iff.rfl
  constructor
  · rintro ⟨y, hy⟩
    obtain ⟨z, hz, e⟩ := List.mem_map.1 hy
    simp only [Prod.mk.injEq, Option.some.injEq] at e
    have hc := (h1 z).1 hz
    obtain ⟨rfl, e2⟩ := e
    exact ⟨_, _, hc.1, hc.2, e2.symm⟩
  · rintro ⟨v, w, h3, h4, rfl⟩
    exact ⟨(v, w), List.mem_map.2 ⟨(k, v, w), (h1 _).2 ⟨h3, h4⟩, rfl⟩⟩

/-- **C89 (insert, honest clone).** The entry is inserted; or a clone panicked, the tree is valid and holds what `CutOff` says. -/
theorem C89_insert_honest_clone (a : Tree K V) (ha : Valid a) (key : List K) (v : V) (e : Clones S V V) (he : HonestClones (fun _ => ()) e) (s : S) :
    ((a.insertCl key v e s).2 = .cont ∧ Valid (a.insertCl key v e s).1.1 ∧
      ∀ k x, Entry (a.insertCl key v e s).1.1 k x ↔ (k = key ∧ x = v) ∨ (k ≠ key ∧ Entry a k x)) ∨
    (ClonePanics e ∧ (a.insertCl key v e s).2 = .panic ∧ Valid (a.insertCl key v e s).1.1 ∧
      CutOff a (fun k x => (k = key ∧ x = v) ∨ (k ≠ key ∧ Entry a k x)) (a.insertCl key v e s).1.1) := by
  have hb : Valid (single key v : Tree K V) := valid_iff.2 Kids.nil
  have hs : ∀ k x, Entry (single key v) k x ↔ k = key ∧ x = v := by
    intro k x
    rw [entry_self (single key v), entry_node_iff]
    simp [single, eq_comm]
  have hf : FnSim (fun _ : S => ()) (ClonePanics e)
      (fun a b s => match e.other b s with | (.panic, s) => (a, .panic, s) | (.ret b, s) => (b, .ret true, s))
      (fun _ w s => (w, .ret true, s)) := by
    intro x w s
    have := (he.other w s).1
    rcases hc : e.other w s with ⟨w' | _, s'⟩
    · rw [hc] at this
      rcases this with h | h
      · simp only [Call.ret.injEq] at h; exact .inl (by simp [hc, h])
      · cases h
    · exact .inr ⟨by simp [hc], by simp [hc], .inr ⟨w, s, by rw [hc]⟩⟩
  obtain ⟨p1, p2⟩ := outer_pure a (single key v) ha hb (fun _ w => w)
  have p3 : ∀ k x, Entry (a.outerCombineWithE (single key v) (fun v w s => ((fun _ w => w) v w, .ret true, s)) ()).1.1 k x ↔
      (k = key ∧ x = v) ∨ (k ≠ key ∧ Entry a k x) := by
    intro k x
    rw [p2]
    simp only [hs, HasEntry]
    constructor
    · rintro (⟨_, w, _, ⟨h1, h2⟩, rfl⟩ | ⟨h1, h2⟩ | ⟨h1, _⟩)
      · exact .inl ⟨h1, h2⟩
      · exact .inr ⟨fun h => h2 ⟨v, h, rfl⟩, h1⟩
      · exact .inl h1
    · rintro (⟨rfl, rfl⟩ | ⟨h1, h2⟩)
      · by_cases h : ∃ y, Entry a k y
        · obtain ⟨y, hy⟩ := h
          exact .inl ⟨y, x, hy, ⟨rfl, rfl⟩, rfl⟩
        · exact .inr (.inr ⟨⟨rfl, rfl⟩, h⟩)
      · exact .inr (.inl ⟨h2, fun ⟨_, h, _⟩ => h1 h⟩)
  rcases outer_ends (S0 := Unit) ha hb (faithful_of_honest he) hf s with ⟨h1, _, h3⟩ | ⟨h1, h2, h3, h4⟩
  · left
    refine ⟨h3.trans p1, (C89_insert_any_clone a ha key v e s).1, fun k x => ?_⟩
    rw [← p3]
    exact iff_of_eq (congrArg (fun t => Entry t k x) h1)
  · exact .inr ⟨h1, h2, h3, cutShort_congr h4 p3⟩

/-- **C89 (union_with, honest clone).** -/
theorem C89_union_with_honest_clone (a b : Tree K V) (ha : Valid a) (hb : Valid b) (e : Clones S V V) (he : HonestClones (fun _ => ()) e) (s : S) :
    ((a.unionWithCl b e s).2 = .cont ∧ Valid (a.unionWithCl b e s).1.1 ∧
      ∀ k x, Entry (a.unionWithCl b e s).1.1 k x ↔ Entry a k x ∨ (Entry b k x ∧ ¬ HasEntry a k)) ∨
    (ClonePanics e ∧ (a.unionWithCl b e s).2 = .panic ∧ Valid (a.unionWithCl b e s).1.1 ∧
      CutOff a (fun k x => Entry a k x ∨ (Entry b k x ∧ ¬ HasEntry a k)) (a.unionWithCl b e s).1.1) := by
  have hf : FnSim (fun _ : S => ()) (ClonePanics e) (fun (v : V) (_ : V) (s : S) => (v, Call.ret true, s)) (fun v _ s => (v, .ret true, s)) :=
    fun _ _ _ => .inl rfl
  obtain ⟨p1, p2⟩ := outer_pure a b ha hb (fun v _ => v)
  have p3 : ∀ k x, Entry (a.outerCombineWithE b (fun v w s => ((fun v _ => v) v w, .ret true, s)) ()).1.1 k x ↔
      Entry a k x ∨ (Entry b k x ∧ ¬ HasEntry a k) := by
    intro k x
    rw [p2]
    constructor
    · rintro (⟨_, w, h1, _, rfl⟩ | ⟨h1, _⟩ | h)
      · exact .inl h1
      · exact .inl h1
      · exact .inr h
    · rintro (h1 | h)
      · by_cases h : HasEntry b k
        · obtain ⟨y, hy⟩ := h
          exact .inl ⟨x, y, h1, hy, rfl⟩
        · exact .inr (.inl ⟨h1, h⟩)
      · exact .inr (.inr h)
  rcases outer_ends (S0 := Unit) ha hb (faithful_of_honest he) hf s with ⟨h1, _, h3⟩ | ⟨h1, h2, h3, h4⟩
  · left
    refine ⟨h3.trans p1, (C89_outer_any_clone a b ha hb e _ s).1, fun k x => ?_⟩
    rw [← p3]
    exact iff_of_eq (congrArg (fun t => Entry t k x) h1)
  · exact .inr ⟨h1, h2, h3, cutShort_congr h4 p3⟩

/-! ## Concrete cases -/

/-- `clone` counts its calls; call number `stop` panics. Vectors of children are shared if `arc`. -/
def countingClones (arc : Bool) (stop : Nat) : Clones Nat Nat Nat where
  own v n := (if n = stop then .panic else .ret v, n + 1)
  other v n := (if n = stop then .panic else .ret v, n + 1)
  shared n := (arc, n)

theorem counting_honest (arc : Bool) (stop : Nat) : HonestClones (fun _ => ()) (countingClones arc stop) := by
  refine ⟨fun v s => ⟨?_, rfl⟩, fun v s => ⟨?_, rfl⟩, fun _ => rfl⟩ <;>
  · simp only [countingClones]; split <;> simp

/-- the fourth tree of the examples: entries `[1,0] ↦ 7`, `[1,3] ↦ 8`, `[1,5] ↦ 9`, `[1,6] ↦ 10` -/
def cloneDemo : Tree Nat Nat := ⟨[1], none, [⟨[0], some 7, []⟩, ⟨[3], some 8, []⟩, ⟨[5], some 9, []⟩, ⟨[6], some 10, []⟩]⟩

/-- no panic: three values of the other tree are cloned -/
example : (effDemo.unionWithCl cloneDemo (countingClones false 3) 0) =
    ((⟨[1], none, [⟨[0], some 7, []⟩, ⟨[2], some 20, []⟩, ⟨[3], some 30, []⟩, ⟨[4], some 40, []⟩, ⟨[5], some 9, []⟩, ⟨[6], some 10, []⟩]⟩, 3), .cont) :=
  Prod.ext (Prod.ext (eq_of_treeEq _ _ (by decide +kernel)) (by decide +kernel)) (by decide +kernel)
/-- the second of these clones panics: the entries from `[1,5]` on are missing -/
example : (effDemo.unionWithCl cloneDemo (countingClones false 1) 0) =
    ((⟨[1], none, [⟨[0], some 7, []⟩, ⟨[2], some 20, []⟩, ⟨[3], some 30, []⟩, ⟨[4], some 40, []⟩]⟩, 2), .panic) :=
  Prod.ext (Prod.ext (eq_of_treeEq _ _ (by decide +kernel)) (by decide +kernel)) (by decide +kernel)
/-- the children are shared, and copying them panics: nothing has changed -/
example : (effDemo.unionWithCl cloneDemo (countingClones true 1) 0) = ((effDemo, 2), .panic) :=
  Prod.ext (Prod.ext (eq_of_treeEq _ _ (by decide +kernel)) (by decide +kernel)) (by decide +kernel)
/-- the clone that panics belongs to the key `[1,2,5]`: the entries `[1,2]`, `[1,3]` and `[2]`, which the tree had before the call, are lost -/
example : ((⟨[], none, [⟨[0], some 1, []⟩, ⟨[1], none, [⟨[2], some 20, []⟩, ⟨[3], some 30, []⟩]⟩, ⟨[2], some 2, []⟩]⟩ : Tree Nat Nat).unionWithCl
    ⟨[], none, [⟨[1, 2, 5], some 3, []⟩]⟩ (countingClones false 0) 0) = ((⟨[], none, [⟨[0], some 1, []⟩]⟩, 1), .panic) :=
  Prod.ext (Prod.ext (eq_of_treeEq _ _ (by decide +kernel)) (by decide +kernel)) (by decide +kernel)

/-- a `clone` that returns something else -/
def lyingClones : Clones Nat Nat Nat := ⟨fun v n => (.ret (v + 100), n), fun v n => (.ret (v + 1000), n), fun n => (true, n)⟩
example : ((effDemo.unionWithCl cloneDemo lyingClones 0).1.1.kids.map fun t => (t.pre, t.val)) =
    [([0], some 1107), ([2], some 220), ([3], some 230), ([4], some 240), ([5], some 1109), ([6], some 1110)] := by decide +kernel

end Tree
end Verif
