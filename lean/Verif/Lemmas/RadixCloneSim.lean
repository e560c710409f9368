import Verif.Lemmas.RadixCloneGo
/-! Clones that return equal values: the in-place combinations run as in `Verif/Model/RadixEffects.lean` until a clone panics. -/
namespace Verif
namespace Tree
open Std

/-- A clone returns an equal value without touching what `π` shows of the state, or panics, which is `Bad`. -/
def CloneOk {S S0 V : Type _} (π : S → S0) (Bad : Prop) (cl : V → S → Call V × S) : Prop :=
  ∀ v s, (∃ s', cl v s = (.ret v, s') ∧ π s' = π s) ∨ ∃ s', cl v s = (.panic, s') ∧ Bad

/-- all clones are like that -/
structure Faithful {S S0 V W : Type _} (π : S → S0) (Bad : Prop) (e : Clones S V W) : Prop where
  own : CloneOk π Bad e.own
  other : CloneOk π Bad e.other
  shared : ∀ s, π (e.shared s).2 = π s

/-- a run with clones against a run without -/
def Sim {S S0 T : Type _} (π : S → S0) (Bad : Prop) (cut : T → T → Prop) (r : (T × S) × Flow) (r' : (T × S0) × Flow) : Prop :=
  r' = ((r.1.1, π r.1.2), r.2) ∨ (r.2 = .panic ∧ Bad ∧ cut r.1.1 r'.1.1)

section sim
variable {K V W S S0 : Type _} {π : S → S0} {Bad : Prop}

theorem Sim.mono {T : Type _} {cut cut' : T → T → Prop} {r : (T × S) × Flow} {r' : (T × S0) × Flow} (h : Sim π Bad cut r r')
    (hc : cut r.1.1 r'.1.1 → cut' r.1.1 r'.1.1) : Sim π Bad cut' r r' := by
  rcases h with h | ⟨h1, h2, h3⟩
  · exact .inl h
  · exact .inr ⟨h1, h2, hc h3⟩

theorem Sim.weak {T : Type _} {cut : T → T → Prop} {r : (T × S) × Flow} {r' : (T × S0) × Flow} (h : Sim π Bad cut r r') :
    Sim π Bad (fun _ _ => True) r r' := h.mono fun _ => trivial

/-- sequencing: if the first part is cut short, the rest of the other run must keep what is claimed -/
theorem Sim.andThen {T : Type _} {cut cut' : T → T → Prop} {r : (T × S) × Flow} {r' : (T × S0) × Flow} {k : T × S → (T × S) × Flow}
    {k' : T × S0 → (T × S0) × Flow} (h : Sim π Bad cut r r') (hk : Sim π Bad cut' (k r.1) (k' (r.1.1, π r.1.2)))
    (hc : r.2 = .panic → cut r.1.1 r'.1.1 → cut' r.1.1 (Verif.andThen r' k').1.1) : Sim π Bad cut' (Verif.andThen r k) (Verif.andThen r' k') := by
  obtain ⟨⟨t, s⟩, fl⟩ := r
  rcases h with h | ⟨h1, h2, h3⟩
  · subst h
    cases fl with
    | cont => exact hk
    | stop => exact .inl rfl
    | panic => exact .inl rfl
  · simp only at h1
    subst h1
    exact .inr ⟨rfl, h2, hc rfl h3⟩

theorem cloneOptC_sim {cl : V → S → Call V × S} (h : CloneOk π Bad cl) (v : Option V) (s : S) :
    (∃ s', cloneOptC cl v s = (.ret v, s') ∧ π s' = π s) ∨ ∃ s', cloneOptC cl v s = (.panic, s') ∧ Bad := by
  cases v with
  | none => exact .inl ⟨s, rfl, rfl⟩
  | some v =>
    rcases h v s with ⟨s', h1, h2⟩ | ⟨s', h1, h2⟩
    · exact .inl ⟨s', by simp [cloneOptC, h1], h2⟩
    · exact .inr ⟨s', by simp [cloneOptC, h1], h2⟩

theorem cloneNodesC_sim {cl : V → S → Call V × S} (h : CloneOk π Bad cl) (ks : List (Tree K V)) (s : S) :
    (∃ s', cloneNodesC cl ks s = (.ret ks, s') ∧ π s' = π s) ∨ ∃ s', cloneNodesC cl ks s = (.panic, s') ∧ Bad := by
  induction ks generalizing s with
  | nil => exact .inl ⟨s, rfl, rfl⟩
  | cons c cs ih =>
    rcases cloneOptC_sim h c.val s with ⟨s1, h1, h2⟩ | ⟨s1, h1, h2⟩
    · rcases ih s1 with ⟨s2, h3, h4⟩ | ⟨s2, h3, h4⟩
      · refine .inl ⟨s2, ?_, h4.trans h2⟩
        rcases c with ⟨p, v, ks⟩
        simp [cloneNodesC, h1, h3]
      · exact .inr ⟨s2, by simp [cloneNodesC, h1, h3], h4⟩
    · exact .inr ⟨s1, by simp [cloneNodesC, h1], h2⟩

theorem childrenMutC_sim {e : Clones S V W} (h : Faithful π Bad e) (t : Tree K V) (s : S) :
    (childrenMutC e (t, s)).1.1 = t ∧ ((∃ s', childrenMutC e (t, s) = ((t, s'), .cont) ∧ π s' = π s) ∨
      ∃ s', childrenMutC e (t, s) = ((t, s'), .panic) ∧ Bad) := by
  have h0 := h.shared s
  unfold childrenMutC
  rcases hs : e.shared s with ⟨b, s1⟩
  rw [hs] at h0
  cases b with
  | false => simp only [hs]; exact ⟨trivial, .inl ⟨s1, rfl, h0⟩⟩
  | true =>
    simp only [hs]
    rcases cloneNodesC_sim h.own t.kids s1 with ⟨s2, h1, h2⟩ | ⟨s2, h1, h2⟩
    · simp only [h1]
      rcases t with ⟨p, v, ks⟩
      exact ⟨rfl, .inl ⟨s2, rfl, h2.trans h0⟩⟩
    · simp only [h1]
      exact ⟨trivial, .inr ⟨s2, rfl, h2⟩⟩

variable [Ord K]

theorem materializeC_sim {cl : V → S → Call V × S} (h : CloneOk π Bad cl) (t : Tree K V) : ∀ n s, Valid t → n < t.pre.length →
    (∃ s', materializeShortenedC cl t n s = (.ret (t.shorten n), s') ∧ π s' = π s) ∨ ∃ s', materializeShortenedC cl t n s = (.panic, s') ∧ Bad := by
  refine induct (P := fun t => ∀ n s, Valid t → n < t.pre.length →
    (∃ s', materializeShortenedC cl t n s = (.ret (t.shorten n), s') ∧ π s' = π s) ∨ ∃ s', materializeShortenedC cl t n s = (.panic, s') ∧ Bad) ?_ t
  intro p v ks ih n s hv hn
  have key : ∀ (ls : List (Tree K V)) s, (∀ c ∈ ls, c ∈ ks) → (∃ s', materializeKidsC cl ls s = (.ret ls, s') ∧ π s' = π s) ∨
      ∃ s', materializeKidsC cl ls s = (.panic, s') ∧ Bad := by
    intro ls
    induction ls with
    | nil => intro s _; exact .inl ⟨s, rfl, rfl⟩
    | cons c cs ihl =>
      intro s hsub
      have hc := hsub c (by simp)
      have e0 : c.shorten 0 = c := by rcases c with ⟨p, v, ks⟩; simp [shorten]
      rcases ih c hc 0 s (hv.kids.valid c hc) (List.length_pos_iff.2 (hv.kids.ne c hc)) with ⟨s1, h1, h2⟩ | ⟨s1, h1, h2⟩
      · rw [e0] at h1
        rcases ihl s1 (fun c hc => hsub c (by simp [hc])) with ⟨s2, h3, h4⟩ | ⟨s2, h3, h4⟩
        · exact .inl ⟨s2, by simp [materializeKidsC, h1, h3], h4.trans h2⟩
        · exact .inr ⟨s2, by simp [materializeKidsC, h1, h3], h4⟩
      · exact .inr ⟨s1, by simp [materializeKidsC, h1], h2⟩
  rw [materializeShortenedC, if_pos hn]
  rcases cloneOptC_sim h v s with ⟨s1, h1, h2⟩ | ⟨s1, h1, h2⟩
  · rcases key ks s1 (fun _ h => h) with ⟨s2, h3, h4⟩ | ⟨s2, h3, h4⟩
    · exact .inl ⟨s2, by simp [h1, h3, shorten], h4.trans h2⟩
    · exact .inr ⟨s2, by simp [h1, h3], h4⟩
  · exact .inr ⟨s1, by simp [h1], h2⟩

/-! ### merging children -/

/-- converted children are equal to those of the other run -/
def ConvSim (π : S → S0) (Bad : Prop) (conv : Tree K W → S → Call (Tree K V) × S) (convE : Tree K W → Call (Tree K V)) : Prop :=
  ∀ y s, Valid y → y.pre ≠ [] → (∃ z s', convE y = .ret z ∧ conv y s = (.ret z, s') ∧ π s' = π s) ∨ ∃ s', conv y s = (.panic, s') ∧ Bad

/-- recursive calls go as in the other run -/
def RecSim (π : S → S0) (Bad : Prop) (rec : Tree K V → Tree K W → S → (Tree K V × S) × Flow)
    (recE : Tree K V → Tree K W → S0 → (Tree K V × S0) × Flow) : Prop :=
  ∀ x y s, Valid x → Valid y → Sim π Bad (fun _ _ => True) (rec x y s) (recE x y (π s))

/-- what has been built so far is a leading part of what the other run builds -/
def CutMS (m m' : InPlaceMS (Tree K V) (Tree K W)) : Prop := m.tgt <+: m'.tgt

omit [Ord K] in
theorem extendFromIter_grow (conv : Tree K W → Call (Tree K V)) : ∀ (n : Nat) (m : InPlaceMS (Tree K V) (Tree K W)), CutMS m (m.extendFromIter conv n).1
  | 0, m => by simp [InPlaceMS.extendFromIter, CutMS]
  | n + 1, ⟨tgt, src, b⟩ => by
    cases b with
    | nil => simp [InPlaceMS.extendFromIter, CutMS]
    | cons y ys =>
      simp only [InPlaceMS.extendFromIter]
      rcases conv y with z | _
      · have := extendFromIter_grow conv n ⟨tgt ++ [z], src, ys⟩
        exact List.IsPrefix.trans (List.prefix_append _ _) this
      · simp [CutMS]

variable {takeA takeB : Bool} {convE : Tree K W → Call (Tree K V)} {recE : Tree K V → Tree K W → S0 → (Tree K V × S0) × Flow}

theorem stepE_grow (m : InPlaceMS (Tree K V) (Tree K W) × S0) :
    (∀ n, CutMS m.1 ((inPlaceOpE takeA takeB convE recE).fromA m n).1.1) ∧ (∀ n, CutMS m.1 ((inPlaceOpE takeA takeB convE recE).fromB m n).1.1) ∧
    CutMS m.1 ((inPlaceOpE takeA takeB convE recE).collision m).1.1 := by
  obtain ⟨⟨tgt, src, b⟩, s⟩ := m
  refine ⟨fun n => ?_, fun n => ?_, ?_⟩
  · simp only [inPlaceOpE, quiet, InPlaceMS.mut, CutMS]
    rw [(consume_spec n _ takeA).1]
    exact List.prefix_append _ _
  · simp only [inPlaceOpE, quiet, InPlaceMS.mut]
    cases takeB with
    | true => exact extendFromIter_grow convE n _
    | false => simp only [Bool.false_eq_true, ↓reduceIte, CutMS]; rw [(skipB_spec n _).1]; exact List.prefix_refl _
  · simp only [inPlaceOpE]
    cases src with
    | nil => exact List.prefix_refl _
    | cons x as =>
      cases b with
      | nil => exact List.prefix_refl _
      | cons y ys =>
        simp only
        rcases recE x y s with ⟨⟨r, s'⟩, fl⟩
        cases fl with
        | stop => simp [andThen, CutMS]
        | panic => simp [andThen, CutMS]
        | cont =>
          simp only [andThen, quiet, InPlaceMS.mut, Bool.false_eq_true, ↓reduceIte, CutMS]
          rw [(skipB_spec 1 _).1, (consume_spec 1 _ _).1]
          exact List.prefix_append _ _

theorem andThen_grow {r : (InPlaceMS (Tree K V) (Tree K W) × S0) × Flow}
    {k : InPlaceMS (Tree K V) (Tree K W) × S0 → (InPlaceMS (Tree K V) (Tree K W) × S0) × Flow} {m : InPlaceMS (Tree K V) (Tree K W)}
    (h : CutMS m r.1.1) (hk : CutMS r.1.1 (k r.1).1.1) : CutMS m (andThen r k).1.1 := by
  unfold andThen
  split
  · exact List.IsPrefix.trans h hk
  · exact h

theorem runE_grow (evs : List Ev) : ∀ m : InPlaceMS (Tree K V) (Tree K W) × S0, CutMS m.1 (runEvs (inPlaceOpE takeA takeB convE recE) m evs).1.1 := by
  induction evs with
  | nil => intro m; exact List.prefix_refl _
  | cons ev evs ih =>
    intro m
    obtain ⟨h1, h2, h3⟩ := stepE_grow (takeA := takeA) (takeB := takeB) (convE := convE) (recE := recE) m
    cases ev with
    | a n => rw [runEvs]; exact andThen_grow (h1 n) (ih _)
    | b n => rw [runEvs]; exact andThen_grow (h2 n) (ih _)
    | c => rw [runEvs]; exact andThen_grow h3 (ih _)

variable {conv : Tree K W → S → Call (Tree K V) × S} {rec : Tree K V → Tree K W → S → (Tree K V × S) × Flow}

omit [Ord K] in
theorem extendFromIterC_sim [Ord K] (hc : ConvSim π Bad conv convE) : ∀ (n : Nat) (m : InPlaceMS (Tree K V) (Tree K W) × S),
    (∀ y ∈ m.1.b, Valid y ∧ y.pre ≠ []) →
    Sim π Bad CutMS (extendFromIterC conv m n) (quiet (fun m => m.extendFromIter convE n) (m.1, π m.2))
  | 0, m, _ => .inl rfl
  | n + 1, ⟨⟨tgt, src, b⟩, s⟩, hb => by
    cases b with
    | nil => exact .inl rfl
    | cons y ys =>
      rcases hc y s (hb y (by simp)).1 (hb y (by simp)).2 with ⟨z, s', h1, h2, h3⟩ | ⟨s', h1, h2⟩
      · have := extendFromIterC_sim hc n (⟨tgt ++ [z], src, ys⟩, s') (fun y hy => hb y (List.mem_cons_of_mem _ hy))
        simp only [h3] at this
        simp only [extendFromIterC, h2, InPlaceMS.extendFromIter, h1, quiet] at this ⊢
        exact this
      · refine .inr ⟨by simp [extendFromIterC, h1], h2, ?_⟩
        have := extendFromIter_grow convE (n + 1) ⟨tgt, src, y :: ys⟩
        simpa [extendFromIterC, h1, quiet, CutMS] using this

/-- the two ways to take children of `b` -/
inductive Takes (π : S → S0) (Bad : Prop) : Option (Tree K W → S → Call (Tree K V) × S) → Bool → (Tree K W → Call (Tree K V)) → Prop
  | some (conv : Tree K W → S → Call (Tree K V) × S) (convE : Tree K W → Call (Tree K V)) (h : ConvSim π Bad conv convE) : Takes π Bad (some conv) true convE
  | none (convE : Tree K W → Call (Tree K V)) : Takes π Bad none false convE

/-- the children still to be merged -/
def Rest (m : InPlaceMS (Tree K V) (Tree K W)) : Prop := (∀ x ∈ m.src, Valid x) ∧ ∀ y ∈ m.b, Valid y ∧ y.pre ≠ []

variable {oconv : Option (Tree K W → S → Call (Tree K V) × S)}

theorem stepC_sim (ht : Takes π Bad oconv takeB convE) (hr : RecSim π Bad rec recE) (m : InPlaceMS (Tree K V) (Tree K W) × S) (hm : Rest m.1) :
    (∀ n, Sim π Bad CutMS ((inPlaceOpC takeA oconv rec).fromA m n) ((inPlaceOpE takeA takeB convE recE).fromA (m.1, π m.2) n)) ∧
    (∀ n, Sim π Bad CutMS ((inPlaceOpC takeA oconv rec).fromB m n) ((inPlaceOpE takeA takeB convE recE).fromB (m.1, π m.2) n)) ∧
    Sim π Bad CutMS ((inPlaceOpC takeA oconv rec).collision m) ((inPlaceOpE takeA takeB convE recE).collision (m.1, π m.2)) := by
  refine ⟨fun n => .inl rfl, fun n => ?_, ?_⟩
  · cases ht with
    | some _ _ h =>
      simp only [inPlaceOpC, inPlaceOpE, InPlaceMS.mut, ↓reduceIte]
      exact extendFromIterC_sim h n m hm.2
    | none => exact .inl rfl
  · obtain ⟨⟨tgt, src, b⟩, s⟩ := m
    have hg := (stepE_grow (takeA := takeA) (takeB := takeB) (convE := convE) (recE := recE) (⟨tgt, src, b⟩, π s)).2.2
    simp only at hg ⊢
    revert hg
    simp only [inPlaceOpC, inPlaceOpE]
    cases src with
    | nil => intro _; exact .inl rfl
    | cons x as =>
      cases b with
      | nil => intro _; exact .inl rfl
      | cons y ys =>
        simp only
        intro hg
        rcases hr x y s (hm.1 x (by simp)) (hm.2 y (by simp)).1 with h | ⟨h1, h2, _⟩
        · left
          rcases hrec : rec x y s with ⟨⟨r, s'⟩, fl⟩
          rw [hrec] at h
          rw [h]
          simp only at *
          cases fl <;> simp [andThen, quiet, InPlaceMS.mut]
        · right
          refine ⟨by simp [andThen, h1], h2, ?_⟩
          simpa [andThen, h1, CutMS] using hg

omit [Ord K] in
theorem extendFromIterC_rest : ∀ (n : Nat) (m : InPlaceMS (Tree K V) (Tree K W) × S), (extendFromIterC conv m n).1.1.src = m.1.src ∧
    ∀ y ∈ (extendFromIterC conv m n).1.1.b, y ∈ m.1.b
  | 0, m => ⟨rfl, fun _ h => h⟩
  | n + 1, ⟨⟨tgt, src, b⟩, s⟩ => by
    cases b with
    | nil => exact ⟨rfl, fun _ h => h⟩
    | cons y ys =>
      rcases hc : conv y s with ⟨z | _, s'⟩
      · obtain ⟨h1, h2⟩ := extendFromIterC_rest n (⟨tgt ++ [z], src, ys⟩, s')
        simp only [extendFromIterC, hc]
        exact ⟨h1, fun x hx => List.mem_cons_of_mem _ (h2 x hx)⟩
      · simp only [extendFromIterC, hc]
        exact ⟨trivial, fun x hx => List.mem_cons_of_mem _ hx⟩

theorem rest_after (m : InPlaceMS (Tree K V) (Tree K W) × S) (hm : Rest m.1) : (∀ n, Rest ((inPlaceOpC takeA oconv rec).fromA m n).1.1) ∧
    (∀ n, Rest ((inPlaceOpC takeA oconv rec).fromB m n).1.1) ∧
    (((inPlaceOpC takeA oconv rec).collision m).2 = .cont → Rest ((inPlaceOpC takeA oconv rec).collision m).1.1) := by
  refine ⟨fun n => ?_, fun n => ?_, fun hc => ?_⟩
  · obtain ⟨_, c2, c3⟩ := consume_spec n m.1 takeA
    simp only [inPlaceOpC, quiet, Rest, c2, c3]
    exact ⟨fun x hx => hm.1 x (List.mem_of_mem_drop hx), hm.2⟩
  · cases oconv with
    | none =>
      obtain ⟨_, c2, c3⟩ := skipB_spec n m.1
      simp only [inPlaceOpC, quiet, Rest, c2, c3]
      exact ⟨hm.1, fun x hx => hm.2 x (List.mem_of_mem_drop hx)⟩
    | some conv =>
      obtain ⟨c2, c3⟩ := extendFromIterC_rest (conv := conv) n m
      simp only [inPlaceOpC, Rest, c2]
      exact ⟨hm.1, fun x hx => hm.2 x (c3 x hx)⟩
  · obtain ⟨⟨tgt, src, b⟩, s⟩ := m
    cases src with
    | nil => simp [inPlaceOpC] at hc
    | cons x as =>
      cases b with
      | nil => simp [inPlaceOpC] at hc
      | cons y ys =>
        obtain ⟨c1, c2, c3, c4⟩ := collisionC_spec (takeA := takeA) (oconv := oconv) (rec := rec) (⟨tgt, x :: as, y :: ys⟩, s) rfl rfl
        rw [← c1] at c4
        rw [c4 hc]
        exact ⟨fun z hz => hm.1 z (List.mem_cons_of_mem _ hz), fun z hz => hm.2 z (List.mem_cons_of_mem _ hz)⟩

theorem runC_sim (ht : Takes π Bad oconv takeB convE) (hr : RecSim π Bad rec recE) (evs : List Ev) :
    ∀ m : InPlaceMS (Tree K V) (Tree K W) × S, Rest m.1 →
      Sim π Bad CutMS (runEvs (inPlaceOpC takeA oconv rec) m evs) (runEvs (inPlaceOpE takeA takeB convE recE) (m.1, π m.2) evs) := by
  induction evs with
  | nil => intro m _; exact .inl rfl
  | cons ev evs ih =>
    intro m hm
    obtain ⟨h1, h2, h3⟩ := stepC_sim (takeA := takeA) ht hr m hm
    obtain ⟨g1, g2, g3⟩ := rest_after (takeA := takeA) (oconv := oconv) (rec := rec) m hm
    have key : ∀ (r : (InPlaceMS (Tree K V) (Tree K W) × S) × Flow) (r' : (InPlaceMS (Tree K V) (Tree K W) × S0) × Flow), Sim π Bad CutMS r r' →
        (r.2 = .cont → Rest r.1.1) → Sim π Bad CutMS (andThen r fun s => runEvs (inPlaceOpC takeA oconv rec) s evs)
          (andThen r' fun s => runEvs (inPlaceOpE takeA takeB convE recE) s evs) := by
      intro r r' h hg
      by_cases hc : r.2 = .cont
      · exact h.andThen (ih _ (hg hc)) fun hp => by rw [hc] at hp; cases hp
      · rcases h with h | ⟨h1, h2, h3⟩
        · left
          obtain ⟨⟨t, s⟩, fl⟩ := r
          subst h
          cases fl
          · exact absurd rfl hc
          · rfl
          · rfl
        · right
          obtain ⟨⟨t, s⟩, fl⟩ := r
          simp only at h1 h3
          subst h1
          exact ⟨rfl, h2, andThen_grow h3 (runE_grow evs _)⟩
    cases ev with
    | a n => rw [runEvs, runEvs]; exact key _ _ (h1 n) fun _ => g1 n
    | b n => rw [runEvs, runEvs]; exact key _ _ (h2 n) fun _ => g2 n
    | c => rw [runEvs, runEvs]; exact key _ _ h3 g3

/-- the cut of a merge of children -/
structure CutKids' (t r r' : Tree K V) : Prop where
  pre : r.pre = t.pre
  val : r.val = t.val
  kids : r.kids = t.kids ∨ r.kids <+: r'.kids

omit [Ord K] in
theorem childrenWithE_keeps [Ord K] (op : MergeOp (InPlaceMS (Tree K V) (Tree K W) × S) (Tree K V) (Tree K W)) (t : Tree K V × S) (rhs : List (Tree K W)) :
    (childrenWithE op t rhs).1.1.pre = t.1.pre ∧ (childrenWithE op t rhs).1.1.val = t.1.val := by
  unfold childrenWithE
  split
  · exact ⟨rfl, rfl⟩
  · exact ⟨rfl, rfl⟩

variable [TransOrd K] [LawfulEqOrd K]

theorem childrenWithC_sim {e : Clones S V W} (he : Faithful π Bad e) (ht : Takes π Bad oconv takeB convE) (hr : RecSim π Bad rec recE)
    (hconv : ∀ c, oconv = some c → ConvOkC (fun _ _ => True) (fun _ _ => True) c) {t : Tree K V} (s : S) {rhs : List (Tree K W)} (hv : Valid t)
    (kb : Kids rhs) : Sim π Bad (CutKids' t) (childrenWithC e (inPlaceOpC takeA oconv rec) (t, s) rhs)
      (childrenWithE (inPlaceOpE takeA takeB convE recE) (t, π s) rhs) := by
  obtain ⟨_, ⟨s', h1, h2⟩ | ⟨s', h1, h2⟩⟩ := childrenMutC_sim he t s
  · rw [childrenWithC, h1, ← h2]
    simp only [andThen]
    have ka := hv.kids
    unfold childrenWithE
    simp only [ka.headed, kb.headed, Bool.and_self, ↓reduceIte, InPlaceMS.mergeE]
    have e1 := binaryMerge_eq_plan (inPlaceOpC_slices (takeA := takeA) (rec := rec) hconv) (ka := hd) (kb := hd) (by intro a b; rfl)
      t.kids rhs [] [] (({ tgt := [], src := t.kids, b := rhs } : InPlaceMS _ _), s') ⟨kb.valid, fun _ _ _ _ _ => trivial⟩ ka.asc kb.asc
      (List.append_nil _).symm (List.append_nil _).symm
    have e2 := binaryMerge_eq_plan (inPlaceOpE_opE takeA takeB convE recE).slices (ka := hd) (kb := hd) (by intro a b; rfl)
      t.kids rhs [] [] (({ tgt := [], src := t.kids, b := rhs } : InPlaceMS _ _), π s') trivial ka.asc kb.asc
      (List.append_nil _).symm (List.append_nil _).symm
    rw [show mergeAll (inPlaceOpC takeA oconv rec) (({ tgt := [], src := t.kids, b := rhs } : InPlaceMS _ _), s') = _ from e1,
      show mergeAll (inPlaceOpE takeA takeB convE recE) (({ tgt := [], src := t.kids, b := rhs } : InPlaceMS _ _), π s') = _ from e2]
    rcases runC_sim (takeA := takeA) ht hr (planBin headCmp t.kids rhs) (({ tgt := [], src := t.kids, b := rhs } : InPlaceMS _ _), s')
      ⟨ka.valid, fun y hy => ⟨kb.valid y hy, kb.ne y hy⟩⟩ with h | ⟨h1, h2, h3⟩
    · left
      rw [show runEvs (inPlaceOpE takeA takeB convE recE) _ (planBin (inPlaceOpE takeA takeB convE recE).cmp t.kids rhs) = _ from h]
      rfl
    · exact .inr ⟨h1, h2, ⟨rfl, rfl, .inr h3⟩⟩
  · rw [childrenWithC, h1]
    exact .inr ⟨rfl, h2, rfl, rfl, .inl rfl⟩

end sim
end Tree
end Verif
