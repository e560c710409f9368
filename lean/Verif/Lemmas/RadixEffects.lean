import Verif.Lemmas.RadixLockGo
import Verif.Spec.RadixEffects
/-! From the agreement with plain runs to the contents of the result. -/
namespace Verif
namespace Tree
open Std
open BTreeMap (fillEach_append fillEach_prefix)

section lex
variable {K : Type _} [Ord K] [TransOrd K] [LawfulEqOrd K]

omit [TransOrd K] [LawfulEqOrd K] in
theorem not_lexLt_nil (a : List K) : ¬ LexLt a [] := by
  rintro (⟨c, r, h⟩ | ⟨p, x, y, r, s, _, h, _⟩)
  · have := congrArg List.length h; simp at this
  · have := congrArg List.length h; simp at this

theorem lexLt_cons {x y : K} {a b : List K} (h : LexLt (x :: a) (y :: b)) : compare x y = .lt ∨ x = y ∧ LexLt a b := by
  rcases h with ⟨c, r, h⟩ | ⟨p, u, v, r, s, h1, h2, h3⟩
  · simp only [List.cons_append, List.cons.injEq] at h
    exact .inr ⟨h.1.symm, .inl ⟨c, r, h.2⟩⟩
  · cases p with
    | nil =>
      simp only [List.nil_append, List.cons.injEq] at h1 h2
      rw [h1.1, h2.1]
      exact .inl h3
    | cons z p =>
      simp only [List.cons_append, List.cons.injEq] at h1 h2
      exact .inr ⟨h1.1.trans h2.1.symm, .inr ⟨p, u, v, r, s, h1.2, h2.2, h3⟩⟩

theorem lexLt_asymm : ∀ {a b : List K}, LexLt a b → LexLt b a → False
  | [], _, _, h => not_lexLt_nil _ h
  | _, [], h, _ => not_lexLt_nil _ h
  | x :: a, y :: b, h1, h2 => by
    rcases lexLt_cons h1 with g1 | ⟨e, g1⟩
    · rcases lexLt_cons h2 with g2 | ⟨e, g2⟩
      · have := cmp_lt_trans g1 g2
        rw [cmp_self] at this; cases this
      · rw [e, cmp_self] at g1; cases g1
    · rcases lexLt_cons h2 with g2 | ⟨_, g2⟩
      · rw [e, cmp_self] at g2; cases g2
      · exact lexLt_asymm g1 g2

theorem lexLt_irrefl (a : List K) : ¬ LexLt a a := fun h => lexLt_asymm h h
end lex

section oracle
variable {K V O S : Type _} [DecidableEq K] {F : V → O → S → Option V × Bool × S}

/-- the state in which the call for `k` is made -/
def stateAt (F : V → O → S → Option V × Bool × S) : List (List K × V × O) → S → List K → S
  | [], c, _ => c
  | x :: xs, c, k => if x.1 = k then c else stateAt F xs (F x.2.1 x.2.2 c).2.2 k

omit [DecidableEq K] in
theorem Follows.congr {σ σ' : List K → S} {L : List (List K × V × O)} {c : S} (h : ∀ x ∈ L, σ x.1 = σ' x.1) (hf : Follows F σ L c) :
    Follows F σ' L c := by
  induction L generalizing c with
  | nil => trivial
  | cons x L ih => exact ⟨by rw [← h x (by simp)]; exact hf.1, fun hp => ih (fun x hx => h x (by simp [hx])) (hf.2 hp)⟩

theorem follows_stateAt {L : List (List K × V × O)} (h : L.Pairwise fun x y => x.1 ≠ y.1) (c : S) : Follows F (stateAt F L c) L c := by
  induction L generalizing c with
  | nil => trivial
  | cons x L ih =>
    rw [List.pairwise_cons] at h
    refine ⟨by simp [stateAt], fun _ => (ih h.2 _).congr ?_⟩
    intro y hy
    simp [stateAt, h.1 y hy]

omit [DecidableEq K] in
/-- the log records what the calls do in the states `σ` says -/
theorem log_spec {σ : List K → S} {L : List (List K × V × O)} {c : S} (hf : Follows F σ L c) :
    ∀ log c' p, runQ F L c = (log, c', p) →
      (∀ e ∈ log, e.1 ∈ L ∧ e.2 = (F e.1.2.1 e.1.2.2 (σ e.1.1)).1) ∧
      (p = false → (∀ x ∈ L, (x, (F x.2.1 x.2.2 (σ x.1)).1) ∈ log ∧ (F x.2.1 x.2.2 (σ x.1)).2.1 = false)) ∧
      (p = true → ∃ L1 x L2 done, L = L1 ++ x :: L2 ∧ log = done ++ [(x, (F x.2.1 x.2.2 (σ x.1)).1)] ∧ (F x.2.1 x.2.2 (σ x.1)).2.1 = true ∧
        (∀ y ∈ L1, (y, (F y.2.1 y.2.2 (σ y.1)).1) ∈ done ∧ (F y.2.1 y.2.2 (σ y.1)).2.1 = false) ∧ ∀ e ∈ done, e.1 ∈ L1) := by
  induction L generalizing c with
  | nil =>
    intro log c' p h
    simp only [runQ, fillEach, Prod.mk.injEq] at h
    obtain ⟨rfl, rfl, rfl⟩ := h
    simp
  | cons x L ih =>
    intro log c' p h
    obtain ⟨h1, h2⟩ := hf
    rw [← h1] at h h2
    obtain ⟨o, q, c1, hc⟩ : ∃ o q c1, F x.2.1 x.2.2 (σ x.1) = (o, q, c1) := ⟨_, _, _, rfl⟩
    simp only [runQ, fillEach, hc] at h h2
    cases q with
    | true =>
      simp only [Prod.mk.injEq] at h
      obtain ⟨rfl, rfl, rfl⟩ := h
      refine ⟨by simp [hc], by simp, fun _ => ⟨[], x, L, [], by simp, by simp [hc], by rw [hc], by simp, by simp⟩⟩
    | false =>
      simp only [Prod.mk.injEq] at h
      obtain ⟨h3, h4⟩ := h
      obtain ⟨i1, i2, i3⟩ := ih (h2 rfl) (runQ F L c1).1 c' p (Prod.ext rfl h4)
      subst h3
      refine ⟨?_, ?_, ?_⟩
      · intro e he
        rcases List.mem_cons.1 he with rfl | he
        · exact ⟨by simp, by simp [hc]⟩
        · exact ⟨by simp [(i1 e he).1], (i1 e he).2⟩
      · intro hp y hy
        rcases List.mem_cons.1 hy with rfl | hy
        · exact ⟨by simp [hc], by rw [hc]⟩
        · exact ⟨by simp [(i2 hp y hy).1], (i2 hp y hy).2⟩
      · intro hp
        obtain ⟨L1, y, L2, done, rfl, j2, j3, j4, j5⟩ := i3 hp
        refine ⟨x :: L1, y, L2, (x, o) :: done, by simp, by rw [List.cons_append, ← j2], j3, ?_, ?_⟩
        · intro z hz
          rcases List.mem_cons.1 hz with rfl | hz
          · exact ⟨by simp [hc], by rw [hc]⟩
          · exact ⟨by simp [(j4 z hz).1], (j4 z hz).2⟩
        · intro e he
          rcases List.mem_cons.1 he with rfl | he
          · simp
          · simp [j5 e he]

end oracle

section outcome
variable {K V W S : Type _} [Ord K] [TransOrd K] [LawfulEqOrd K] [DecidableEq K]

omit [LawfulEqOrd K] [DecidableEq K] in
theorem asks_order {a : Tree K V} {b : Tree K W} (ha : Valid a) (hb : Valid b) [LawfulEqOrd K] [DecidableEq K] :
    InKeyOrder (Common a b) (asks denObs a b) := by
  constructor
  · have := items_sorted a.size a (Nat.le_refl _) ha []
    rw [List.nil_append] at this
    unfold asks asking
    rw [List.pairwise_filterMap]
    refine this.imp ?_
    intro x y h x' hx y' hy
    simp only [Option.map_eq_some_iff] at hx hy
    obtain ⟨_, _, rfl⟩ := hx
    obtain ⟨_, _, rfl⟩ := hy
    exact h
  · rintro ⟨k, v, w⟩
    rw [asks, mem_asking, mem_items_self]
    show Entry a k v ∧ den b k = some w ↔ _
    rw [den_iff_entry hb]
    rfl

omit [TransOrd K] [LawfulEqOrd K] [DecidableEq K] [Ord K] in
theorem oracle_panic {f : MutFnE S V W} {σ : List K → S} {k k' : List K} {v : V} {w : W} :
    (oracle f σ (k, v) (k', w)).2 = .panic ↔ (slot f v w (σ k)).2.1 = true := by
  unfold oracle slot
  obtain ⟨v', cl, c', h⟩ : ∃ v' cl c', f v w (σ k) = (v', cl, c') := ⟨_, _, _, rfl⟩
  simp only [h]
  cases cl with
  | panic => simp [keptSlot]
  | ret b => cases b <;> simp [keptSlot]

omit [TransOrd K] [LawfulEqOrd K] [DecidableEq K] [Ord K] in
theorem oracle_value {f : MutFnE S V W} {σ : List K → S} {k k' : List K} {v : V} {w : W} (h : (slot f v w (σ k)).2.1 = true) :
    ∃ u, oracle f σ (k, v) (k', w) = ((k, u), .panic) ∧ (slot f v w (σ k)).1 = some u := by
  unfold oracle slot at *
  obtain ⟨v', cl, c', hc⟩ : ∃ v' cl c', f v w (σ k) = (v', cl, c') := ⟨_, _, _, rfl⟩
  simp only [hc] at h ⊢
  cases cl with
  | panic => exact ⟨_, rfl, rfl⟩
  | ret b => cases b <;> simp [keptSlot] at h

omit [TransOrd K] [LawfulEqOrd K] [DecidableEq K] [Ord K] in
theorem pureOf_oracle {f : MutFnE S V W} {σ : List K → S} {k k' : List K} {v : V} {w : W} :
    pureOf (completed true (oracle f σ)) (k, v) (k', w) = (slot f v w (σ k)).1.map fun v => (k, v) := by
  unfold pureOf completed oracle slot
  obtain ⟨v', cl, c', h⟩ : ∃ v' cl c', f v w (σ k) = (v', cl, c') := ⟨_, _, _, rfl⟩
  simp only [h]
  cases cl with
  | panic => rfl
  | ret b => cases b <;> rfl

omit [Ord K] [TransOrd K] [LawfulEqOrd K] [DecidableEq K] in
theorem entry_tag_nil {t : Tree K V} {k k' : List K} {v : V} : Entry (tag [] t) k (k', v) ↔ k' = k ∧ Entry t k v := by
  rw [entry_tag]; simp

omit [Ord K] [TransOrd K] [LawfulEqOrd K] [DecidableEq K] in
theorem hasEntry_tag {t : Tree K V} {k : List K} : HasEntry (tag [] t) k ↔ HasEntry t k := by
  constructor
  · rintro ⟨⟨k', v⟩, h⟩
    exact ⟨v, (entry_tag_nil.1 h).2⟩
  · rintro ⟨v, h⟩
    exact ⟨(k, v), entry_tag_nil.2 ⟨rfl, h⟩⟩

omit [TransOrd K] [LawfulEqOrd K] [DecidableEq K] in
theorem tag_valid_iff {q : List K} {t : Tree K V} : Valid (tag q t) ↔ Valid t := by
  refine ⟨?_, tag_valid⟩
  revert q
  refine induct (P := fun t : Tree K V => ∀ {q : List K}, Valid (tag q t) → Valid t) ?_ t
  intro p v ks ih q h
  have hk := h.kids
  rw [tag_kids] at hk
  refine .mk ?_ ?_ ?_
  · intro c hc
    have := hk.ne _ (List.mem_map_of_mem hc)
    rwa [tag_pre] at this
  · have := hk.asc
    rw [AscendingBy, List.pairwise_map] at this
    simpa [tag_pre, AscendingBy, hd] using this
  · intro c hc
    exact ih c hc (hk.valid _ (List.mem_map_of_mem hc))

omit [Ord K] [TransOrd K] [LawfulEqOrd K] [DecidableEq K] in
theorem tag_full_iff {q : List K} {t : Tree K V} : Full (tag q t) ↔ Full t := by
  revert q
  refine induct (P := fun t : Tree K V => ∀ {q : List K}, Full (tag q t) ↔ Full t) ?_ t
  intro p v ks ih q
  rw [full_iff, full_iff, tag_val, tag_kids]
  simp only [Option.map_eq_none_iff, List.length_map, List.mem_map, forall_exists_index, and_imp, forall_apply_eq_imp_iff₂]
  refine and_congr Iff.rfl (forall_congr' fun c => forall_congr' fun hc => ih c hc)

omit [TransOrd K] [LawfulEqOrd K] [DecidableEq K] in
theorem tag_canonical_iff {t : Tree K V} : Canonical (tag [] t) ↔ Canonical t := by
  unfold Canonical
  rw [tag_valid_iff, tag_full_iff]
  refine and_congr Iff.rfl (or_congr ?_ Iff.rfl)
  obtain ⟨p, v, ks⟩ := t
  rw [tag_eq]
  simp [empty]

/-- what a run does -/
structure RunSpec (f : MutFnE S V W) (a : Tree K V) (b : Tree K W) (c : S) (r : (Tree K V × S) × Flow)
    (log : List ((List K × V × W) × Option V)) (c' : S) (p : Bool) (after : List K → V → Prop) : Prop where
  st : r.1.2 = c'
  fl : r.2 = if p then .panic else .cont
  valid : Valid r.1.1
  done : p = false → ∀ k v, Entry r.1.1 k v ↔ after k v
  canon : p = false → Canonical a → Canonical b → Canonical r.1.1
  stopped : p = true → Interrupted a b log after r.1.1

theorem effects_run_spec {f : MutFnE S V W} {a : Tree K V} {b : Tree K W} (ha : Valid a) (hb : Valid b) {σ : List K → S} {c : S}
    {r : (Tree K V × S) × Flow} {r' T : Tree K (List K × V)} {fl : Flow} (hl : Lock (slot f) (asks denObs a b) [] c r (r', fl))
    (hf : Follows (slot f) σ (asks denObs a b) c) (ho : Outcome (oracle f σ) (tag [] a) (tag [] b) (r', fl) T) (hTv : Valid T)
    (hTc : Canonical (tag [] a) → Canonical (tag [] b) → Canonical T)
    {rest : List K → V → Prop} (hrest : ∀ k v, rest k v → ¬ (HasEntry a k ∧ HasEntry b k))
    (hT : ∀ k v, Entry T k (k, v) ↔ (∃ x y, Entry a k x ∧ Entry b k y ∧ (slot f x y (σ k)).1 = some v) ∨ rest k v) :
    ∀ log c' p, runQ (slot f) (asks denObs a b) c = (log, c', p) →
      RunSpec f a b c r log c' p (fun k v => Left log k v ∨ rest k v) := by
  intro log c' p hr
  have hord := asks_order ha hb
  obtain ⟨g1, g2, g3⟩ := log_spec hf log c' p hr
  obtain ⟨⟨r1, r2⟩, r3⟩ := hl
  simp only [Prod.mk.injEq] at r3
  obtain ⟨rfl, rfl⟩ := r3
  rw [hr] at r1 r2
  simp only at r1 r2
  have hent : ∀ k v, Entry r.1.1 k v ↔ Entry (tag [] r.1.1) k (k, v) := fun k v => by rw [entry_tag_nil]; simp
  cases p with
  | false =>
    have hfl : r.2 = .cont := r2
    have hno : Outcome (oracle f σ) (tag [] a) (tag [] b) (tag [] r.1.1, r.2) T := ho
    rcases hno with ⟨h1, h2⟩ | ⟨h1, _⟩
    · have e : tag [] r.1.1 = T := congrArg Prod.fst h1
      refine ⟨r1, r2, tag_valid_iff.1 (e ▸ hTv), ?_,
        fun _ ca cb => tag_canonical_iff.1 (e ▸ hTc (tag_canonical_iff.2 ca) (tag_canonical_iff.2 cb)), by simp⟩
      intro _ k v
      rw [hent, e, hT]
      refine or_congr ?_ Iff.rfl
      constructor
      · rintro ⟨x, y, hx, hy, h⟩
        have := (g2 rfl (k, x, y) ((hord.2 _).2 ⟨hx, hy⟩)).1
        rw [h] at this
        exact ⟨_, this⟩
      · rintro ⟨⟨x, y⟩, h⟩
        obtain ⟨h1, h2⟩ := g1 _ h
        have := (hord.2 _).1 h1
        exact ⟨x, y, this.1, this.2, h2.symm⟩
    · rw [hfl] at h1; cases h1
  | true =>
    have hfl : r.2 = .panic := r2
    obtain ⟨L1, ⟨kp, vp, wp⟩, L2, done, hL, hlog, hpan, hbefore, hdone⟩ := g3 rfl
    have hpair := hord.1
    rw [hL, List.pairwise_append, List.pairwise_cons] at hpair
    have hkp : Entry a kp vp ∧ Entry b kp wp := (hord.2 (kp, vp, wp)).1 (by rw [hL]; simp)
    -- a common key before `kp` was asked, and did not panic
    have hpre : ∀ k x y, Entry a k x → Entry b k y → LexLt k kp → (k, x, y) ∈ L1 := by
      intro k x y hx hy hlt
      have hm := (hord.2 (k, x, y)).2 ⟨hx, hy⟩
      rw [hL] at hm
      rcases List.mem_append.1 hm with hm | hm
      · exact hm
      · rcases List.mem_cons.1 hm with hm | hm
        · simp only [Prod.mk.injEq] at hm
          rw [hm.1] at hlt
          exact absurd hlt (lexLt_irrefl _)
        · exact (lexLt_asymm hlt (hpair.2.1.1 _ hm)).elim
    -- the first key for which the plain closure panics
    have hfirst : ∀ k0 u w, Entry (tag [] a) k0 u → Entry (tag [] b) k0 w → (oracle f σ u w).2 = .panic → (k0 = kp ∨ LexLt k0 kp) → k0 = kp := by
      rintro k0 ⟨k1, x⟩ ⟨k2, y⟩ h1 h2 h3 h4
      obtain ⟨rfl, h1⟩ := entry_tag_nil.1 h1
      obtain ⟨rfl, h2⟩ := entry_tag_nil.1 h2
      rcases h4 with h4 | h4
      · exact h4
      · have := (hbefore _ (hpre _ _ _ h1 h2 h4)).2
        rw [oracle_panic] at h3
        simp only at this
        rw [this] at h3
        cases h3
    rcases ho with ⟨h1, _⟩ | ⟨_, hv, hs⟩
    · have := congrArg Prod.snd h1
      simp only at this
      rw [hfl] at this; cases this
    · refine ⟨r1, r2, tag_valid_iff.1 hv, by simp, by simp, fun _ => ⟨done, kp, (vp, wp), _, hlog, ?_⟩⟩
      have tokp : ∀ u w, Entry (tag [] a) kp u → Entry (tag [] b) kp w → u = (kp, vp) ∧ w = (kp, wp) := by
        intro u w h1 h2
        have e1 := (den_iff_entry (tag_valid ha) _ _).2 h1
        have e2 := (den_iff_entry (tag_valid hb) _ _).2 h2
        rw [(den_iff_entry (tag_valid ha) _ _).2 (entry_tag_nil.2 ⟨rfl, hkp.1⟩)] at e1
        rw [(den_iff_entry (tag_valid hb) _ _).2 (entry_tag_nil.2 ⟨rfl, hkp.2⟩)] at e2
        exact ⟨(Option.some.inj e1).symm, (Option.some.inj e2).symm⟩
      have hpan' : (oracle f σ (kp, vp) (kp, wp)).2 = .panic := oracle_panic.2 hpan
      rcases hs with ⟨p, c0, s, ⟨⟨u, w, k1, k2, k3⟩, k4⟩, h2, h3, h4⟩ | ⟨k0, u, w, h1, h2, h3, h4, h5⟩
      · have e0 : p ++ c0 :: s = kp := by
          refine hfirst _ u w k1 k2 k3 ?_
          rcases k4 kp _ _ (entry_tag_nil.2 ⟨rfl, hkp.1⟩) (entry_tag_nil.2 ⟨rfl, hkp.2⟩) hpan' with h | h
          · exact .inl h.symm
          · exact .inr h
        refine .inr ⟨p, c0, s, e0.symm, ?_, ?_, ?_⟩
        · intro k hk
          exact h2 k (hk.imp hasEntry_tag.2 hasEntry_tag.2)
        · intro ca cb
          obtain ⟨k, h, h'⟩ := h3 (tag_canonical_iff.2 ca) (tag_canonical_iff.2 cb)
          rw [hasEntry_tag, hasEntry_tag] at h
          exact ⟨k, h, h'⟩
        · intro k v
          rw [hent, h4, hT, e0]
          refine and_congr_left fun hk => or_congr ?_ Iff.rfl
          constructor
          · rintro ⟨x, y, hx, hy, h⟩
            have := (hbefore _ (hpre k x y hx hy hk.1)).1
            simp only [h] at this
            exact ⟨(x, y), by rw [hlog]; simp [this]⟩
          · rintro ⟨⟨x, y⟩, h⟩
            obtain ⟨h1, h2⟩ := g1 _ h
            have := (hord.2 _).1 h1
            exact ⟨x, y, this.1, this.2, h2.symm⟩
      · have e0 : k0 = kp := by
          refine hfirst _ u w h1 h2 h3 ?_
          rcases h4 kp (.inl (hasEntry_tag.2 ⟨vp, hkp.1⟩)) with h | h
          · exact .inl h.symm
          · exact .inr h
        subst e0
        obtain ⟨rfl, rfl⟩ := tokp u w h1 h2
        obtain ⟨u', hu1, hu2⟩ := oracle_value (k' := k0) hpan
        simp only at hu2
        refine .inl ⟨?_, ?_, ?_⟩
        · cases done with
          | nil => rfl
          | cons e done =>
            have hm := hdone e (by simp)
            have hlt := hpair.2.2 _ hm _ (List.mem_cons_self ..)
            have hm' := (hord.2 e.1).1 (by rw [hL]; simp [hm])
            have := h4 e.1.1 (.inl (hasEntry_tag.2 ⟨_, hm'.1⟩))
            rcases this with h | h
            · simp only at hlt
              rw [h] at hlt
              exact absurd hlt (lexLt_irrefl _)
            · exact (lexLt_asymm hlt h).elim
        · intro k hk
          exact h4 k (hk.imp hasEntry_tag.2 hasEntry_tag.2)
        · intro k v
          rw [hent, h5, hu1, hu2, entry_tag_nil]
          simp only [Prod.mk.injEq, Option.some.injEq, true_and]
          constructor
          · rintro (⟨rfl, _, rfl⟩ | ⟨h1, h2⟩)
            · exact .inl ⟨rfl, rfl⟩
            · exact .inr ⟨h1, h2⟩
          · rintro (⟨rfl, rfl⟩ | ⟨h1, h2⟩)
            · exact .inl ⟨rfl, rfl, rfl⟩
            · exact .inr ⟨h1, h2⟩

/-- the keys of the calls are distinct -/
theorem asks_follow {a : Tree K V} {b : Tree K W} (ha : Valid a) (hb : Valid b) (f : MutFnE S V W) (c : S) :
    ∃ σ : List K → S, Follows (slot f) σ (asks denObs a b) c :=
  ⟨_, follows_stateAt ((asks_order ha hb).1.imp (by
    intro x y h e
    rw [e] at h
    exact lexLt_irrefl _ h)) c⟩

omit [DecidableEq K] in
theorem den_tag [DecidableEq K] {t : Tree K V} (h : Valid t) (k : List K) : den (tag [] t) k = (den t k).map fun v => (k, v) := by
  cases hd : den t k with
  | none =>
    cases hd' : den (tag [] t) k with
    | none => rfl
    | some u =>
      obtain ⟨k', v⟩ := u
      rw [den_iff_entry (tag_valid h), entry_tag_nil, ← den_iff_entry h, hd] at hd'
      simp at hd'
  | some v =>
    rw [den_iff_entry h] at hd
    rw [Option.map_some, den_iff_entry (tag_valid h), entry_tag_nil]
    exact ⟨rfl, hd⟩

omit [DecidableEq K] in
theorem den_none_iff [DecidableEq K] {t : Tree K V} (h : Valid t) (k : List K) : den t k = none ↔ ¬ HasEntry t k := by
  constructor
  · rintro e ⟨v, hv⟩
    rw [← den_iff_entry h, e] at hv
    cases hv
  · intro hn
    cases e : den t k with
    | none => rfl
    | some v => exact absurd ⟨v, (den_iff_entry h _ _).1 e⟩ hn

theorem outer_run {a b : Tree K V} (ha : Valid a) (hb : Valid b) (f : MutFnE S V V) (c : S) :
    ∀ log c' p, runQ (slot f) (asks denObs a b) c = (log, c', p) →
      RunSpec f a b c (a.outerCombineWithE b f c) log c' p (OuterAfter a b log) := by
  obtain ⟨σ, hf⟩ := asks_follow ha hb f c
  have hl := outerWithGoE_lock f σ (a.size + b.size + 1) a b ha hb (by omega) [] c (by simpa using hf)
  have ho := outerWithGo_part (u := true) (f := oracle f σ) (tag_valid (q := []) ha) (tag_valid (q := []) hb)
  have sp := ref_spec (outerPar_good (pureOf (completed true (oracle f σ)))) denObs_laws ((tag [] a).size + (tag [] b).size + 1) (tag [] a) (tag [] b)
    (tag_valid ha) (tag_valid hb) (by omega)
  rw [tag_size, tag_size] at ho sp
  unfold outerCombineWith at ho
  rw [tag_size, tag_size] at ho
  refine effects_run_spec ha hb hl hf ho sp.1 sp.2.2.2 (rest := fun k v => (Entry a k v ∧ ¬ HasEntry b k) ∨ (Entry b k v ∧ ¬ HasEntry a k)) ?_ ?_
  · rintro k v (h | h) ⟨h1, h2⟩
    · exact h.2 h2
    · exact h.2 h1
  · intro k v
    have h := sp.2.1 k
    rw [← den_iff_entry sp.1, h]
    simp only [denObs, den_tag ha, den_tag hb, ← den_iff_entry ha, ← den_iff_entry hb, ← den_none_iff ha, ← den_none_iff hb]
    cases den a k with
    | none => cases den b k <;> simp [outerPureVal]
    | some x =>
      cases den b k with
      | none => simp [outerPureVal]
      | some y => simp [outerPureVal, pureOf_oracle]

theorem inner_run {a : Tree K V} {b : Tree K W} (ha : Valid a) (hb : Valid b) (f : MutFnE S V W) (c : S) :
    ∀ log c' p, runQ (slot f) (asks denObs a b) c = (log, c', p) →
      RunSpec f a b c (a.innerCombineWithE b f c) log c' p (InnerAfter log) := by
  obtain ⟨σ, hf⟩ := asks_follow ha hb f c
  have hl := innerWithGoE_lock f σ (a.size + b.size + 1) a b ha hb (by omega) [] c (by simpa using hf)
  have ho := innerWithGo_part (u := true) (f := oracle f σ) (tag_valid (q := []) ha) (tag_valid (q := []) hb)
  have sp := ref_spec (innerPar_good (pureOf (completed true (oracle f σ)))) denObs_laws ((tag [] a).size + (tag [] b).size + 1) (tag [] a) (tag [] b)
    (tag_valid ha) (tag_valid hb) (by omega)
  rw [tag_size, tag_size] at ho sp
  unfold innerCombineWith at ho
  rw [tag_size, tag_size] at ho
  have := effects_run_spec ha hb hl hf ho sp.1 sp.2.2.2 (rest := fun k v => False) (by simp) (by
    intro k v
    have h := sp.2.1 k
    rw [← den_iff_entry sp.1, h]
    simp only [denObs, den_tag ha, den_tag hb, ← den_iff_entry ha, ← den_iff_entry hb]
    cases den a k with
    | none => cases den b k <;> simp [innerPureVal]
    | some x =>
      cases den b k with
      | none => simp [innerPureVal]
      | some y => simp [innerPureVal, pureOf_oracle])
  simp only [or_false] at this
  exact this

theorem left_run {a : Tree K V} {b : Tree K W} (ha : Valid a) (hb : Valid b) (f : MutFnE S V W) (c : S) :
    ∀ log c' p, runQ (slot f) (asks denObs a b) c = (log, c', p) →
      RunSpec f a b c (a.leftCombineWithE b f c) log c' p (LeftAfter a b log) := by
  obtain ⟨σ, hf⟩ := asks_follow ha hb f c
  have hl := leftWithGoE_lock f σ (a.size + b.size + 1) a b ha hb (by omega) [] c (by simpa using hf)
  have ho := leftWithGo_part (u := true) (f := oracle f σ) (tag_valid (q := []) ha) (tag_valid (q := []) hb)
  have sp := ref_spec (leftMutPar_good (pureOf (completed true (oracle f σ)))) denObs_laws ((tag [] a).size + (tag [] b).size + 1) (tag [] a) (tag [] b)
    (tag_valid ha) (tag_valid hb) (by omega)
  rw [tag_size, tag_size] at ho sp
  unfold leftCombineWith at ho
  rw [tag_size, tag_size] at ho
  refine effects_run_spec ha hb hl hf ho sp.1 sp.2.2.2 (rest := fun k v => Entry a k v ∧ ¬ HasEntry b k) ?_ ?_
  · rintro k v h ⟨h1, h2⟩
    exact h.2 h2
  · intro k v
    have h := sp.2.1 k
    rw [← den_iff_entry sp.1, h]
    simp only [denObs, den_tag ha, den_tag hb, ← den_iff_entry ha, ← den_iff_entry hb, ← den_none_iff hb]
    cases den a k with
    | none => cases den b k <;> simp [leftMutVal]
    | some x =>
      cases den b k with
      | none => simp [leftMutVal]
      | some y => simp [leftMutVal, pureOf_oracle]

end outcome
end Tree
end Verif
