import Verif.Lemmas.RadixPrefixRun
/-! From the merge of the children to the whole operation. -/
namespace Verif
namespace Tree
open Std

variable {K V W S : Type _} [Ord K] [TransOrd K] [LawfulEqOrd K] [DecidableEq K]

theorem entry_unsplit {t : Tree K V} (h : Valid t) (k : List K) (v : V) : Entry t.unsplit k v ↔ Entry t k v := by
  rw [← den_iff_entry h.unsplit, ← den_iff_entry h, unsplit_den h]

omit [TransOrd K] [LawfulEqOrd K] [DecidableEq K] in
theorem full_has_other {ks : List (Tree K V)} (hk : Kids ks) (h2 : 2 ≤ ks.length) (hf : ∀ c ∈ ks, Full c) (x : K) [TransOrd K] [LawfulEqOrd K]
    [DecidableEq K] : ∃ k v, EL ks k v ∧ ∀ s, k ≠ x :: s := by
  match ks, h2 with
  | c :: d :: ks, _ =>
    have lt := (ascendingBy_cons.1 hk.asc).1 d (by simp)
    have key : ∀ z ∈ c :: d :: ks, hd z ≠ some x → ∃ k v, EL (c :: d :: ks) k v ∧ ∀ s, k ≠ x :: s := by
      intro z hz hne
      obtain ⟨k, v, he⟩ := (hf z hz).entry_below
      refine ⟨k, v, ⟨z, hz, he⟩, ?_⟩
      intro s e
      obtain ⟨y, r, e1, e2⟩ := entry_hd (hk.ne z hz) he
      rw [e] at e2
      simp only [List.cons.injEq] at e2
      exact hne (by rw [e1, e2.1])
    by_cases h : hd c = some x
    · refine key d (by simp) ?_
      intro e
      rw [h, e, cmp_self] at lt
      cases lt
    · exact key c (by simp) h

section node
variable {ret : Bool} {f : PredE S W} {p : List K} {va : Option V} {A out : List (Tree K V)} {vb : Option W} {B : List (Tree K W)} {c c1 c' : S}
  {fl : Flow} {log hdr : List ((List K × W) × Bool)} {pan : Option (List K × W)} {a : Tree K V} {b : Tree K W}

/-- the children of two nodes with the same path have been merged -/
theorem node_run (ka : Kids A) (kb : Kids B) (R : RunL ret f A B c1 out fl c' log pan)
    (hh : (vb = none ∧ c1 = c ∧ hdr = []) ∨ ∃ w, vb = some w ∧ f w c = (.ret false, c1) ∧ hdr = [((p, w), false)])
    (ea : ∀ k v, Entry a k v ↔ Entry ⟨p, va, A⟩ k v) (oa : ∀ k, OnWay a k ↔ OnWay ⟨p, va, A⟩ k) (eb : ∀ k w, Entry b k w ↔ Entry ⟨p, vb, B⟩ k w)
    (hpre : ∀ x, hd a = some x → hd b = some x → p.head? = some x) (hfull : a = empty ∨ Full a → ∀ x ∈ A, Full x)
    (hmax : Full a → Full b → va.isSome = true ∨ vb.isSome = true ∨ (2 ≤ A.length ∧ ∀ x ∈ A, Full x) ∨ (2 ≤ B.length ∧ ∀ y ∈ B, Full y)) :
    RunP ret f a b c (finishE ((⟨p, if ret then none else va, out⟩, c'), fl)) (hdr ++ pfxLog p log) (pan.map (pfx p)) := by
  have below : ∀ k w, (∃ k1, k = p ++ k1 ∧ QL A B k1 w) → ∃ x r, k = p ++ x :: r := by
    rintro k w ⟨k1, rfl, h⟩
    obtain ⟨_, _, x, r, _, rfl⟩ := h.head kb
    exact ⟨x, r, rfl⟩
  have qt : ∀ k w, QT a b k w ↔ (k = p ∧ vb = some w) ∨ ∃ k1, k = p ++ k1 ∧ QL A B k1 w := by
    intro k w
    rw [QT, eb, oa, entry_el]
    constructor
    · rintro ⟨h1 | ⟨k1, rfl, h1⟩, h2⟩
      · exact .inl h1
      · obtain ⟨_, _, x, r, _, rfl⟩ := el_hd kb h1
        exact .inr ⟨_, rfl, h1, onWay_below.1 h2⟩
    · rintro (⟨rfl, h⟩ | ⟨k1, rfl, h1, h2⟩)
      · exact ⟨.inl ⟨rfl, h⟩, onWay_self ⟨k, va, A⟩⟩
      · obtain ⟨_, _, x, r, _, rfl⟩ := el_hd kb h1
        exact ⟨.inr ⟨_, rfl, h1⟩, onWay_below.2 h2⟩
  have lg : LogOk (QT a b) f c (hdr ++ pfxLog p log) (pan.map (pfx p)) c' := by
    rcases hh with ⟨rfl, rfl, rfl⟩ | ⟨w, rfl, h1, rfl⟩
    · refine (R.lg.pfx p).congr ?_
      intro k w
      rw [qt]
      simp
    · exact (LogOk.root_false h1 below (R.lg.pfx p)).congr fun k w' => by rw [qt]
  have und : ∀ k, Under (hdr ++ pfxLog p log) k ↔ Under (pfxLog p log) k := by
    intro k
    rcases hh with ⟨_, _, rfl⟩ | ⟨w, _, _, rfl⟩
    · rfl
    · exact under_false
  have und0 : ¬ Under (hdr ++ pfxLog p log) p := by
    rw [und]
    have := under_pfx (p := p) (k := []) (log := log)
    rw [List.append_nil] at this
    rw [this]
    rintro ⟨s, r, w, e, hm⟩
    obtain ⟨_, _, x, t, _, rfl⟩ := (R.lg.of_log hm).head kb
    simp at e
  have und1 : ∀ k, Under (hdr ++ pfxLog p log) (p ++ k) ↔ Under log k := fun k => (und _).trans under_pfx
  have vt : Valid (⟨p, if ret then none else va, out⟩ : Tree K V) := valid_iff.2 R.kids
  have cont : ∀ k v, Entry ⟨p, if ret then none else va, out⟩ k v ↔
      (Entry a k v ∧ Surv ret (hdr ++ pfxLog p log) k) ∧ ∀ q, pan = some q → ∀ k1, k = p ++ k1 → k1 = [] ∨ HL k1 q.1 := by
    intro k v
    rw [ea, entry_el, entry_el]
    constructor
    · rintro (⟨rfl, h⟩ | ⟨k1, rfl, h⟩)
      · cases ret with
        | true => cases h
        | false =>
          refine ⟨⟨.inl ⟨rfl, h⟩, by simp [Surv, und0]⟩, ?_⟩
          intro q hq k1 e
          left
          simpa using e.symm
      · obtain ⟨h1, h2, h3⟩ := (R.content _ _).1 h
        refine ⟨⟨.inr ⟨k1, rfl, h1⟩, (und1 k1).trans h2⟩, ?_⟩
        intro q hq k2 e
        rw [List.append_cancel_left_eq] at e
        subst e
        exact .inr (h3 q hq)
    · rintro ⟨⟨⟨rfl, h⟩ | ⟨k1, rfl, h⟩, hs⟩, hc⟩
      · left
        refine ⟨rfl, ?_⟩
        cases ret with
        | true => exact absurd (hs.2 rfl) und0
        | false => exact h
      · refine .inr ⟨k1, rfl, (R.content _ _).2 ⟨h, (und1 k1).symm.trans hs, ?_⟩⟩
        intro q hq
        rcases hc q hq k1 rfl with rfl | h'
        · obtain ⟨_, _, _, _, _, e⟩ := el_hd ka h
          cases e
        · exact h'
  have hasA : ∀ k, HasEntry a k → ∃ s, k = p ++ s := by
    rintro k ⟨v, h⟩
    exact entry_pre ((ea k v).1 h)
  have hasB : ∀ k, HasEntry b k → ∃ s, k = p ++ s := by
    rintro k ⟨v, h⟩
    exact entry_pre ((eb k v).1 h)
  cases pan with
  | none =>
    have hfl : fl = .cont := R.fl
    subst hfl
    have e : finishE (((⟨p, if ret then none else va, out⟩ : Tree K V), c'), Flow.cont) =
      (((⟨p, if ret then none else va, out⟩ : Tree K V).unsplit, c'), .cont) := rfl
    rw [e]
    refine ⟨lg, rfl, vt.unsplit, ?_, ?_, ?_, by simp⟩
    · intro _ he x h1 h2
      obtain ⟨r, hr⟩ := unsplit_pre he
      rw [hd, hr]
      have := hpre x h1 h2
      simp only
      rw [List.head?_append, this]
      rfl
    · intro _ hf
      exact unsplit_full (R.full (hfull hf))
    · intro _ k v
      rw [entry_unsplit vt, cont]
      simp
  | some q =>
    have hfl : fl = .panic := R.fl
    subst hfl
    have e : finishE (((⟨p, if ret then none else va, out⟩ : Tree K V), c'), Flow.panic) =
      (((⟨p, if ret then none else va, out⟩ : Tree K V), c'), .panic) := rfl
    rw [e]
    refine ⟨lg, rfl, vt, by simp, by simp, by simp, ?_⟩
    intro q' hq'
    simp only [Option.map_some, Option.some.injEq] at hq'
    subst hq'
    obtain ⟨_, _, x, s, _, hq⟩ := (R.lg.of_pan rfl).head kb
    refine .inr ⟨p, x, s, by simp [pfx, hq], ?_, ?_, ?_⟩
    · rintro k (h | h)
      · exact hasA k h
      · exact hasB k h
    · intro fa fb
      have root : ∀ s, p ≠ p ++ x :: s := by
        intro s e
        have := congrArg List.length e
        simp at this
      rcases hmax fa fb with h | h | ⟨h1, h2⟩ | ⟨h1, h2⟩
      · obtain ⟨v, hv⟩ := Option.isSome_iff_exists.1 h
        exact ⟨p, .inl ⟨v, (ea _ _).2 (entry_el.2 (.inl ⟨rfl, hv⟩))⟩, root⟩
      · obtain ⟨v, hv⟩ := Option.isSome_iff_exists.1 h
        exact ⟨p, .inr ⟨v, (eb _ _).2 (entry_el.2 (.inl ⟨rfl, hv⟩))⟩, root⟩
      · obtain ⟨k, v, h3, h4⟩ := full_has_other ka h1 h2 x
        exact ⟨p ++ k, .inl ⟨v, (ea _ _).2 (entry_el.2 (.inr ⟨k, rfl, h3⟩))⟩, fun s e => h4 s (List.append_cancel_left e)⟩
      · obtain ⟨k, v, h3, h4⟩ := full_has_other kb h1 h2 x
        exact ⟨p ++ k, .inr ⟨v, (eb _ _).2 (entry_el.2 (.inr ⟨k, rfl, h3⟩))⟩, fun s e => h4 s (List.append_cancel_left e)⟩
    · intro k v
      rw [cont]
      refine and_congr_right fun hk => ?_
      obtain ⟨k1, rfl⟩ := hasA k ⟨v, hk.1⟩
      constructor
      · intro h
        rcases h q rfl k1 rfl with rfl | h
        · refine ⟨.inl ⟨x, s, by simp [pfx, hq]⟩, ?_⟩
          intro t e
          have := congrArg List.length e
          simp at this
        · refine ⟨lexLt_append p h.lex, ?_⟩
          intro t e
          rw [List.append_cancel_left_eq] at e
          obtain ⟨y, r, z, r', e1, e2, e3⟩ := h
          rw [e] at e1
          rw [hq] at e2
          simp only [List.cons.injEq] at e1 e2
          rw [← e1.1, ← e2.1, cmp_self] at e3
          cases e3
      · rintro ⟨h1, h2⟩ q' hq' k2 e
        cases hq'
        rw [List.append_cancel_left_eq] at e
        subst e
        cases k1 with
        | nil => exact .inl rfl
        | cons y k1 =>
          have h1 := lexLt_cancel.1 (show LexLt (p ++ y :: k1) (p ++ q.1) from h1)
          rw [hq] at h1
          rcases lexLt_cons h1 with h | ⟨h, _⟩
          · exact .inr ⟨y, k1, x, s, rfl, hq, h⟩
          · exact absurd (by rw [h]) (h2 k1)

omit [TransOrd K] [LawfulEqOrd K] [DecidableEq K] in
theorem onWay_of_prefix {a : Tree K V} {p r : List K} (h : a.pre = p ++ r) : OnWay a p := by
  obtain ⟨q, v, ks⟩ := a
  exact ⟨r, by rw [← h]; exact .here⟩

theorem qt_under {p r : List K} {w : W} (ha : a.pre = p ++ r) (hp : b.pre = p) (hv : b.val = some w) (hb : Valid b) (k : List K) (w' : W) :
    QT a b k w' ↔ (k = p ∧ some w = some w') ∨ (QT a b k w' ∧ ∃ x r, k = p ++ x :: r) := by
  constructor
  · intro h
    obtain ⟨s, e⟩ := entry_pre h.1
    cases s with
    | nil =>
      rw [hp, List.append_nil] at e
      subst e
      refine .inl ⟨rfl, ?_⟩
      obtain ⟨q, v, ks⟩ := b
      simp only at hp hv
      subst hp hv
      rcases entry_el.1 h.1 with ⟨_, h⟩ | ⟨k1, e, h⟩
      · exact h
      · obtain ⟨_, _, _, _, _, e'⟩ := el_hd hb.kids h
        subst e'
        have := congrArg List.length e
        simp at this
    | cons x s => exact .inr ⟨h, x, s, by rw [e, hp]⟩
  · rintro (⟨rfl, h⟩ | ⟨h, _⟩)
    · cases h
      refine ⟨?_, onWay_of_prefix ha⟩
      obtain ⟨q, v, ks⟩ := b
      simp only at hp hv
      subst hp hv
      exact .here
    · exact h

omit [LawfulEqOrd K] [TransOrd K] [DecidableEq K] in
theorem clear_unsplit (a : Tree K V) [LawfulEqOrd K] [TransOrd K] [DecidableEq K] : (clear a).unsplit = empty := by
  rcases unsplit_full (t := clear a) (by simp [clear]) with h | h
  · exact h
  · have := h.nonempty
    simp [clear, unsplit, dropEmptyKids, mergeOnlyChild, clearEmptyPrefix, isEmpty] at this

theorem not_entry_empty {k : List K} {v : V} : ¬ Entry (empty : Tree K V) k v := by
  intro h
  rcases entry_el.1 h with ⟨_, h⟩ | ⟨_, _, h⟩
  · cases h
  · exact not_el_nil h

/-- what is left when the node is treated as a whole: everything or nothing -/
theorem whole_run (ha : Valid a) {all : Bool} (lg : LogOk (QT a b) f c log none c') (hs : ∀ k v, Entry a k v → (Surv ret log k ↔ all = true)) :
    RunP ret f a b c (finishE ((if all then a else clear a, c'), .cont)) log none := by
  have e : finishE ((if all then a else clear a, c'), Flow.cont) = (((if all then a else clear a).unsplit, c'), .cont) := rfl
  rw [e]
  cases all with
  | true =>
    refine ⟨lg, rfl, ha.unsplit, ?_, ?_, ?_, by simp⟩
    · intro _ he x h1 h2
      obtain ⟨r, hr⟩ := unsplit_pre he
      rw [hd] at h1
      rw [hd, hr]
      simp only [↓reduceIte]
      rw [List.head?_append, h1]
      rfl
    · intro _ hf
      refine unsplit_full ?_
      rcases hf with rfl | hf
      · simp [empty]
      · simpa using (full_iff.1 hf).2
    · intro _ k v
      simp only [↓reduceIte]
      rw [entry_unsplit ha]
      constructor
      · intro h
        exact ⟨h, (hs k v h).2 rfl⟩
      · exact fun h => h.1
  | false =>
    simp only [Bool.false_eq_true, ↓reduceIte]
    rw [clear_unsplit]
    refine ⟨lg, rfl, valid_iff.2 Kids.nil, ?_, ?_, ?_, by simp⟩
    · intro _ he
      cases he
    · intro _ _
      exact .inl rfl
    · intro _ k v
      refine ⟨fun h => absurd h not_entry_empty, ?_⟩
      rintro ⟨h1, h2⟩
      exact absurd ((hs k v h1).1 h2) (by simp)

/-- the question about the root of `b` panicked -/
theorem root_panic_run (ha : Valid a) (hb : Valid b) {r : List K} {w : W} (hp : a.pre = b.pre ++ r) (hv : b.val = some w)
    (hf : f w c = (.panic, c')) : RunP ret f a b c (finishE ((a, c'), .panic)) [] (some (b.pre, w)) := by
  have e : finishE ((a, c'), Flow.panic) = ((a, c'), .panic) := rfl
  rw [e]
  refine ⟨(LogOk.root_panic (Q := fun k w' => QT a b k w' ∧ ∃ x r, k = b.pre ++ x :: r) hf fun k w h => h.2).congr (qt_under hp rfl hv hb), rfl, ha, by simp, by simp,
    by simp, ?_⟩
  intro q hq
  cases hq
  refine .inl ⟨rfl, rfl, ?_⟩
  have key : ∀ k s, k = b.pre ++ s → k = b.pre ∨ LexLt b.pre k := by
    rintro k s rfl
    cases s with
    | nil => exact .inl (by simp)
    | cons x s => exact .inr (.inl ⟨x, s, rfl⟩)
  rintro k (⟨v, h⟩ | ⟨v, h⟩)
  · obtain ⟨s, e⟩ := entry_pre h
    rw [hp, List.append_assoc] at e
    exact key k _ e
  · obtain ⟨s, e⟩ := entry_pre h
    exact key k _ e

/-- the root of `b` was selected -/
theorem root_true_run (ha : Valid a) (hb : Valid b) {r : List K} {w : W} (hp : a.pre = b.pre ++ r) (hv : b.val = some w)
    (hf : f w c = (.ret true, c')) : RunP ret f a b c (finishE ((if ret then a else clear a, c'), .cont)) [((b.pre, w), true)] none := by
  refine whole_run ha ((LogOk.root_true (Q := fun k w' => QT a b k w' ∧ ∃ x r, k = b.pre ++ x :: r) hf fun k w h => h.2).congr
    (qt_under hp rfl hv hb)) ?_
  intro k v h
  obtain ⟨s, e⟩ := entry_pre h
  rw [hp, List.append_assoc] at e
  have : Under [((b.pre, w), true)] k := ⟨b.pre, r ++ s, w, e, by simp⟩
  simp [Surv, this]

end node
end Tree
end Verif
