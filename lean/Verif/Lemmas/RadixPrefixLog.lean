import Verif.Lemmas.RadixJoinE
import Verif.Lemmas.RadixEffects
import Verif.Model.RadixPrefixEffects
import Verif.Spec.RadixPrefixEffects
/-! The questions the prefix operations ask. -/
namespace Verif
namespace Tree
open Std

section log
variable {K W S : Type _}

/-- put `p` in front of the keys of a log -/
def pfxLog (p : List K) (log : List ((List K × W) × Bool)) : List ((List K × W) × Bool) := log.map fun e => (pfx p e.1, e.2)

theorem mem_pfxLog {p k : List K} {w : W} {y : Bool} {log : List ((List K × W) × Bool)} :
    ((k, w), y) ∈ pfxLog p log ↔ ∃ k1, k = p ++ k1 ∧ ((k1, w), y) ∈ log := by
  simp only [pfxLog, List.mem_map, pfx, Prod.mk.injEq]
  constructor
  · rintro ⟨⟨⟨k1, w1⟩, y1⟩, h, ⟨h1, h2⟩, h3⟩
    simp only at h1 h2 h3
    subst h1 h2 h3
    exact ⟨k1, rfl, h⟩
  · rintro ⟨k1, rfl, h⟩
    exact ⟨_, h, ⟨rfl, rfl⟩, rfl⟩

theorem under_pfx {p k : List K} {log : List ((List K × W) × Bool)} : Under (pfxLog p log) (p ++ k) ↔ Under log k := by
  constructor
  · rintro ⟨s, r, w, h, hm⟩
    obtain ⟨s1, rfl, hm'⟩ := mem_pfxLog.1 hm
    rw [List.append_assoc, List.append_cancel_left_eq] at h
    exact ⟨s1, r, w, h, hm'⟩
  · rintro ⟨s, r, w, rfl, hm⟩
    exact ⟨p ++ s, r, w, by simp, mem_pfxLog.2 ⟨_, rfl, hm⟩⟩

theorem below_pfx {p k : List K} {log : List ((List K × W) × Bool)} : Below (pfxLog p log) (p ++ k) ↔ Below log k := by
  constructor
  · rintro ⟨s, x, r, w, h, hm⟩
    obtain ⟨s1, rfl, hm'⟩ := mem_pfxLog.1 hm
    rw [List.append_assoc, List.append_cancel_left_eq] at h
    exact ⟨s1, x, r, w, h, hm'⟩
  · rintro ⟨s, x, r, w, rfl, hm⟩
    exact ⟨p ++ s, x, r, w, by simp, mem_pfxLog.2 ⟨_, rfl, hm⟩⟩

theorem under_append {log log' : List ((List K × W) × Bool)} {k : List K} : Under (log ++ log') k ↔ Under log k ∨ Under log' k := by
  simp only [Under, List.mem_append]
  constructor
  · rintro ⟨p, r, w, h, hm | hm⟩
    · exact .inl ⟨p, r, w, h, hm⟩
    · exact .inr ⟨p, r, w, h, hm⟩
  · rintro (⟨p, r, w, h, hm⟩ | ⟨p, r, w, h, hm⟩)
    · exact ⟨p, r, w, h, .inl hm⟩
    · exact ⟨p, r, w, h, .inr hm⟩

theorem below_append {log log' : List ((List K × W) × Bool)} {k : List K} : Below (log ++ log') k ↔ Below log k ∨ Below log' k := by
  simp only [Below, List.mem_append]
  constructor
  · rintro ⟨p, x, r, w, h, hm | hm⟩
    · exact .inl ⟨p, x, r, w, h, hm⟩
    · exact .inr ⟨p, x, r, w, h, hm⟩
  · rintro (⟨p, x, r, w, h, hm⟩ | ⟨p, x, r, w, h, hm⟩)
    · exact ⟨p, x, r, w, h, .inl hm⟩
    · exact ⟨p, x, r, w, h, .inr hm⟩

theorem under_false {q : List K × W} {log : List ((List K × W) × Bool)} {k : List K} : Under ((q, false) :: log) k ↔ Under log k := by
  simp [Under]

theorem below_false {q : List K × W} {log : List ((List K × W) × Bool)} {k : List K} : Below ((q, false) :: log) k ↔ Below log k := by
  simp [Below]

theorem not_under_nil {k : List K} : ¬ Under ([] : List ((List K × W) × Bool)) k := by simp [Under]
theorem not_below_nil {k : List K} : ¬ Below ([] : List ((List K × W) × Bool)) k := by simp [Below]

theorem answers_pfx {f : PredE S W} {p : List K} {log : List ((List K × W) × Bool)} {pan : Option (List K × W)} {c c' : S}
    (h : Answers f c log pan c') : Answers f c (pfxLog p log) (pan.map (pfx p)) c' := by
  induction log generalizing c with
  | nil => cases pan <;> exact h
  | cons e log ih =>
    obtain ⟨c1, h1, h2⟩ := h
    exact ⟨c1, h1, ih h2⟩

theorem answers_append {f : PredE S W} {log log' : List ((List K × W) × Bool)} {pan : Option (List K × W)} {c c1 c' : S}
    (h : Answers f c log none c1) (h' : Answers f c1 log' pan c') : Answers f c (log ++ log') pan c' := by
  induction log generalizing c with
  | nil => cases h; exact h'
  | cons e log ih =>
    obtain ⟨c2, h1, h2⟩ := h
    exact ⟨c2, h1, ih h2⟩

variable [Ord K]

/-- the keys begin with different components, in this order -/
def HL (k k' : List K) : Prop := ∃ x r y s, k = x :: r ∧ k' = y :: s ∧ compare x y = .lt

theorem HL.lex {k k' : List K} (h : HL k k') : LexLt k k' := by
  obtain ⟨x, r, y, s, rfl, rfl, h⟩ := h
  exact .inr ⟨[], x, y, r, s, rfl, rfl, h⟩

/-- the log of a run that asks about `Q` -/
structure LogOk (Q : List K → W → Prop) (f : PredE S W) (c : S) (log : List ((List K × W) × Bool)) (pan : Option (List K × W)) (c' : S) : Prop where
  calls : Answers f c log pan c'
  order : (log.map (·.1.1) ++ (pan.map (·.1)).toList).Pairwise LexLt
  asked : ∀ k w, (∃ yes, ((k, w), yes) ∈ log) ∨ pan = some (k, w) ↔ Q k w ∧ ¬ Below log k ∧ ∀ q, pan = some q → k = q.1 ∨ LexLt k q.1

variable {Q Q1 Q2 : List K → W → Prop} {f : PredE S W} {c c1 c' : S} {log log1 log2 : List ((List K × W) × Bool)} {pan : Option (List K × W)}

theorem LogOk.of_log (h : LogOk Q f c log pan c') {k : List K} {w : W} {y : Bool} (hm : ((k, w), y) ∈ log) : Q k w :=
  ((h.asked k w).1 (.inl ⟨y, hm⟩)).1

theorem LogOk.of_pan (h : LogOk Q f c log pan c') {q : List K × W} (hq : pan = some q) : Q q.1 q.2 := ((h.asked q.1 q.2).1 (.inr hq)).1

theorem LogOk.congr (h : LogOk Q1 f c log pan c') (e : ∀ k w, Q2 k w ↔ Q1 k w) : LogOk Q2 f c log pan c' :=
  ⟨h.calls, h.order, fun k w => by rw [e]; exact h.asked k w⟩

theorem LogOk.quiet (e : ∀ k w, ¬ Q k w) : LogOk Q f c [] none c :=
  ⟨rfl, by simp, fun k w => by simp [e]⟩

variable [TransOrd K] [LawfulEqOrd K]

theorem HL.not_prefix {k k' r : List K} (h : HL k k') : k' ≠ k ++ r ∧ k ≠ k' ++ r := by
  obtain ⟨x, t, y, s, rfl, rfl, h⟩ := h
  constructor
  · intro e
    simp only [List.cons_append, List.cons.injEq] at e
    rw [e.1, cmp_self] at h
    cases h
  · intro e
    simp only [List.cons_append, List.cons.injEq] at e
    rw [e.1, cmp_self] at h
    cases h

theorem lexLt_cancel {p k k' : List K} : LexLt (p ++ k) (p ++ k') ↔ LexLt k k' := by
  refine ⟨?_, lexLt_append p⟩
  intro h
  induction p with
  | nil => exact h
  | cons x p ih =>
    rcases lexLt_cons h with h | ⟨_, h⟩
    · rw [cmp_self] at h; cases h
    · exact ih h

theorem LogOk.pfx (h : LogOk Q f c log pan c') (p : List K) :
    LogOk (fun k w => ∃ k1, k = p ++ k1 ∧ Q k1 w) f c (pfxLog p log) (pan.map (pfx p)) c' where
  calls := answers_pfx h.calls
  order := by
    have e : (pfxLog p log).map (·.1.1) ++ ((pan.map (Tree.pfx p)).map (·.1)).toList = (log.map (·.1.1) ++ (pan.map (·.1)).toList).map (p ++ ·) := by
      rw [List.map_append]
      congr 1
      · simp [pfxLog, Tree.pfx]
      · cases pan <;> simp [Tree.pfx]
    rw [e, List.pairwise_map]
    exact h.order.imp fun h => lexLt_append p h
  asked k w := by
    constructor
    · intro hk
      obtain ⟨k1, rfl, hk'⟩ : ∃ k1, k = p ++ k1 ∧ ((∃ yes, ((k1, w), yes) ∈ log) ∨ pan = some (k1, w)) := by
        rcases hk with ⟨y, hk⟩ | hk
        · obtain ⟨k1, rfl, hk'⟩ := mem_pfxLog.1 hk
          exact ⟨k1, rfl, .inl ⟨y, hk'⟩⟩
        · rw [Option.map_eq_some_iff] at hk
          obtain ⟨⟨k1, w1⟩, h1, h2⟩ := hk
          simp only [Tree.pfx, Prod.mk.injEq] at h2
          obtain ⟨rfl, rfl⟩ := h2
          exact ⟨k1, rfl, .inr h1⟩
      obtain ⟨h1, h2, h3⟩ := (h.asked k1 w).1 hk'
      refine ⟨⟨k1, rfl, h1⟩, by rwa [below_pfx], ?_⟩
      intro q hq
      rw [Option.map_eq_some_iff] at hq
      obtain ⟨q1, hq, rfl⟩ := hq
      rcases h3 q1 hq with h | h
      · exact .inl (by rw [h]; rfl)
      · exact .inr (lexLt_append p h)
    · rintro ⟨⟨k1, rfl, h1⟩, h2, h3⟩
      rw [below_pfx] at h2
      have hl : ∀ q, pan = some q → k1 = q.1 ∨ LexLt k1 q.1 := by
        intro q hq
        rcases h3 (Tree.pfx p q) (by rw [hq]; rfl) with h | h
        · simp only [Tree.pfx, List.append_cancel_left_eq] at h
          exact .inl h
        · exact .inr (lexLt_cancel.1 h)
      rcases (h.asked k1 w).2 ⟨h1, h2, hl⟩ with ⟨y, hk⟩ | hk
      · exact .inl ⟨y, mem_pfxLog.2 ⟨k1, rfl, hk⟩⟩
      · exact .inr (by rw [hk]; rfl)

/-- one run after another -/
theorem LogOk.append (h1 : LogOk Q1 f c log1 none c1) (h2 : LogOk Q2 f c1 log2 pan c') (hx : ∀ k w k' w', Q1 k w → Q2 k' w' → HL k k') :
    LogOk (fun k w => Q1 k w ∨ Q2 k w) f c (log1 ++ log2) pan c' where
  calls := answers_append h1.calls h2.calls
  order := by
    have o1 := h1.order
    simp only [Option.map_none, Option.toList, List.append_nil] at o1
    rw [List.map_append, List.append_assoc, List.pairwise_append]
    refine ⟨o1, h2.order, ?_⟩
    intro a ha b hb
    obtain ⟨⟨⟨k, w⟩, y⟩, hm, rfl⟩ := List.mem_map.1 ha
    have q1 := h1.of_log hm
    rcases List.mem_append.1 hb with hb | hb
    · obtain ⟨⟨⟨k', w'⟩, y'⟩, hm', rfl⟩ := List.mem_map.1 hb
      exact (hx _ _ _ _ q1 (h2.of_log hm')).lex
    · rw [Option.mem_toList, Option.map_eq_some_iff] at hb
      obtain ⟨q, hq, rfl⟩ := hb
      exact (hx _ _ _ _ q1 (h2.of_pan hq)).lex
  asked k w := by
    have nb1 : ∀ {k w}, Q1 k w → ¬ Below log2 k := by
      rintro k w hq ⟨p, x, r, v, e, hm⟩
      exact (hx _ _ _ _ hq (h2.of_log hm)).not_prefix.2 e
    have nb2 : ∀ {k w}, Q2 k w → ¬ Below log1 k := by
      rintro k w hq ⟨p, x, r, v, e, hm⟩
      exact (hx _ _ _ _ (h1.of_log hm) hq).not_prefix.1 e
    have a1 := h1.asked k w
    simp only [reduceCtorEq, or_false, false_implies, implies_true, and_true] at a1
    have a2 := h2.asked k w
    rw [below_append]
    constructor
    · rintro (⟨y, hm⟩ | hp)
      · rcases List.mem_append.1 hm with hm | hm
        · obtain ⟨g1, g2⟩ := a1.1 ⟨y, hm⟩
          refine ⟨.inl g1, ?_, ?_⟩
          · rintro (h | h)
            · exact g2 h
            · exact nb1 g1 h
          · intro q hq
            exact .inr (hx _ _ _ _ g1 (h2.of_pan hq)).lex
        · obtain ⟨g1, g2, g3⟩ := a2.1 (.inl ⟨y, hm⟩)
          refine ⟨.inr g1, ?_, g3⟩
          rintro (h | h)
          · exact nb2 g1 h
          · exact g2 h
      · obtain ⟨g1, g2, g3⟩ := a2.1 (.inr hp)
        refine ⟨.inr g1, ?_, g3⟩
        rintro (h | h)
        · exact nb2 g1 h
        · exact g2 h
    · rintro ⟨hq | hq, hb, hl⟩
      · obtain ⟨y, hm⟩ := a1.2 ⟨hq, fun h => hb (.inl h)⟩
        exact .inl ⟨y, by simp [hm]⟩
      · rcases a2.2 ⟨hq, fun h => hb (.inr h), hl⟩ with ⟨y, hm⟩ | hp
        · exact .inl ⟨y, by simp [hm]⟩
        · exact .inr hp

/-- a run that panics, with nothing after it -/
theorem LogOk.stop {q : List K × W} (h1 : LogOk Q1 f c log1 (some q) c1) (hx : ∀ k w k' w', Q1 k w → Q2 k' w' → HL k k') :
    LogOk (fun k w => Q1 k w ∨ Q2 k w) f c log1 (some q) c1 where
  calls := h1.calls
  order := h1.order
  asked k w := by
    rw [h1.asked k w]
    constructor
    · rintro ⟨g1, g2⟩
      exact ⟨.inl g1, g2⟩
    · rintro ⟨hq | hq, hb, hl⟩
      · exact ⟨hq, hb, hl⟩
      · exfalso
        have hl' := hx _ _ _ _ (h1.of_pan rfl) hq
        rcases hl q rfl with e | e
        · exact (hl'.not_prefix (r := [])).1 (by simp [e])
        · exact lexLt_asymm hl'.lex e

/-- the node itself was selected -/
theorem LogOk.root_true {p : List K} {w : W} (hf : f w c = (.ret true, c1)) (hb : ∀ k w, Q k w → ∃ x r, k = p ++ x :: r) :
    LogOk (fun k w' => (k = p ∧ some w = some w') ∨ Q k w') f c [((p, w), true)] none c1 where
  calls := ⟨c1, hf, rfl⟩
  order := by simp
  asked k w' := by
    simp only [List.mem_singleton, Prod.mk.injEq, reduceCtorEq, or_false, false_implies, implies_true, and_true, Option.some.injEq]
    constructor
    · rintro ⟨_, ⟨rfl, rfl⟩, _⟩
      refine ⟨.inl ⟨rfl, rfl⟩, ?_⟩
      rintro ⟨s, x, r, v, e, hm⟩
      simp only [List.mem_singleton, Prod.mk.injEq] at hm
      have := congrArg List.length e
      rw [hm.1.1] at this
      simp at this
    · rintro ⟨⟨rfl, rfl⟩ | h, hn⟩
      · exact ⟨true, ⟨rfl, rfl⟩, rfl⟩
      · obtain ⟨x, r, e⟩ := hb _ _ h
        exact absurd ⟨p, x, r, w, e, by simp⟩ hn

/-- the node itself was not selected -/
theorem LogOk.root_false {p : List K} {w : W} (hf : f w c = (.ret false, c1)) (hb : ∀ k w, Q k w → ∃ x r, k = p ++ x :: r)
    (h : LogOk Q f c1 log pan c') : LogOk (fun k w' => (k = p ∧ some w = some w') ∨ Q k w') f c (((p, w), false) :: log) pan c' where
  calls := ⟨c1, hf, h.calls⟩
  order := by
    rw [List.map_cons, List.cons_append, List.pairwise_cons]
    refine ⟨?_, h.order⟩
    intro k hk
    have lt : ∀ {k w}, Q k w → LexLt p k := by
      intro k w hq
      obtain ⟨x, r, rfl⟩ := hb _ _ hq
      exact .inl ⟨x, r, rfl⟩
    rcases List.mem_append.1 hk with hk | hk
    · obtain ⟨⟨⟨k', w'⟩, y'⟩, hm', rfl⟩ := List.mem_map.1 hk
      exact lt (h.of_log hm')
    · rw [Option.mem_toList, Option.map_eq_some_iff] at hk
      obtain ⟨q, hq, rfl⟩ := hk
      exact lt (h.of_pan hq)
  asked k w' := by
    have nb : ¬ Below log p := by
      rintro ⟨s, x, r, v, e, hm⟩
      obtain ⟨y, t, e'⟩ := hb _ _ (h.of_log hm)
      have := congrArg List.length e
      rw [e'] at this
      simp at this
    rw [below_false]
    constructor
    · rintro (⟨y, hm⟩ | hp)
      · rcases List.mem_cons.1 hm with hm | hm
        · simp only [Prod.mk.injEq] at hm
          obtain ⟨⟨rfl, rfl⟩, _⟩ := hm
          refine ⟨.inl ⟨rfl, rfl⟩, nb, ?_⟩
          intro q hq
          obtain ⟨x, r, e⟩ := hb _ _ (h.of_pan hq)
          exact .inr (.inl ⟨x, r, e⟩)
        · obtain ⟨g1, g2⟩ := (h.asked k w').1 (.inl ⟨y, hm⟩)
          exact ⟨.inr g1, g2⟩
      · obtain ⟨g1, g2⟩ := (h.asked k w').1 (.inr hp)
        exact ⟨.inr g1, g2⟩
    · rintro ⟨⟨rfl, e⟩ | hq, g2⟩
      · cases e
        exact .inl ⟨false, by simp⟩
      · rcases (h.asked k w').2 ⟨hq, g2⟩ with ⟨y, hm⟩ | hp
        · exact .inl ⟨y, by simp [hm]⟩
        · exact .inr hp

/-- the question about the node itself panicked -/
theorem LogOk.root_panic {p : List K} {w : W} (hf : f w c = (.panic, c1)) (hb : ∀ k w, Q k w → ∃ x r, k = p ++ x :: r) :
    LogOk (fun k w' => (k = p ∧ some w = some w') ∨ Q k w') f c [] (some (p, w)) c1 where
  calls := hf
  order := by simp
  asked k w' := by
    simp only [List.not_mem_nil, exists_false, false_or, Option.some.injEq, Prod.mk.injEq, not_below_nil, not_false_eq_true, true_and]
    constructor
    · rintro ⟨rfl, rfl⟩
      exact ⟨.inl ⟨rfl, rfl⟩, by rintro q rfl; exact .inl rfl⟩
    · rintro ⟨⟨rfl, rfl⟩ | hq, hl⟩
      · exact ⟨rfl, rfl⟩
      · exfalso
        obtain ⟨x, r, rfl⟩ := hb _ _ hq
        rcases hl _ rfl with e | e
        · have := congrArg List.length e
          simp at this
        · exact lexLt_asymm e (.inl ⟨x, r, rfl⟩)

end log
end Tree
end Verif
