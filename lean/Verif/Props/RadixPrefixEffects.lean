import Verif.Lemmas.RadixPrefixCases
import Verif.Props.RadixEffects
import Verif.Props.Radix
/-!
# C84: on what, in which order and how often `remove_prefix_with` and `retain_prefix_with` ask their predicate, and what a panic leaves behind

The predicate may have side effects (a state of any type `S` that every call reads and changes) and may panic.
-/
namespace Verif
namespace Tree
open Std

variable {K V W S : Type} [Ord K] [TransOrd K] [LawfulEqOrd K] [DecidableEq K]

/-- nothing is on the way to a node of the empty tree but its root -/
theorem onWay_leads {a : Tree K V} (ha : Canonical a) (k : List K) : OnWay a k ↔ Leads a k := by
  rcases ha with ⟨ha, rfl | hf⟩
  · constructor
    · rintro ⟨r, h⟩
      rcases nodeBy_iff.1 h with h | ⟨c, hc, _⟩
      · exact .inl (List.append_eq_nil_iff.1 h).1
      · cases hc
    · rintro (rfl | ⟨r, v, h⟩)
      · exact onWay_self empty
      · exact absurd h not_entry_empty
  · constructor
    · rintro ⟨r, h⟩
      obtain ⟨s, h⟩ := hf.node_entry h
      exact .inr ⟨r ++ s, by rwa [← List.append_assoc]⟩
    · rintro (rfl | ⟨r, v, h⟩)
      · exact onWay_of_prefix rfl
      · exact ⟨r, h.node⟩

/-- what the run says, in the words of the specification -/
theorem prefix_run {ret : Bool} {f : PredE S W} {a : Tree K V} {b : Tree K W} {c : S} {r : (Tree K V × S) × Flow}
    (ha : Canonical a) {log : List ((List K × W) × Bool)} {pan : Option (List K × W)} (h : RunP ret f a b c r log pan) :
    Answers f c log pan r.1.2 ∧ AsksInOrder a b log pan ∧ r.2 = (if pan.isSome then .panic else .cont) ∧ Valid r.1.1 ∧
      (pan = none → Canonical r.1.1 ∧ ∀ k v, Entry r.1.1 k v ↔ Entry a k v ∧ (Under log k ↔ ret = true)) ∧
      ∀ q, pan = some q → CutShort a b log q.1 (fun k v => Entry a k v ∧ (Under log k ↔ ret = true)) r.1.1 := by
  refine ⟨h.lg.calls, ⟨h.lg.order, ?_⟩, h.fl, h.valid, ?_, ?_⟩
  · intro k w
    rw [h.lg.asked, QT, onWay_leads ha, and_assoc]
  · intro hp
    exact ⟨⟨h.valid, h.full hp ha.2⟩, h.done hp⟩
  · intro q hq
    have hQ := h.lg.of_pan hq
    rcases h.cut q hq with h1 | ⟨p, x, s, h1, h2, h3, h4⟩
    · exact .inl h1
    · refine .inr ⟨p, x, s, h1, h2, ?_, h4⟩
      intro hb
      have fa : Full a := by
        rcases ha.2 with rfl | hf
        · exfalso
          obtain ⟨_, t, ht⟩ := hQ
          rcases nodeBy_iff.1 ht with ht | ⟨c, hc, _⟩
          · rw [h1] at ht
            simp at ht
          · cases hc
        · exact hf
      have fb : Full b := by
        rcases hb.2 with rfl | hf
        · exact absurd hQ.1 not_entry_empty
        · exact hf
      exact h3 fa fb

/-- **C84 (remove_prefix_with).** The predicate is asked about the entries of `b` whose key is a prefix of some key of `a` (or empty) and not below a
key it has already said yes to, once each and by ascending key, until it panics; its state afterwards is that after these questions. Without a panic
just the entries that are not below a key it said yes to remain, in the canonical form. After a panic the tree is still valid and holds what
`CutShort` says. -/
theorem C84_remove_prefix_with (a : Tree K V) (b : Tree K W) (ha : Canonical a) (hb : Valid b) (f : W → S → Call Bool × S) (c : S) :
    ∃ log pan, Answers f c log pan (a.removePrefixWithE b f c).1.2 ∧ AsksInOrder a b log pan ∧
      (a.removePrefixWithE b f c).2 = (if pan.isSome then .panic else .cont) ∧ Valid (a.removePrefixWithE b f c).1.1 ∧
      (pan = none → Canonical (a.removePrefixWithE b f c).1.1 ∧
        ∀ k v, Entry (a.removePrefixWithE b f c).1.1 k v ↔ Entry a k v ∧ ¬ Under log k) ∧
      ∀ q, pan = some q → CutShort a b log q.1 (fun k v => Entry a k v ∧ ¬ Under log k) (a.removePrefixWithE b f c).1.1 := by
  obtain ⟨log, pan, h⟩ := removePrefixGoE_run f (a.size + b.size + 1) a b ha.1 hb (by omega) c
  have := prefix_run ha h
  simp only [Bool.false_eq_true, iff_false] at this
  exact ⟨log, pan, this⟩

/-- **C84 (retain_prefix_with).** The same questions; just the entries below a key the predicate said yes to remain. -/
theorem C84_retain_prefix_with (a : Tree K V) (b : Tree K W) (ha : Canonical a) (hb : Valid b) (f : W → S → Call Bool × S) (c : S) :
    ∃ log pan, Answers f c log pan (a.retainPrefixWithE b f c).1.2 ∧ AsksInOrder a b log pan ∧
      (a.retainPrefixWithE b f c).2 = (if pan.isSome then .panic else .cont) ∧ Valid (a.retainPrefixWithE b f c).1.1 ∧
      (pan = none → Canonical (a.retainPrefixWithE b f c).1.1 ∧
        ∀ k v, Entry (a.retainPrefixWithE b f c).1.1 k v ↔ Entry a k v ∧ Under log k) ∧
      ∀ q, pan = some q → CutShort a b log q.1 (fun k v => Entry a k v ∧ Under log k) (a.retainPrefixWithE b f c).1.1 := by
  obtain ⟨log, pan, h⟩ := retainPrefixGoE_run f (a.size + b.size + 1) a b ha.1 hb (by omega) c
  have := prefix_run ha h
  simp only [iff_true] at this
  exact ⟨log, pan, this⟩

omit [Ord K] [TransOrd K] [LawfulEqOrd K] [DecidableEq K] in
/-- a predicate without side effects gives the answers it gives, and never panics -/
theorem Answers.stateless {g : W → Bool} {log : List ((List K × W) × Bool)} {pan : Option (List K × W)} {c c' : S}
    (h : Answers (fun w c => (.ret (g w), c)) c log pan c') : c' = c ∧ pan = none ∧ ∀ q y, (q, y) ∈ log → y = g q.2 := by
  induction log with
  | nil =>
    cases pan with
    | none => exact ⟨h, rfl, by simp⟩
    | some q => cases h
  | cons e log ih =>
    obtain ⟨q, y⟩ := e
    obtain ⟨c1, h1, h2⟩ := h
    simp only [Prod.mk.injEq, Call.ret.injEq] at h1
    obtain ⟨h1, rfl⟩ := h1
    obtain ⟨i1, i2, i3⟩ := ih h2
    refine ⟨i1, i2, ?_⟩
    intro q' y' hm
    rcases List.mem_cons.1 hm with e | hm
    · cases e
      exact h1.symm
    · exact i3 q' y' hm

/-- though not every entry of `b` is asked about, the answers are enough -/
theorem under_covered {g : W → Bool} {a : Tree K V} {b : Tree K W} {log : List ((List K × W) × Bool)} {c c' : S}
    (h : Answers (fun w c => (.ret (g w), c)) c log none c') (hq : AsksInOrder a b log none) {k : List K} (hk : HasEntry a k) :
    Under log k ↔ CoveredBy b g k := by
  obtain ⟨_, _, h⟩ := h.stateless
  constructor
  · rintro ⟨p, r, w, e, hm⟩
    exact ⟨p, r, w, e, ((hq.asked p w).1 (.inl ⟨_, hm⟩)).1, (h _ _ hm).symm⟩
  · rintro ⟨p, r, w, rfl, he, hg⟩
    by_cases hb : Below log p
    · obtain ⟨p', x, s, w', rfl, hm⟩ := hb
      exact ⟨p', x :: s ++ r, w', by simp, hm⟩
    · rcases (hq.asked p w).2 ⟨he, .inr ⟨r, hk⟩, hb, by simp⟩ with ⟨y, hm⟩ | hm
      · refine ⟨p, r, w, rfl, ?_⟩
        have := h _ _ hm
        simp only [hg] at this
        rwa [this] at hm
      · cases hm

/-- **C84 (predicates without side effects).** For them this is C50: the two ways to describe these operations agree. -/
theorem C84_stateless (a : Tree K V) (b : Tree K W) (ha : Canonical a) (hb : Valid b) (g : W → Bool) (c : S) :
    (∃ r, a.removePrefixWithE b (fun w c => (.ret (g w), c)) c = ((r, c), .cont) ∧ Canonical r ∧
      (∀ k v, Entry r k v ↔ Entry a k v ∧ ¬ CoveredBy b g k) ∧ ∀ k v, Entry r k v ↔ Entry (a.removePrefixWith b g).1 k v) ∧
    ∃ r, a.retainPrefixWithE b (fun w c => (.ret (g w), c)) c = ((r, c), .cont) ∧ Canonical r ∧
      (∀ k v, Entry r k v ↔ Entry a k v ∧ CoveredBy b g k) ∧ ∀ k v, Entry r k v ↔ Entry (a.retainPrefixWith b g).1 k v := by
  constructor
  · obtain ⟨log, pan, h1, h2, h3, _, h5, _⟩ := C84_remove_prefix_with a b ha hb (fun w c => (.ret (g w), c)) c
    obtain ⟨e1, rfl, _⟩ := h1.stateless
    obtain ⟨h5, h6⟩ := h5 rfl
    obtain ⟨r', e, _, hr⟩ := C50_remove_prefix_with a b ha.1 hb g
    have key : ∀ k v, Entry (a.removePrefixWithE b (fun w c => (.ret (g w), c)) c).1.1 k v ↔ Entry a k v ∧ ¬ CoveredBy b g k := by
      intro k v
      rw [h6]
      refine and_congr_right fun hk => ?_
      rw [under_covered h1 h2 ⟨v, hk⟩]
    refine ⟨_, Prod.ext (Prod.ext rfl e1) h3, h5, key, ?_⟩
    intro k v
    rw [key, e, hr]
  · obtain ⟨log, pan, h1, h2, h3, _, h5, _⟩ := C84_retain_prefix_with a b ha hb (fun w c => (.ret (g w), c)) c
    obtain ⟨e1, rfl, _⟩ := h1.stateless
    obtain ⟨h5, h6⟩ := h5 rfl
    obtain ⟨r', e, _, hr⟩ := C50_retain_prefix_with a b ha.1 hb g
    have key : ∀ k v, Entry (a.retainPrefixWithE b (fun w c => (.ret (g w), c)) c).1.1 k v ↔ Entry a k v ∧ CoveredBy b g k := by
      intro k v
      rw [h6]
      refine and_congr_right fun hk => ?_
      rw [under_covered h1 h2 ⟨v, hk⟩]
    refine ⟨_, Prod.ext (Prod.ext rfl e1) h3, h5, key, ?_⟩
    intro k v
    rw [key, e, hr]

/-! ## Concrete cases -/

/-- entries `[1,2] ↦ 20`, `[1,2,7] ↦ 27`, `[1,3] ↦ 30`, `[1,4] ↦ 40`, `[1,4,8] ↦ 48` -/
def prefixDemo : Tree Nat Nat :=
  ⟨[1], none, [⟨[2], some 20, [⟨[7], some 27, []⟩]⟩, ⟨[3], some 30, []⟩, ⟨[4], some 40, [⟨[8], some 48, []⟩]⟩]⟩
/-- entries `[1] ↦ 0`, `[1,2] ↦ 1`, `[1,2,7] ↦ 2`, `[1,4,8] ↦ 3`, `[1,5] ↦ 4` -/
def prefixDemo' : Tree Nat Nat :=
  ⟨[1], some 0, [⟨[2], some 1, [⟨[7], some 2, []⟩]⟩, ⟨[4, 8], some 3, []⟩, ⟨[5], some 4, []⟩]⟩

theorem prefixDemo_canonical : Canonical prefixDemo ∧ Valid prefixDemo' := by
  have vl : ∀ p v, Valid (⟨p, some v, []⟩ : Tree Nat Nat) := fun p v => valid_iff.2 Kids.nil
  have v1 : ∀ p q v w, q ≠ [] → Valid (⟨p, some v, [⟨q, some w, []⟩]⟩ : Tree Nat Nat) := fun p q v w h =>
    valid_iff.2 ⟨by simpa using h, by simp [AscendingBy], by simp [vl]⟩
  have fl : ∀ p v, Full (⟨p, some v, []⟩ : Tree Nat Nat) := fun p v => full_iff.2 ⟨by simp, by simp⟩
  have f1 : ∀ p q v w, Full (⟨p, some v, [⟨q, some w, []⟩]⟩ : Tree Nat Nat) := fun p q v w => full_iff.2 ⟨by simp, by simp [fl]⟩
  refine ⟨⟨valid_iff.2 ⟨?_, ?_, ?_⟩, .inr (full_iff.2 ⟨?_, ?_⟩)⟩, valid_iff.2 ⟨?_, ?_, ?_⟩⟩
  · simp [prefixDemo]
  · simp [prefixDemo, AscendingBy, hd]; decide
  · simp [prefixDemo, vl, v1]
  · simp [prefixDemo]
  · simp [prefixDemo, fl, f1]
  · simp [prefixDemo']
  · simp [prefixDemo', AscendingBy, hd]; decide
  · simp [prefixDemo', vl, v1]

/-- record what is asked; say yes to the odd values; panic when asked about `stop` -/
def odd (stop : Nat) : Nat → List Nat → Call Bool × List Nat := fun w c => (if w = stop then .panic else .ret (w % 2 == 1), c ++ [w])

/-- asked about 0 (no), 1 (yes) and 3 (yes): not about 2, which is below 1, and not about 4, which is not on the way to a key of the left tree -/
example : prefixDemo.removePrefixWithE prefixDemo' (odd 9) [] = ((⟨[1], none, [⟨[3], some 30, []⟩, ⟨[4], some 40, []⟩]⟩, [0, 1, 3]), .cont) :=
  Prod.ext (Prod.ext (eq_of_treeEq _ _ (by decide +kernel)) (by decide +kernel)) (by decide +kernel)
example : prefixDemo.retainPrefixWithE prefixDemo' (odd 9) [] =
    ((⟨[1], none, [⟨[2], some 20, [⟨[7], some 27, []⟩]⟩, ⟨[4, 8], some 48, []⟩]⟩, [0, 1, 3]), .cont) :=
  Prod.ext (Prod.ext (eq_of_treeEq _ _ (by decide +kernel)) (by decide +kernel)) (by decide +kernel)
/-- the question about 3 panics: `[1,4]` and what is below it is gone, though a complete run would have kept `[1,4]` -/
example : prefixDemo.removePrefixWithE prefixDemo' (odd 3) [] = ((⟨[1], none, [⟨[3], some 30, []⟩]⟩, [0, 1, 3]), .panic) :=
  Prod.ext (Prod.ext (eq_of_treeEq _ _ (by decide +kernel)) (by decide +kernel)) (by decide +kernel)
/-- the first question panics: nothing is changed -/
example : prefixDemo.retainPrefixWithE prefixDemo' (odd 0) [] = ((prefixDemo, [0]), .panic) :=
  Prod.ext (Prod.ext (eq_of_treeEq _ _ (by decide +kernel)) (by decide +kernel)) (by decide +kernel)

end Tree
end Verif
