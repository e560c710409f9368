import Verif.Lemmas.RadixSem
import Verif.Lemmas.RadixMisc
import Verif.Spec.RadixHistory
/-! Histories of radix trees compute what they mean. -/
namespace Verif
namespace Tree
open Std

section
variable {K : Type} [Ord K] [TransOrd K] [LawfulEqOrd K] [DecidableEq K] {V W : Type}

theorem has_iff {t : Tree K V} (h : Valid t) {k : List K} : HasEntry t k ↔ (den t k).isSome = true := by
  constructor
  · rintro ⟨v, hv⟩
    rw [(den_iff_entry h k v).2 hv]; rfl
  · intro hs
    obtain ⟨v, hv⟩ := Option.isSome_iff_exists.1 hs
    exact ⟨v, (den_iff_entry h k v).1 hv⟩

theorem canonical_empty : Canonical (empty : Tree K V) := ⟨valid_empty, .inl rfl⟩
theorem canonical_single (k : List K) (v : V) : Canonical (single k v : Tree K V) :=
  ⟨valid_iff.2 Kids.nil, .inr (full_iff.2 ⟨by simp [single], by simp [single]⟩)⟩

theorem den_single (k : List K) (v : V) (k' : List K) : den (single k v) k' = if k' = k then some v else none := by
  by_cases h : k' = k
  · subst h
    rw [if_pos rfl]
    exact den_at (single k' v)
  · rw [if_neg h]
    by_cases hp : ∃ r, k' = k ++ r
    · obtain ⟨r, rfl⟩ := hp
      cases r with
      | nil => simp at h
      | cons c r => exact den_below (single k v) c r
    · exact den_out (single k v) k' (fun r e => hp ⟨r, e⟩)

theorem closure_noPanic (f : V → W → V × Bool) : NoPanic (closure f) := by
  intro v w h; cases h
theorem pureOf_closure (f : V → W → V × Bool) : pureOf (closure f) = fun v w => kept (f v w) := by
  funext v w
  rcases h : f v w with ⟨x, b⟩
  cases b <;> simp [pureOf, closure, h, kept]

theorem outerPureVal_eq (f : V → V → Option V) (v w : Option V) : outerPureVal f v w = onEither f v w := by
  cases v <;> cases w <;> rfl
theorem innerPureVal_eq (f : V → W → Option V) (v : Option V) (w : Option W) : innerPureVal f v w = onBoth f v w := by
  cases v <;> cases w <;> rfl
theorem leftMutVal_eq (f : V → W → Option V) (v : Option V) (w : Option W) : leftMutVal f v w = onLeft f v w := by
  cases v <;> cases w <;> rfl

theorem outerWith_good {a b : Tree K V} (ha : Valid a) (hb : Valid b) (f : V → V → V × Bool) :
    ∃ r, outerCombineWith a b (closure f) = (r, .cont) ∧ outerCombine a b (fun v w => kept (f v w)) = .ret r ∧ Shape a b r ∧
      ∀ k, den r k = onEither (fun v w => kept (f v w)) (den a k) (den b k) := by
  obtain ⟨r, hr, hs, hd⟩ := outerCombine_spec ha hb (fun v w => kept (f v w))
  refine ⟨r, ?_, hr, hs, fun k => by rw [hd, outerPureVal_eq]⟩
  rw [outerCombineWith_spec ha hb (closure_noPanic f), pureOf_closure, hr]

theorem innerWith_good {a : Tree K V} {b : Tree K W} (ha : Valid a) (hb : Valid b) (f : V → W → V × Bool) :
    ∃ r, innerCombineWith a b (closure f) = (r, .cont) ∧ innerCombine a b (fun v w => kept (f v w)) = .ret r ∧ Shape a b r ∧
      ∀ k, den r k = onBoth (fun v w => kept (f v w)) (den a k) (den b k) := by
  obtain ⟨r, hr, hs, hd⟩ := innerCombine_spec ha hb (fun v w => kept (f v w))
  refine ⟨r, ?_, hr, hs, fun k => by rw [hd, innerPureVal_eq]⟩
  rw [innerCombineWith_spec ha hb (closure_noPanic f), pureOf_closure, hr]

/-- `left_combine_with` and the `left_combine` that keeps unmatched values -/
theorem leftWith_good {a : Tree K V} {b : Tree K W} (ha : Valid a) (hb : Valid b) (f : V → W → V × Bool) :
    ∃ r, leftCombineWith a b (closure f) = (r, .cont) ∧
      leftCombine a b (fun v w => onLeft (fun v w => kept (f v w)) (some v) w) = .ret r ∧ Shape a b r ∧
      ∀ k, den r k = onLeft (fun v w => kept (f v w)) (den a k) (den b k) := by
  obtain ⟨r, hr, hs, hd⟩ := leftCombineWith_spec ha hb (closure_noPanic f)
  obtain ⟨r', hr', _⟩ := leftCombine_spec ha hb (fun v w => onLeft (fun v w => kept (f v w)) (some v) w)
  have e := leftCombine_eq ha hb (closure_noPanic f) (g := fun v w => onLeft (fun v w => kept (f v w)) (some v) w)
    (fun v w => by rw [pureOf_closure, leftMutVal_eq])
  rw [hr'] at e
  rw [hr] at e
  simp only [Prod.mk.injEq, and_true] at e
  subst e
  refine ⟨r, hr, hr', hs, fun k => by rw [hd, pureOf_closure, leftMutVal_eq]⟩

theorem insert_good {a : Tree K V} (ha : Valid a) (k : List K) (v : V) :
    ∃ r, insert a k v = (r, .cont) ∧ Valid r ∧ (Canonical a → Canonical r) ∧ ∀ k', den r k' = if k' = k then some v else den a k' := by
  obtain ⟨r, hr, _, hs, hd⟩ := outerWith_good ha (canonical_single k v).1 (fun _ w => (w, true))
  refine ⟨r, hr, hs.valid, fun h => hs.canonical h (canonical_single k v), fun k' => ?_⟩
  rw [hd, den_single]
  by_cases e : k' = k
  · simp only [if_pos e]
    cases den a k' <;> rfl
  · simp only [if_neg e]
    cases den a k' <;> rfl

theorem unionWith_good {a b : Tree K V} (ha : Valid a) (hb : Valid b) :
    ∃ r, unionWith a b = (r, .cont) ∧ union a b = .ret r ∧ Shape a b r ∧ ∀ k, den r k = (den a k).or (den b k) := by
  obtain ⟨r, h1, h2, h3, h4⟩ := outerWith_good ha hb (fun v _ => (v, true))
  refine ⟨r, h1, h2, h3, fun k => ?_⟩
  rw [h4]
  cases den a k <;> cases den b k <;> rfl

theorem intersectionWith_good {a : Tree K V} {b : Tree K W} (ha : Valid a) (hb : Valid b) :
    ∃ r, intersectionWith a b = (r, .cont) ∧ intersection a b = .ret r ∧ Shape a b r ∧
      ∀ k, den r k = if (den b k).isSome then den a k else none := by
  obtain ⟨r, h1, h2, h3, h4⟩ := innerWith_good ha hb (fun v _ => (v, true))
  refine ⟨r, h1, h2, h3, fun k => ?_⟩
  rw [h4]
  cases den a k <;> cases den b k <;> rfl

theorem differenceWith_good {a : Tree K V} {b : Tree K W} (ha : Valid a) (hb : Valid b) :
    ∃ r, differenceWith a b = (r, .cont) ∧ difference a b = .ret r ∧ Shape a b r ∧
      ∀ k, den r k = if (den b k).isSome then none else den a k := by
  obtain ⟨r, h1, h2, h3, h4⟩ := leftWith_good ha hb (fun v _ => (v, false))
  refine ⟨r, h1, ?_, h3, fun k => ?_⟩
  · rw [← h2]
    unfold difference
    congr 1
    funext v w
    cases w <;> rfl
  · rw [h4]
    cases den a k <;> cases den b k <;> rfl

theorem fromIter_good (l : List (List K × V)) : ∀ (a : Tree K V), Canonical a →
    ∃ r, l.foldl (fun r e => andThen r fun t => t.insert e.1 e.2) (a, .cont) = (r, .cont) ∧ Canonical r ∧
      ∀ k, den r k = (assoc l.reverse k).or (den a k) := by
  have assoc_append : ∀ (l : List (List K × V)) e k, assoc (l ++ [e]) k = (assoc l k).or (if e.1 = k then some e.2 else none) := by
    intro l e k
    induction l with
    | nil => rfl
    | cons x l ih =>
      rw [List.cons_append, assoc, assoc, ih]
      split <;> rfl
  induction l with
  | nil => intro a h; exact ⟨a, rfl, h, fun k => rfl⟩
  | cons e l ih =>
    intro a h
    obtain ⟨a', h1, h2, h3, h4⟩ := insert_good h.1 e.1 e.2
    obtain ⟨r, hr, hc, hd⟩ := ih a' (h3 h)
    refine ⟨r, ?_, hc, fun k => ?_⟩
    · rw [List.foldl_cons]
      rw [show andThen (a, Flow.cont) (fun t => t.insert e.1 e.2) = (a', .cont) from h1]
      exact hr
    · rw [hd, List.reverse_cons, assoc_append, h4]
      by_cases ek : k = e.1
      · rw [if_pos ek, if_pos ek.symm]
        cases assoc l.reverse k <;> rfl
      · rw [if_neg ek, if_neg (fun x => ek x.symm)]
        cases assoc l.reverse k <;> rfl

theorem leftCombine_good {a : Tree K V} {b : Tree K W} (ha : Valid a) (hb : Canonical b) (f : V → Option W → Option V) :
    ∃ r, leftCombine a b f = .ret r ∧ Shape a b r ∧ ∀ k,
      ((den b k).isSome = true ∨ Branch b k ∨ (b = empty ∧ k = []) → den r k = (den a k).bind (fun v => f v (den b k))) ∧
      (¬((den b k).isSome = true ∨ Branch b k ∨ (b = empty ∧ k = [])) → den r k = den a k) := by
  obtain ⟨r, hr, hs, hd⟩ := leftCombine_spec ha hb.1 f
  refine ⟨r, hr, hs, fun k => ?_⟩
  rw [← nodeAt_canonical hb k, hd, nodeAt_join _ b (Nat.le_refl _) hb.1 k]
  cases nodeAt b k with
  | none => exact ⟨fun h => (by cases h), fun _ => rfl⟩
  | some w =>
    refine ⟨fun _ => ?_, fun h => absurd rfl h⟩
    cases den a k <;> rfl

theorem empty_iff {b : Tree K V} (h : Canonical b) : b = empty ↔ ∀ k, den b k = none := by
  constructor
  · rintro rfl k; exact den_empty_none rfl k
  · intro hn
    rcases h with ⟨hv, he | hf⟩
    · exact he
    · obtain ⟨k, hk⟩ := Full.has _ b (Nat.le_refl _) hv hf
      rw [hn] at hk; cases hk

theorem run_spec : {V : Type} → (h : Prog K V) → ∃ t, h.run = .ret t ∧ Canonical t ∧ ∀ k, den t k = h.meaning k
  | _, .empty => ⟨_, rfl, canonical_empty, fun k => den_empty_none rfl k⟩
  | _, .leaf v => ⟨_, rfl, canonical_single [] v, fun k => den_single [] v k⟩
  | _, .single k v => ⟨_, rfl, canonical_single k v, fun k' => den_single k v k'⟩
  | _, .fromIter l => by
    obtain ⟨r, hr, hc, hd⟩ := fromIter_good l (empty : Tree K _) canonical_empty
    refine ⟨r, ?_, hc, fun k => ?_⟩
    · show outcome (Tree.fromIter l) = _
      unfold Tree.fromIter; rw [hr]; rfl
    · rw [hd, den_empty_none rfl]
      show _ = assoc l.reverse k
      cases assoc l.reverse k <;> rfl
  | _, .insert a k v => by
    obtain ⟨t, ht, hc, hd⟩ := run_spec a
    obtain ⟨r, hr, _, hcr, hdr⟩ := insert_good hc.1 k v
    refine ⟨r, ?_, hcr hc, fun k' => ?_⟩
    · simp only [Prog.run, ht, bindC, hr, outcome]
    · rw [hdr, hd]; rfl
  | _, .prepend a p => by
    obtain ⟨t, ht, hc, hd⟩ := run_spec a
    refine ⟨t.prepend p, ?_, hc.prepend p, fun k => ?_⟩
    · simp only [Prog.run, ht, bindC]
    · rw [prepend_den', hd]
      rfl
  | _, .filterPrefix a p => by
    obtain ⟨t, ht, hc, hd⟩ := run_spec a
    obtain ⟨r, hr, _, hcr, hin, hout⟩ := filterPrefix_spec hc.1 p
    refine ⟨r, ?_, hcr hc, fun k => ?_⟩
    · simp only [Prog.run, ht, bindC, hr]
    · simp only [Prog.meaning]
      by_cases hp : p <+: k
      · rw [if_pos hp, ← hd]
        obtain ⟨s, rfl⟩ := hp
        exact hin s
      · rw [if_neg hp]
        exact hout k (fun s e => hp ⟨s, e.symm⟩)
  | _, .union a b => by
    obtain ⟨t, ht, hc, hd⟩ := run_spec a
    obtain ⟨u, hu, hcu, hdu⟩ := run_spec b
    obtain ⟨r, _, hr, hs, hdr⟩ := unionWith_good hc.1 hcu.1
    refine ⟨r, ?_, hs.canonical hc hcu, fun k => ?_⟩
    · simp only [Prog.run, ht, hu, bindC, hr]
    · rw [hdr, hd, hdu]; rfl
  | _, .unionWith a b => by
    obtain ⟨t, ht, hc, hd⟩ := run_spec a
    obtain ⟨u, hu, hcu, hdu⟩ := run_spec b
    obtain ⟨r, hr, _, hs, hdr⟩ := unionWith_good hc.1 hcu.1
    refine ⟨r, ?_, hs.canonical hc hcu, fun k => ?_⟩
    · simp only [Prog.run, ht, hu, bindC, hr, outcome]
    · rw [hdr, hd, hdu]; rfl
  | _, .intersection a b => by
    obtain ⟨t, ht, hc, hd⟩ := run_spec a
    obtain ⟨u, hu, hcu, hdu⟩ := run_spec b
    obtain ⟨r, _, hr, hs, hdr⟩ := intersectionWith_good hc.1 hcu.1
    refine ⟨r, ?_, hs.canonical hc hcu, fun k => ?_⟩
    · simp only [Prog.run, ht, hu, bindC, hr]
    · rw [hdr, hd, hdu]; rfl
  | _, .intersectionWith a b => by
    obtain ⟨t, ht, hc, hd⟩ := run_spec a
    obtain ⟨u, hu, hcu, hdu⟩ := run_spec b
    obtain ⟨r, hr, _, hs, hdr⟩ := intersectionWith_good hc.1 hcu.1
    refine ⟨r, ?_, hs.canonical hc hcu, fun k => ?_⟩
    · simp only [Prog.run, ht, hu, bindC, hr, outcome]
    · rw [hdr, hd, hdu]; rfl
  | _, .difference a b => by
    obtain ⟨t, ht, hc, hd⟩ := run_spec a
    obtain ⟨u, hu, hcu, hdu⟩ := run_spec b
    obtain ⟨r, _, hr, hs, hdr⟩ := differenceWith_good hc.1 hcu.1
    refine ⟨r, ?_, hs.canonical hc hcu, fun k => ?_⟩
    · simp only [Prog.run, ht, hu, bindC, hr]
    · rw [hdr, hd, hdu]; rfl
  | _, .differenceWith a b => by
    obtain ⟨t, ht, hc, hd⟩ := run_spec a
    obtain ⟨u, hu, hcu, hdu⟩ := run_spec b
    obtain ⟨r, hr, _, hs, hdr⟩ := differenceWith_good hc.1 hcu.1
    refine ⟨r, ?_, hs.canonical hc hcu, fun k => ?_⟩
    · simp only [Prog.run, ht, hu, bindC, hr, outcome]
    · rw [hdr, hd, hdu]; rfl
  | _, .outerCombine a b f => by
    obtain ⟨t, ht, hc, hd⟩ := run_spec a
    obtain ⟨u, hu, hcu, hdu⟩ := run_spec b
    obtain ⟨r, hr, hs, hdr⟩ := outerCombine_spec hc.1 hcu.1 f
    refine ⟨r, ?_, hs.canonical hc hcu, fun k => ?_⟩
    · simp only [Prog.run, ht, hu, bindC, hr]
    · rw [hdr, hd, hdu, outerPureVal_eq]; rfl
  | _, .outerCombineWith a b f => by
    obtain ⟨t, ht, hc, hd⟩ := run_spec a
    obtain ⟨u, hu, hcu, hdu⟩ := run_spec b
    obtain ⟨r, hr, _, hs, hdr⟩ := outerWith_good hc.1 hcu.1 f
    refine ⟨r, ?_, hs.canonical hc hcu, fun k => ?_⟩
    · simp only [Prog.run, ht, hu, bindC, hr, outcome]
    · rw [hdr, hd, hdu]; rfl
  | _, .innerCombine a b f => by
    obtain ⟨t, ht, hc, hd⟩ := run_spec a
    obtain ⟨u, hu, hcu, hdu⟩ := run_spec b
    obtain ⟨r, hr, hs, hdr⟩ := innerCombine_spec hc.1 hcu.1 f
    refine ⟨r, ?_, hs.canonical hc hcu, fun k => ?_⟩
    · simp only [Prog.run, ht, hu, bindC, hr]
    · rw [hdr, hd, hdu, innerPureVal_eq]; rfl
  | _, .innerCombineWith a b f => by
    obtain ⟨t, ht, hc, hd⟩ := run_spec a
    obtain ⟨u, hu, hcu, hdu⟩ := run_spec b
    obtain ⟨r, hr, _, hs, hdr⟩ := innerWith_good hc.1 hcu.1 f
    refine ⟨r, ?_, hs.canonical hc hcu, fun k => ?_⟩
    · simp only [Prog.run, ht, hu, bindC, hr, outcome]
    · rw [hdr, hd, hdu]; rfl
  | _, .leftCombine a b f => by
    obtain ⟨t, ht, hc, hd⟩ := run_spec a
    obtain ⟨u, hu, hcu, hdu⟩ := run_spec b
    obtain ⟨r, hr, hs, hdr⟩ := leftCombine_good hc.1 hcu f
    refine ⟨r, ?_, hs.canonical hc hcu, fun k => ?_⟩
    · simp only [Prog.run, ht, hu, bindC, hr]
    · have e : den u = b.meaning := funext hdu
      have := hdr k
      rw [empty_iff hcu, hd, hdu, Branch, e] at this
      by_cases hx : (b.meaning k).isSome ∨ b.meaning.Forks k ∨ (k = [] ∧ ∀ k', b.meaning k' = none)
      · refine (this.1 ?_).trans (if_pos hx).symm
        rcases hx with h | h | h
        · exact .inl h
        · exact .inr (.inl h)
        · exact .inr (.inr ⟨h.2, h.1⟩)
      · refine (this.2 (fun h => hx ?_)).trans (if_neg hx).symm
        rcases h with h | h | h
        · exact .inl h
        · exact .inr (.inl h)
        · exact .inr (.inr ⟨h.2, h.1⟩)
  | _, .leftCombineWith a b f => by
    obtain ⟨t, ht, hc, hd⟩ := run_spec a
    obtain ⟨u, hu, hcu, hdu⟩ := run_spec b
    obtain ⟨r, hr, _, hs, hdr⟩ := leftWith_good hc.1 hcu.1 f
    refine ⟨r, ?_, hs.canonical hc hcu, fun k => ?_⟩
    · simp only [Prog.run, ht, hu, bindC, hr, outcome]
    · rw [hdr, hd, hdu]; rfl
  | _, .removePrefixWith a b f => by
    obtain ⟨t, ht, hc, hd⟩ := run_spec a
    obtain ⟨u, hu, hcu, hdu⟩ := run_spec b
    obtain ⟨r, hr, hs, hdr⟩ := removePrefixWith_spec hc.1 hcu.1 f
    refine ⟨r, ?_, hs.canonical hc hcu, fun k => ?_⟩
    · simp only [Prog.run, ht, hu, bindC, hr, outcome]
    · have e : den u = b.meaning := funext hdu
      have := hdr k
      rw [hd, Covered, e] at this
      by_cases hx : b.meaning.Covers f k
      · exact (this.1 hx).trans (if_pos hx).symm
      · exact (this.2 hx).trans (if_neg hx).symm
  | _, .retainPrefixWith a b f => by
    obtain ⟨t, ht, hc, hd⟩ := run_spec a
    obtain ⟨u, hu, hcu, hdu⟩ := run_spec b
    obtain ⟨r, hr, hs, hdr⟩ := retainPrefixWith_spec hc.1 hcu.1 f
    refine ⟨r, ?_, hs.canonical hc hcu, fun k => ?_⟩
    · simp only [Prog.run, ht, hu, bindC, hr, outcome]
    · have e : den u = b.meaning := funext hdu
      have := hdr k
      rw [hd, Covered, e] at this
      by_cases hx : b.meaning.Covers f k
      · exact (this.1 hx).trans (if_pos hx).symm
      · exact (this.2 hx).trans (if_neg hx).symm
  | _, .saveAndLoad a => by
    obtain ⟨t, ht, hc, hd⟩ := run_spec a
    refine ⟨t, ?_, hc, hd⟩
    simp only [Prog.run, ht, bindC, archive_eq, deserialize_eq]

end
end Tree
end Verif
