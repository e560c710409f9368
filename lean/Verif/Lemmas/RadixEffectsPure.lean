import Verif.Lemmas.RadixLockPure
import Verif.Lemmas.RadixEffects
import Verif.Lemmas.RadixHistory
/-! From the agreement with plain runs to the contents of the new tree. -/
namespace Verif
namespace Tree
open Std

variable {K V W O S : Type} [Ord K] [TransOrd K] [LawfulEqOrd K] [DecidableEq K]

/-- what a run does -/
structure RunSpecP (a : Tree K V) (b : Tree K W) (r : Call (Tree K V) × S) (c' : S) (p : Bool) (after : List K → V → Prop) : Prop where
  stopped : p = true → r = (.panic, c')
  done : p = false → ∃ t, r = (.ret t, c') ∧ Valid t ∧ (Canonical a → Canonical b → Canonical t) ∧ ∀ k v, Entry t k v ↔ after k v

omit [TransOrd K] [LawfulEqOrd K] [DecidableEq K] in
theorem pure_run_spec {f : PureFnE S V O} {a : Tree K V} {b : Tree K W} {σ : List K → S} {c : S} {L : List (List K × V × O)}
    {r : Call (Tree K V) × S} {T : Tree K (List K × V)} (hl : LockG (pslot f) L c r (.ret T) (tag []))
    (hf : Follows (pslot f) σ L c) {P : List K × V × O → Prop} (hord : InKeyOrder P L) (hs : Shape (tag [] a) (tag [] b) T)
    {rest : List K → V → Prop}
    (hT : ∀ k v, Entry T k (k, v) ↔ (∃ x y, P (k, x, y) ∧ (pslot f x y (σ k)).1 = some v) ∨ rest k v) :
    ∀ log c' p, runQ (pslot f) L c = (log, c', p) → RunSpecP a b r c' p (fun k v => Left log k v ∨ rest k v) := by
  intro log c' p hr
  obtain ⟨g1, g2, -⟩ := log_spec hf log c' p hr
  obtain ⟨⟨r1, r2⟩, r3⟩ := hl
  rw [hr] at r1 r2
  obtain ⟨o, c1⟩ := r
  simp only at r1 r2 r3
  subst r1
  cases p with
  | true =>
    refine ⟨fun _ => ?_, by simp⟩
    cases o with
    | panic => rfl
    | ret t => simp [callFlow, flowOf] at r2
  | false =>
    refine ⟨by simp, fun _ => ?_⟩
    cases o with
    | panic => simp [callFlow, flowOf] at r2
    | ret t =>
      have e := r3 t rfl
      simp only [Call.ret.injEq] at e
      subst e
      refine ⟨t, rfl, tag_valid_iff.1 hs.valid,
        fun ca cb => tag_canonical_iff.1 (hs.canonical (tag_canonical_iff.2 ca) (tag_canonical_iff.2 cb)), fun k v => ?_⟩
      rw [show Entry t k v ↔ Entry (tag [] t) k (k, v) by rw [entry_tag_nil]; simp, hT]
      refine or_congr ?_ Iff.rfl
      constructor
      · rintro ⟨x, y, hx, h⟩
        have := (g2 rfl (k, x, y) ((hord.2 _).2 hx)).1
        rw [h] at this
        exact ⟨_, this⟩
      · rintro ⟨⟨x, y⟩, h⟩
        obtain ⟨h1, h2⟩ := g1 _ h
        exact ⟨x, y, (hord.2 _).1 h1, h2.symm⟩

omit [LawfulEqOrd K] in
theorem order_follow {P : List K × V × O → Prop} {L : List (List K × V × O)} [LawfulEqOrd K] (h : InKeyOrder P L)
    (F : V → O → S → Option V × Bool × S) (c : S) : ∃ σ : List K → S, Follows F σ L c :=
  ⟨_, follows_stateAt (h.1.imp (by
    intro x y h e
    rw [e] at h
    exact lexLt_irrefl _ h)) c⟩

theorem outer_run_pure {a b : Tree K V} (ha : Valid a) (hb : Valid b) (f : PureFnE S V V) (c : S) :
    ∀ log c' p, runQ (pslot f) (asks denObs a b) c = (log, c', p) →
      RunSpecP a b (a.outerCombineE b f c) c' p (OuterAfter a b log) := by
  obtain ⟨σ, hf⟩ := order_follow (asks_order ha hb) (pslot f) c
  have hl := outerGoE_lock f σ (a.size + b.size + 1) a b ha hb (by omega) [] c (by simpa using hf)
  obtain ⟨T, h1, h2, h3⟩ := outerCombine_spec (tag_valid (q := []) ha) (tag_valid (q := []) hb) (porc f σ)
  unfold outerCombine at h1
  rw [tag_size, tag_size] at h1
  rw [h1] at hl
  refine pure_run_spec hl hf (asks_order ha hb) h2 (rest := fun k v => (Entry a k v ∧ ¬ HasEntry b k) ∨ (Entry b k v ∧ ¬ HasEntry a k)) ?_
  intro k v
  rw [← den_iff_entry h2.valid, h3 k]
  simp only [Common, den_tag ha, den_tag hb, ← den_iff_entry ha, ← den_iff_entry hb, ← den_none_iff ha, ← den_none_iff hb]
  cases den a k with
  | none => cases den b k <;> simp [outerPureVal]
  | some x =>
    cases den b k with
    | none => simp [outerPureVal]
    | some y => simp [outerPureVal, porc, and_assoc]

theorem inner_run_pure {a : Tree K V} {b : Tree K W} (ha : Valid a) (hb : Valid b) (f : PureFnE S V W) (c : S) :
    ∀ log c' p, runQ (pslot f) (asks denObs a b) c = (log, c', p) →
      RunSpecP a b (a.innerCombineE b f c) c' p (InnerAfter log) := by
  obtain ⟨σ, hf⟩ := order_follow (asks_order ha hb) (pslot f) c
  have hl := innerGoE_lock f σ (a.size + b.size + 1) a b ha hb (by omega) [] c (by simpa using hf)
  obtain ⟨T, h1, h2, h3⟩ := innerCombine_spec (tag_valid (q := []) ha) (tag_valid (q := []) hb) (porc f σ)
  unfold innerCombine at h1
  rw [tag_size, tag_size] at h1
  rw [h1] at hl
  have := pure_run_spec hl hf (asks_order ha hb) h2 (rest := fun _ _ => False) (by
    intro k v
    rw [← den_iff_entry h2.valid, h3 k]
    simp only [Common, den_tag ha, den_tag hb, ← den_iff_entry ha, ← den_iff_entry hb]
    cases den a k with
    | none => cases den b k <;> simp [innerPureVal]
    | some x =>
      cases den b k with
      | none => simp [innerPureVal]
      | some y => simp [innerPureVal, porc, and_assoc])
  simp only [or_false] at this
  exact this

theorem nodeAt_tag {b : Tree K W} : ∀ (q k : List K), nodeAt (tag q b) k = (nodeAt b k).map (Option.map fun w => (q ++ k, w)) := by
  refine induct (P := fun b : Tree K W => ∀ (q k : List K), nodeAt (tag q b) k = (nodeAt b k).map (Option.map fun w => (q ++ k, w))) ?_ b
  intro p v ks ih q k
  rw [tag_eq]
  simp only [nodeAt]
  cases h : strip p k with
  | none => rfl
  | some r =>
    have hk : k = p ++ r := strip_eq_some.1 h
    cases r with
    | nil => simp [hk]
    | cons c r =>
      simp only
      rw [hk, ← List.append_assoc]
      generalize q ++ p = q'
      clear h hk
      induction ks with
      | nil => rfl
      | cons x ks ihk =>
        simp only [List.map_cons, nodeAtL]
        rw [ihk fun c hc => ih c (by simp [hc]), ih x (by simp)]
        cases nodeAt x (c :: r) <;> rfl

/-- where a canonical tree has nodes -/
theorem node_iff {b : Tree K W} (hb : Canonical b) (k : List K) :
    (∀ w, nodeAt b k = some (some w) ↔ Entry b k w) ∧ (nodeAt b k = some none ↔ AskedAnyway b k) := by
  have h1 := nodeAt_join _ b (Nat.le_refl _) hb.1 k
  have h2 := nodeAt_canonical hb k
  have hfork : KeysFork b k ↔ Branch b k := by simp only [KeysFork, Branch, has_iff hb.1]
  have hemp : (∀ k', ¬HasEntry b k') ↔ ∀ k', den b k' = none := by
    simp only [has_iff hb.1, Option.not_isSome_iff_eq_none]
  unfold AskedAnyway
  rw [hfork, hemp, ← empty_iff hb, ← den_none_iff hb.1]
  rw [and_comm (a := b = empty)] at h2
  constructor
  · intro w
    rw [← den_iff_entry hb.1, h1]
    cases nodeAt b k with
    | none => simp
    | some o => cases o <;> simp
  · cases hn : nodeAt b k with
    | none =>
      rw [hn] at h1 h2
      simp only [Option.isSome_none, Bool.false_eq_true, false_iff] at h2
      simp only [reduceCtorEq, false_iff]
      exact fun h => h2 (.inr h.2)
    | some o =>
      rw [hn] at h1 h2
      cases o with
      | none =>
        have h1 : den b k = none := h1
        rw [h1] at h2 ⊢
        simp at h2
        simp
        exact h2
      | some w =>
        have h1 : den b k = some w := h1
        simp [h1]

/-- the questions of `left_combine` -/
theorem left_order {a : Tree K V} {b : Tree K W} (ha : Valid a) (hb : Canonical b) :
    InKeyOrder (LeftOffered a b) (asks nodeObs a b) := by
  constructor
  · have := items_sorted a.size a (Nat.le_refl _) ha []
    rw [List.nil_append] at this
    unfold asks asking
    rw [List.pairwise_filterMap]
    refine this.imp ?_
    intro x y h x' hx y' hy
    simp only [Option.map_eq_some_iff] at hx hy
    obtain ⟨_, _, rfl⟩ := hx
    obtain ⟨_, _, rfl⟩ := hy
    exact h
  · rintro ⟨k, v, w⟩
    rw [asks, mem_asking, mem_items_self]
    show Entry a k v ∧ nodeAt b k = some w ↔ _
    cases w with
    | none => rw [(node_iff hb k).2]; rfl
    | some w => rw [(node_iff hb k).1]; rfl

theorem left_run_pure {a : Tree K V} {b : Tree K W} (ha : Valid a) (hb : Canonical b) (f : PureFnE S V (Option W)) (c : S) :
    ∀ log c' p, runQ (pslot f) (asks nodeObs a b) c = (log, c', p) →
      RunSpecP a b (a.leftCombineE b f c) c' p (LeftCombined a b log) := by
  obtain ⟨σ, hf⟩ := order_follow (left_order ha hb) (pslot f) c
  have hl := leftGoE_lock f σ (a.size + b.size + 1) a b ha hb.1 (by omega) [] c (by simpa using hf)
  obtain ⟨T, h1, h2, h3⟩ := leftCombine_spec (tag_valid (q := []) ha) (tag_valid (q := []) hb.1) (porcL f σ)
  unfold leftCombine at h1
  rw [tag_size, tag_size] at h1
  rw [h1] at hl
  refine pure_run_spec hl hf (left_order ha hb) h2 (rest := fun k v => Entry a k v ∧ ¬ HasEntry b k ∧ ¬ AskedAnyway b k) ?_
  intro k v
  rw [← den_iff_entry h2.valid, h3 k, den_tag ha, nodeAt_tag]
  obtain ⟨n1, n2⟩ := node_iff hb k
  cases hn : nodeAt b k with
  | none =>
    rw [hn] at n1 n2
    simp only [reduceCtorEq, false_iff] at n1 n2
    have hno : ¬ HasEntry b k := fun ⟨w, h⟩ => n1 w h
    simp only [Option.map_none, leftAt]
    rw [← den_iff_entry ha]
    constructor
    · intro h
      refine .inr ⟨?_, hno, n2⟩
      cases hd : den a k with
      | none => rw [hd] at h; simp at h
      | some x => rw [hd] at h; simpa using h
    · rintro (⟨x, y, h, _⟩ | ⟨h, _⟩)
      · cases y with
        | none => exact absurd h.2 n2
        | some w => exact absurd h.2 (n1 w)
      · rw [h]; rfl
  | some w0 =>
    have key : ∀ x y, LeftOffered a b (k, x, y) ↔ Entry a k x ∧ y = w0 := by
      intro x y
      have e : LeftOffered a b (k, x, y) ↔ Entry a k x ∧ nodeAt b k = some y := by
        cases y with
        | none => rw [n2]; rfl
        | some w => rw [n1]; rfl
      rw [e, hn]
      simp [eq_comm]
    have hrest : ¬ (¬ HasEntry b k ∧ ¬ AskedAnyway b k) := by
      cases w0 with
      | none => exact fun h => h.2 (n2.1 hn)
      | some w => exact fun h => h.1 ⟨w, (n1 w).1 hn⟩
    simp only [key, hrest, and_false, or_false, ← den_iff_entry ha, Option.map_some, leftAt]
    have e2 : (w0.map fun w => (k, w)).map Prod.snd = w0 := by cases w0 <;> rfl
    cases den a k with
    | none => simp [leftPureVal]
    | some x => simp [leftPureVal, porcL, e2, and_assoc, -Option.map_map]

end Tree
end Verif
