import Verif.Lemmas.Merge
/-! Schedule independence from `Implements`. -/
namespace Verif
open Std
variable {σ A B R κ : Type _} [MergeState σ A B] [Ord κ] [TransOrd κ] {ka : A → κ} {kb : B → κ}
  {op : MergeOp σ A B} {out : σ → List R} {inv : σ → Prop} {fa : A → Emit R} {fb : B → Emit R} {fc : A → B → Emit R}

theorem schedule_indep (impl : Implements op out inv fa fb fc) (hcmp : ∀ a b, op.cmp a b = compare (ka a) (kb b))
    (s : σ) (hi : inv s) (ha : AscendingBy ka (MergeState.aSlice s : List A))
    (hb : AscendingBy kb (MergeState.bSlice s : List B)) {evs : List Ev}
    (hl : Legal op.cmp (MergeState.aSlice s) (MergeState.bSlice s) evs) :
    out (runEvs op s evs).1 = out (mergeAll op s).1 ∧ (runEvs op s evs).2 = (mergeAll op s).2 := by
  have h1 := run_legal impl hl s [] [] hi (by simp) (by simp)
  have h2 := mergeAll_spec impl hcmp s hi ha hb
  exact ⟨h1.out.trans h2.out.symm, h1.flow.trans h2.flow.symm⟩

omit [TransOrd κ] [Ord κ] in
theorem legal_agree (impl : Implements op out inv fa fb fc) (s : σ) (hi : inv s) {e1 e2 : List Ev}
    (h1 : Legal op.cmp (MergeState.aSlice s) (MergeState.bSlice s) e1)
    (h2 : Legal op.cmp (MergeState.aSlice s) (MergeState.bSlice s) e2) :
    out (runEvs op s e1).1 = out (runEvs op s e2).1 ∧ (runEvs op s e1).2 = (runEvs op s e2).2 := by
  have g1 := run_legal impl h1 s [] [] hi (by simp) (by simp)
  have g2 := run_legal impl h2 s [] [] hi (by simp) (by simp)
  exact ⟨g1.out.trans g2.out.symm, g1.flow.trans g2.flow.symm⟩

theorem driver_legal (impl : Implements op out inv fa fb fc) (hcmp : ∀ a b, op.cmp a b = compare (ka a) (kb b))
    (s : σ) (hi : inv s) (ha : AscendingBy ka (MergeState.aSlice s : List A))
    (hb : AscendingBy kb (MergeState.bSlice s : List B)) :
    ∃ evs, Legal op.cmp (MergeState.aSlice s) (MergeState.bSlice s) evs ∧ mergeAll op s = runEvs op s evs :=
  ⟨planBin op.cmp (MergeState.aSlice s) (MergeState.bSlice s), planBin_legal hcmp _ _ ha hb,
    binaryMerge_eq_run impl hcmp _ _ [] [] s hi ha hb (by simp) (by simp)⟩

omit [TransOrd κ] [Ord κ] in
/-- Stopping a legal schedule after some of its callbacks leaves a prefix of the full output. -/
theorem legal_prefix (impl : Implements op out inv fa fb fc) {as : List A} {bs : List B} {evs : List Ev}
    (h : Legal op.cmp as bs evs) : ∀ (s : σ) (p : List Ev), inv s → MergeState.aSlice s = as → MergeState.bSlice s = bs →
      p <+: evs → out (runEvs op s p).1 <+: out (runEvs op s evs).1 := by
  have whole : ∀ {as bs evs}, Legal op.cmp as bs evs → ∀ s : σ, inv s → MergeState.aSlice s = as → MergeState.bSlice s = bs →
      out s <+: out (runEvs op s evs).1 := by
    intro as bs evs h s hi ha hb
    have := (run_legal impl h s [] [] hi (by simpa using ha) (by simpa using hb)).out
    rw [this]; exact List.prefix_append _ _
  induction h with
  | done => intro s p hi ha hb hp; rw [List.prefix_nil.1 hp]; exact List.prefix_refl _
  | @a as bs evs n h1 hn hlt hl ih =>
    intro s p hi ha hb hp
    rcases List.prefix_cons_iff.1 hp with rfl | ⟨p', rfl, hp'⟩
    · exact whole (.a n h1 hn hlt hl) s hi ha hb
    · have step := impl.fromA s n hi h1 (by rw [ha]; exact hn)
      rw [runEvs, runEvs]
      by_cases hc : (op.fromA s n).2 = .cont
      · rw [andThen_cont hc, andThen_cont hc]
        exact ih _ p' (step.inv hc) (by rw [step.a hc, ha]) (by rw [step.b hc, hb]) hp'
      · have e : ∀ k : σ → σ × Flow, andThen (op.fromA s n) k = op.fromA s n := by
          intro k; unfold andThen; cases hf : (op.fromA s n).2 <;> simp_all
        rw [e, e]; exact List.prefix_refl _
  | @b as bs evs n h1 hn hlt hl ih =>
    intro s p hi ha hb hp
    rcases List.prefix_cons_iff.1 hp with rfl | ⟨p', rfl, hp'⟩
    · exact whole (.b n h1 hn hlt hl) s hi ha hb
    · have step := impl.fromB s n hi h1 (by rw [hb]; exact hn)
      rw [runEvs, runEvs]
      by_cases hc : (op.fromB s n).2 = .cont
      · rw [andThen_cont hc, andThen_cont hc]
        exact ih _ p' (step.inv hc) (by rw [step.a hc, ha]) (by rw [step.b hc, hb]) hp'
      · have e : ∀ k : σ → σ × Flow, andThen (op.fromB s n) k = op.fromB s n := by
          intro k; unfold andThen; cases hf : (op.fromB s n).2 <;> simp_all
        rw [e, e]; exact List.prefix_refl _
  | @c x y as bs evs he hl ih =>
    intro s p hi ha hb hp
    rcases List.prefix_cons_iff.1 hp with rfl | ⟨p', rfl, hp'⟩
    · exact whole (.c he hl) s hi ha hb
    · have step := impl.collision s x as y bs hi ha hb
      rw [runEvs, runEvs]
      by_cases hc : (op.collision s).2 = .cont
      · rw [andThen_cont hc, andThen_cont hc]
        exact ih _ p' (step.inv hc) (step.a hc) (step.b hc) hp'
      · have e : ∀ k : σ → σ × Flow, andThen (op.collision s) k = op.collision s := by
          intro k; unfold andThen; cases hf : (op.collision s).2 <;> simp_all
        rw [e, e]; exact List.prefix_refl _

end Verif
