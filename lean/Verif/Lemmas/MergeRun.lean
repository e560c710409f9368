import Verif.Lemmas.Merge
/-! The driver runs a legal schedule, whatever the callbacks do besides consuming their inputs (they may depend on a state). -/
namespace Verif
open Std

variable {σ A B : Type _} [MergeState σ A B] {op : MergeOp σ A B} {inv : σ → Prop}

/-- `r` left `a'` and `b'` of the inputs, unless it stopped -/
structure Leaves (inv : σ → Prop) (r : σ × Flow) (a' : List A) (b' : List B) : Prop where
  a : r.2 = .cont → MergeState.aSlice r.1 = a'
  b : r.2 = .cont → MergeState.bSlice r.1 = b'
  inv : r.2 = .cont → inv r.1

/-- the callbacks consume the inputs they are asked to handle -/
structure SliceOk (op : MergeOp σ A B) (inv : σ → Prop) : Prop where
  fromA : ∀ s n, inv s → 1 ≤ n → n ≤ (MergeState.aSlice s : List A).length →
    Leaves inv (op.fromA s n) ((MergeState.aSlice s : List A).drop n) (MergeState.bSlice s : List B)
  fromB : ∀ s n, inv s → 1 ≤ n → n ≤ (MergeState.bSlice s : List B).length →
    Leaves inv (op.fromB s n) (MergeState.aSlice s : List A) ((MergeState.bSlice s : List B).drop n)
  collision : ∀ s (a : A) as (b : B) bs, inv s → MergeState.aSlice s = a :: as → MergeState.bSlice s = b :: bs →
    Leaves inv (op.collision s) as bs

theorem Leaves.andThen {r : σ × Flow} {a' : List A} {b' : List B} {k : σ → σ × Flow}
    (h : r.2 = .cont → Leaves inv (k r.1) a' b') : Leaves inv (Verif.andThen r k) a' b' := by
  obtain ⟨s', fl⟩ := r
  cases fl with
  | cont => exact h rfl
  | stop => exact ⟨by simp [Verif.andThen], by simp [Verif.andThen], by simp [Verif.andThen]⟩
  | panic => exact ⟨by simp [Verif.andThen], by simp [Verif.andThen], by simp [Verif.andThen]⟩

theorem run_slices (impl : SliceOk op inv) {as : List A} {bs : List B} {evs : List Ev}
    (h : Legal op.cmp as bs evs) : ∀ (s : σ) (as2 : List A) (bs2 : List B), inv s →
      MergeState.aSlice s = as ++ as2 → MergeState.bSlice s = bs ++ bs2 → Leaves inv (runEvs op s evs) as2 bs2 := by
  induction h with
  | done =>
    intro s as2 bs2 hi ha hb
    exact ⟨fun _ => by simpa [runEvs] using ha, fun _ => by simpa [runEvs] using hb, fun _ => hi⟩
  | @a as bs evs n h1 hn hlt _ ih =>
    intro s as2 bs2 hi ha hb
    rw [runEvs]
    have step := impl.fromA s n hi h1 (by rw [ha]; simp; omega)
    rw [ha, List.drop_append_of_le_length hn] at step
    exact Leaves.andThen fun hc => ih _ as2 bs2 (step.inv hc) (step.a hc) (by rw [step.b hc, hb])
  | @b as bs evs n h1 hn hlt _ ih =>
    intro s as2 bs2 hi ha hb
    rw [runEvs]
    have step := impl.fromB s n hi h1 (by rw [hb]; simp; omega)
    rw [hb, List.drop_append_of_le_length hn] at step
    exact Leaves.andThen fun hc => ih _ as2 bs2 (step.inv hc) (by rw [step.a hc, ha]) (step.b hc)
  | @c x y as bs evs he _ ih =>
    intro s as2 bs2 hi ha hb
    rw [runEvs]
    have step := impl.collision s x (as ++ as2) y (bs ++ bs2) hi (by simpa using ha) (by simpa using hb)
    exact Leaves.andThen fun hc => ih _ as2 bs2 (step.inv hc) (step.a hc) (step.b hc)

variable {κ : Type _} [Ord κ] [TransOrd κ] {ka : A → κ} {kb : B → κ}

/-- The binary merge runs exactly its schedule, whatever the callbacks do besides consuming their inputs. -/
theorem binaryMerge_eq_plan (impl : SliceOk op inv)
    (hcmp : ∀ a b, op.cmp a b = compare (ka a) (kb b)) :
    ∀ (as : List A) (bs : List B) (as2 : List A) (bs2 : List B) (s : σ), inv s →
      AscendingBy ka as → AscendingBy kb bs →
      MergeState.aSlice s = as ++ as2 → MergeState.bSlice s = bs ++ bs2 →
      binaryMerge op s as.length bs.length = runEvs op s (planBin op.cmp as bs) := by
  intro as
  induction hl : as.length using Nat.strongRecOn generalizing as with
  | _ len ih =>
  intro bs as2 bs2 s hi0 ha hb hsa hsb
  subst hl
  rw [planBin, binaryMerge]
  have single : ∀ r : σ × Flow, andThen r (fun s => (s, .cont)) = r := by
    intro r; obtain ⟨s, fl⟩ := r; cases fl <;> rfl
  by_cases h0 : as.length = 0
  · by_cases hb0 : bs.length = 0
    · simp [h0, hb0, runEvs]
    · simp [h0, hb0, runEvs, single]
  · by_cases hb0 : bs.length = 0
    · simp [h0, hb0, runEvs, single]
    · simp only [h0, hb0, ↓reduceDIte, ↓reduceIte]
      have hm : as.length / 2 < as.length := by omega
      have hbl : ¬ (MergeState.bSlice s : List B).length < bs.length := by rw [hsb]; simp
      have hget : (MergeState.aSlice s : List A)[as.length / 2]? = some as[as.length / 2] := by
        rw [hsa, List.getElem?_append_left hm, List.getElem?_eq_getElem hm]
      have htake : (MergeState.bSlice s : List B).take bs.length = bs := by rw [hsb]; simp
      rw [hget]
      simp only [hbl, ↓reduceIte, htake]
      have split : as = as.take (as.length / 2) ++ as[as.length / 2] :: as.drop (as.length / 2 + 1) := by
        rw [← List.drop_eq_getElem_cons hm, List.take_append_drop]
      generalize hx : as[as.length / 2] = x at split ⊢
      clear hx hget
      generalize hmid : as.length / 2 = am at hm split ⊢
      have ha' := ha
      rw [split, ascendingBy_append, ascendingBy_cons] at ha'
      obtain ⟨ha1, ⟨hax, ha2⟩, hcross⟩ := ha'
      have spec := binarySearchBy_spec (f := fun b => (op.cmp x b).swap) (l := bs)
        (by simpa [hcmp] using mono_swap hb (ka x))
      have hl1 : (as.take am).length = am := by simp; omega
      have hl2 : (as.drop (am + 1)).length = as.length - am - 1 := by simp; omega
      have hsa1 : (MergeState.aSlice s : List A)
          = as.take am ++ (x :: (as.drop (am + 1) ++ as2)) := by
        rw [hsa]; conv => lhs; rw [split]
        simp
      cases hr : binarySearchBy (fun b => (op.cmp x b).swap) bs with
      | found bm =>
        rw [hr] at spec
        obtain ⟨lo, y, hi, hbs, hlo, hy, hlt, hgt⟩ := spec
        have e1 : bs.take bm = lo := by rw [hbs, ← hlo]; simp
        have e2 : bs.drop (bm + 1) = hi := by rw [hbs, ← hlo]; simp
        have hl3 : hi.length = bs.length - bm - 1 := by rw [hbs, ← hlo]; simp
        have hb' := hb
        rw [hbs, ascendingBy_append, ascendingBy_cons] at hb'
        obtain ⟨hb1, ⟨hbx, hb2⟩, hbc⟩ := hb'
        have hsb1 : (MergeState.bSlice s : List B) = lo ++ (y :: (hi ++ bs2)) := by
          rw [hsb, hbs]; simp
        simp only [e1, e2, runEvs_append, runEvs]
        have r1 := ih am hm (as.take am) hl1 lo _ _ s hi0 ha1 hb1 hsa1 hsb1
        rw [hlo] at r1
        rw [r1]
        have st := run_slices impl (planBin_legal hcmp (as.take am) lo ha1 hb1) s _ _ hi0 hsa1 hsb1
        refine andThen_congr fun hc => ?_
        have st2 := impl.collision _ _ _ _ _ (st.inv hc) (st.a hc) (st.b hc)
        refine andThen_congr fun hc2 => ?_
        have := ih (as.length - am - 1) (by omega) (as.drop (am + 1)) hl2 hi as2 bs2 _ (st2.inv hc2) ha2 hb2
          (st2.a hc2) (st2.b hc2)
        rw [hl3] at this
        exact this
      | notFound bi =>
        rw [hr] at spec
        obtain ⟨lo, hi, hbs, hlo, hlt, hgt⟩ := spec
        have e1 : bs.take bi = lo := by rw [hbs, ← hlo]; simp
        have e2 : bs.drop bi = hi := by rw [hbs, ← hlo]; simp
        have hl3 : hi.length = bs.length - bi := by rw [hbs, ← hlo]; simp
        have hb' := hb
        rw [hbs, ascendingBy_append] at hb'
        obtain ⟨hb1, hb2, hbc⟩ := hb'
        have hsb1 : (MergeState.bSlice s : List B) = lo ++ (hi ++ bs2) := by
          rw [hsb, hbs]; simp
        simp only [e1, e2, runEvs_append, runEvs]
        have r1 := ih am hm (as.take am) hl1 lo _ _ s hi0 ha1 hb1 hsa1 hsb1
        rw [hlo] at r1
        rw [r1]
        have st := run_slices impl (planBin_legal hcmp (as.take am) lo ha1 hb1) s _ _ hi0 hsa1 hsb1
        refine andThen_congr fun hc => ?_
        have st2 := impl.fromA (runEvs op s (planBin op.cmp (as.take am) lo)).1 1 (st.inv hc) (by omega)
          (by rw [st.a hc]; simp)
        refine andThen_congr fun hc2 => ?_
        have := ih (as.length - am - 1) (by omega) (as.drop (am + 1)) hl2 hi as2 bs2 _ (st2.inv hc2) ha2 hb2
          (by rw [st2.a hc2, st.a hc]; simp) (by rw [st2.b hc2, st.b hc])
        rw [hl3] at this
        exact this


theorem mergeAll_eq_plan (impl : SliceOk op inv) (hcmp : ∀ a b, op.cmp a b = compare (ka a) (kb b)) (s : σ) (hi : inv s)
    (ha : AscendingBy ka (MergeState.aSlice s : List A)) (hb : AscendingBy kb (MergeState.bSlice s : List B)) :
    ∃ evs, Legal op.cmp (MergeState.aSlice s) (MergeState.bSlice s) evs ∧ mergeAll op s = runEvs op s evs :=
  ⟨_, planBin_legal hcmp _ _ ha hb, binaryMerge_eq_plan impl hcmp _ _ [] [] s hi ha hb (by simp) (by simp)⟩

end Verif
