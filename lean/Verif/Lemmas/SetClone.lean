import Verif.Model.SetClone
import Verif.Spec.SetClone
import Verif.Lemmas.Effects
/-! The binary merge calls a closure on the elements in order; like the lemmas in `Lemmas/Effects.lean`, but the closure also makes the keys. -/
namespace Verif
open Std
namespace CloneMerge

section merge
variable {A B X R S σ : Type _} [MergeState σ A B]

/-- `r` is what a run of callbacks does to `s` if it calls `h` on `args` and leaves `a'`, `b'` -/
structure GSpec (out : σ → List R) (h : Closure S X (Option R)) (s : σ × S) (r : (σ × S) × Flow) (args : List X) (a' : List A) (b' : List B) : Prop where
  out : out r.1.1 = out s.1 ++ (answersOf h args s.2).1
  st : r.1.2 = (answersOf h args s.2).2.1
  flow : r.2 = (answersOf h args s.2).2.2
  a : r.2 = .cont → MergeState.aSlice r.1.1 = a'
  b : r.2 = .cont → MergeState.bSlice r.1.1 = b'

/-- how elements become arguments -/
structure Sides (A B X : Type _) where
  la : A → X
  lb : B → X
  lc : A → B → X

/-- the callbacks of `op` call `h` on the elements they are asked to handle, in order -/
structure GImpl (d : Sides A B X) (op : MergeOp (σ × S) A B) (out : σ → List R) (h : Closure S X (Option R)) : Prop where
  fromA : ∀ s n, n ≤ (MergeState.aSlice s.1 : List A).length →
    GSpec out h s (op.fromA s n) (((MergeState.aSlice s.1 : List A).take n).map d.la) ((MergeState.aSlice s.1 : List A).drop n) (MergeState.bSlice s.1 : List B)
  fromB : ∀ s n, n ≤ (MergeState.bSlice s.1 : List B).length →
    GSpec out h s (op.fromB s n) (((MergeState.bSlice s.1 : List B).take n).map d.lb) (MergeState.aSlice s.1 : List A) ((MergeState.bSlice s.1 : List B).drop n)
  collision : ∀ s x as y bs, MergeState.aSlice s.1 = x :: as → MergeState.bSlice s.1 = y :: bs →
    GSpec out h s (op.collision s) [d.lc x y] as bs

variable {out : σ → List R} {h : Closure S X (Option R)} {op : MergeOp (σ × S) A B} {d : Sides A B X}

theorem GSpec.refl (s : σ × S) : GSpec out h s (s, .cont) [] (MergeState.aSlice s.1 : List A) (MergeState.bSlice s.1 : List B) :=
  ⟨by simp [answersOf, callEach], rfl, rfl, fun _ => rfl, fun _ => rfl⟩

theorem GSpec.andThen {s : σ × S} {r : (σ × S) × Flow} {as1 as2 : List X} {a' a'' : List A} {b' b'' : List B}
    {k : σ × S → (σ × S) × Flow} (h1 : GSpec out h s r as1 a' b') (h2 : r.2 = .cont → GSpec out h r.1 (k r.1) as2 a'' b'') :
    GSpec out h s (Verif.andThen r k) (as1 ++ as2) a'' b'' := by
  obtain ⟨s', fl⟩ := r
  obtain ⟨ho, hs, hf, ha, hb⟩ := h1
  simp only [answersOf] at ho hs hf ha hb h2
  cases fl with
  | cont =>
    obtain ⟨ho', hs', hf', ha', hb'⟩ := h2 rfl
    simp only [answersOf] at ho' hs' hf'
    have e := callEach_append h as1 as2 s.2
    rw [if_pos hf.symm, ← hs] at e
    simp only [Verif.andThen]
    exact ⟨by rw [ho', ho]; simp [answersOf, e], by rw [hs']; simp [answersOf, e], by rw [hf']; simp [answersOf, e], ha', hb'⟩
  | stop =>
    have e := callEach_append h as1 as2 s.2
    rw [if_neg (by rw [← hf]; simp)] at e
    simp only [Verif.andThen]
    exact ⟨by rw [ho]; simp [answersOf, e], by rw [hs]; simp [answersOf, e], by rw [← e] at hf; exact hf, by simp, by simp⟩
  | panic =>
    have e := callEach_append h as1 as2 s.2
    rw [if_neg (by rw [← hf]; simp)] at e
    simp only [Verif.andThen]
    exact ⟨by rw [ho]; simp [answersOf, e], by rw [hs]; simp [answersOf, e], by rw [← e] at hf; exact hf, by simp, by simp⟩

/-- the arguments in the order in which a merge comes to them -/
def sidesOf (d : Sides A B X) (cmp : A → B → Ordering) (as : List A) (bs : List B) : List X :=
  (joinRef cmp (fun x => ([d.la x], Flow.cont)) (fun y => ([d.lb y], .cont)) (fun x y => ([d.lc x y], .cont)) as bs).1

theorem collect_each' {A : Type _} (g : A → X) (l : List A) : collect (fun x => ([g x], Flow.cont)) l = (l.map g, .cont) := by
  induction l with
  | nil => rfl
  | cons x l ih => simp [collect, ih, Emit.seq]

theorem sidesOf_a {cmp : A → B → Ordering} (n : Nat) (a : List A) (b : List B) (hlt : ∀ x ∈ a.take n, ∀ y ∈ b, cmp x y = .lt) :
    sidesOf d cmp a b = (a.take n).map d.la ++ sidesOf d cmp (a.drop n) b := by
  unfold sidesOf
  rw [joinRef_a n a b hlt, collect_each']; rfl

theorem sidesOf_b {cmp : A → B → Ordering} (n : Nat) (a : List A) (b : List B) (hlt : ∀ y ∈ b.take n, ∀ x ∈ a, cmp x y = .gt) :
    sidesOf d cmp a b = (b.take n).map d.lb ++ sidesOf d cmp a (b.drop n) := by
  unfold sidesOf
  rw [joinRef_b n a b hlt, collect_each']; rfl

theorem sidesOf_c {cmp : A → B → Ordering} (x : A) (y : B) (a : List A) (b : List B) (he : cmp x y = .eq) :
    sidesOf d cmp (x :: a) (y :: b) = [d.lc x y] ++ sidesOf d cmp a b := by
  unfold sidesOf
  rw [joinRef, he]; rfl

/-- any legal schedule calls the closure on the arguments in order -/
theorem run_legal_g (impl : GImpl d op out h) {as : List A} {bs : List B}
    {evs : List Ev} (hl : Legal op.cmp as bs evs) : ∀ (s : σ × S) (as2 : List A) (bs2 : List B),
      MergeState.aSlice s.1 = as ++ as2 → MergeState.bSlice s.1 = bs ++ bs2 →
      GSpec out h s (runEvs op s evs) (sidesOf d op.cmp as bs) as2 bs2 := by
  induction hl with
  | done =>
    intro s as2 bs2 ha hb
    simp only [List.nil_append] at ha hb
    subst ha hb
    have : sidesOf d op.cmp [] [] = [] := by simp [sidesOf, joinRef, collect]
    rw [this]
    exact GSpec.refl s
  | @a as bs evs n h1 hn hlt _ ih =>
    intro s as2 bs2 ha hb
    rw [sidesOf_a n as bs hlt, runEvs]
    have step := impl.fromA s n (by rw [ha]; simp; omega)
    rw [ha, List.take_append_of_le_length hn, List.drop_append_of_le_length hn] at step
    refine step.andThen fun hc => ih _ as2 bs2 (step.a hc) ?_
    rw [step.b hc, hb]
  | @b as bs evs n h1 hn hlt _ ih =>
    intro s as2 bs2 ha hb
    rw [sidesOf_b n as bs hlt, runEvs]
    have step := impl.fromB s n (by rw [hb]; simp; omega)
    rw [hb, List.take_append_of_le_length hn, List.drop_append_of_le_length hn] at step
    refine step.andThen fun hc => ih _ as2 bs2 ?_ (step.b hc)
    rw [step.a hc, ha]
  | @c x y as bs evs he _ ih =>
    intro s as2 bs2 ha hb
    rw [sidesOf_c x y as bs he, runEvs]
    have step := impl.collision s x (as ++ as2) y (bs ++ bs2) (by simpa using ha) (by simpa using hb)
    exact step.andThen fun hc => ih _ as2 bs2 (step.a hc) (step.b hc)

variable {K : Type _} [Ord K] [TransOrd K] {ka : A → K} {kb : B → K}

/-- the binary merge runs its schedule -/
theorem binaryMerge_eq_run_g (impl : GImpl d op out h) (hcmp : ∀ x y, op.cmp x y = compare (ka x) (kb y)) :
    ∀ (as : List A) (bs : List B) (as2 : List A) (bs2 : List B) (s : σ × S),
      AscendingBy ka as → AscendingBy kb bs →
      MergeState.aSlice s.1 = as ++ as2 → MergeState.bSlice s.1 = bs ++ bs2 →
      binaryMerge op s as.length bs.length = runEvs op s (planBin op.cmp as bs) := by
  intro as
  induction hl : as.length using Nat.strongRecOn generalizing as with
  | _ len ih =>
  intro bs as2 bs2 s ha hb hsa hsb
  subst hl
  rw [planBin, binaryMerge]
  have hSa : (MergeState.aSlice s : List A) = MergeState.aSlice s.1 := rfl
  have hSb : (MergeState.bSlice s : List B) = MergeState.bSlice s.1 := rfl
  rw [hSa, hSb]
  have single : ∀ r : (σ × S) × Flow, andThen r (fun s => (s, .cont)) = r := by
    intro r; obtain ⟨s, fl⟩ := r; cases fl <;> rfl
  by_cases h0 : as.length = 0
  · by_cases hb0 : bs.length = 0
    · simp [h0, hb0, runEvs]
    · simp [h0, hb0, runEvs, single]
  · by_cases hb0 : bs.length = 0
    · simp [h0, hb0, runEvs, single]
    · simp only [h0, hb0, ↓reduceDIte, ↓reduceIte]
      have hm : as.length / 2 < as.length := by omega
      have hbl : ¬ (MergeState.bSlice s.1 : List B).length < bs.length := by rw [hsb]; simp
      have hget : (MergeState.aSlice s.1 : List A)[as.length / 2]? = some as[as.length / 2] := by
        rw [hsa, List.getElem?_append_left hm, List.getElem?_eq_getElem hm]
      have htake : (MergeState.bSlice s.1 : List B).take bs.length = bs := by rw [hsb]; simp
      rw [hget]
      simp only [hbl, ↓reduceIte, htake]
      have split : as = as.take (as.length / 2) ++ as[as.length / 2] :: as.drop (as.length / 2 + 1) := by
        rw [← List.drop_eq_getElem_cons hm, List.take_append_drop]
      generalize hx : as[as.length / 2] = x at split ⊢
      clear hx hget
      generalize hmid : as.length / 2 = am at hm split ⊢
      have ha' := ha
      rw [split, ascendingBy_append, ascendingBy_cons] at ha'
      obtain ⟨ha1, ⟨hax, ha2⟩, hcross⟩ := ha'
      have spec := binarySearchBy_spec (f := fun b => (op.cmp x b).swap) (l := bs)
        (by simpa [hcmp] using mono_swap hb (ka x))
      have hl1 : (as.take am).length = am := by simp; omega
      have hl2 : (as.drop (am + 1)).length = as.length - am - 1 := by simp; omega
      have hsa1 : (MergeState.aSlice s.1 : List A)
          = as.take am ++ (x :: (as.drop (am + 1) ++ as2)) := by
        rw [hsa]; conv => lhs; rw [split]
        simp
      cases hr : binarySearchBy (fun b => (op.cmp x b).swap) bs with
      | found bm =>
        rw [hr] at spec
        obtain ⟨lo, y, hi, hbs, hlo, hy, hlt, hgt⟩ := spec
        have e1 : bs.take bm = lo := by rw [hbs, ← hlo]; simp
        have e2 : bs.drop (bm + 1) = hi := by rw [hbs, ← hlo]; simp
        have hl3 : hi.length = bs.length - bm - 1 := by rw [hbs, ← hlo]; simp
        have hb' := hb
        rw [hbs, ascendingBy_append, ascendingBy_cons] at hb'
        obtain ⟨hb1, ⟨hbx, hb2⟩, hbc⟩ := hb'
        have hsb1 : (MergeState.bSlice s.1 : List B) = lo ++ (y :: (hi ++ bs2)) := by
          rw [hsb, hbs]; simp
        simp only [e1, e2, runEvs_append, runEvs]
        have r1 := ih am hm (as.take am) hl1 lo _ _ s ha1 hb1 hsa1 hsb1
        rw [hlo] at r1
        rw [r1]
        have st := run_legal_g impl (planBin_legal hcmp (as.take am) lo ha1 hb1) s _ _ hsa1 hsb1
        refine andThen_congr fun hc => ?_
        have st2 := impl.collision _ _ _ _ _ (st.a hc) (st.b hc)
        refine andThen_congr fun hc2 => ?_
        have := ih (as.length - am - 1) (by omega) (as.drop (am + 1)) hl2 hi as2 bs2 _ ha2 hb2
          (st2.a hc2) (st2.b hc2)
        rw [hl3] at this
        exact this
      | notFound bi =>
        rw [hr] at spec
        obtain ⟨lo, hi, hbs, hlo, hlt, hgt⟩ := spec
        have e1 : bs.take bi = lo := by rw [hbs, ← hlo]; simp
        have e2 : bs.drop bi = hi := by rw [hbs, ← hlo]; simp
        have hl3 : hi.length = bs.length - bi := by rw [hbs, ← hlo]; simp
        have hb' := hb
        rw [hbs, ascendingBy_append] at hb'
        obtain ⟨hb1, hb2, hbc⟩ := hb'
        have hsb1 : (MergeState.bSlice s.1 : List B) = lo ++ (hi ++ bs2) := by
          rw [hsb, hbs]; simp
        simp only [e1, e2, runEvs_append, runEvs]
        have r1 := ih am hm (as.take am) hl1 lo _ _ s ha1 hb1 hsa1 hsb1
        rw [hlo] at r1
        rw [r1]
        have st := run_legal_g impl (planBin_legal hcmp (as.take am) lo ha1 hb1) s _ _ hsa1 hsb1
        refine andThen_congr fun hc => ?_
        have st2 := impl.fromA (runEvs op s (planBin op.cmp (as.take am) lo)).1 1
          (by rw [st.a hc]; simp)
        refine andThen_congr fun hc2 => ?_
        have := ih (as.length - am - 1) (by omega) (as.drop (am + 1)) hl2 hi as2 bs2 _ ha2 hb2
          (by rw [st2.a hc2, st.a hc]; simp) (by rw [st2.b hc2, st.b hc])
        rw [hl3] at this
        exact this

theorem mergeAll_g (impl : GImpl d op out h) (hcmp : ∀ x y, op.cmp x y = compare (ka x) (kb y)) (s : σ × S)
    (ha : AscendingBy ka (MergeState.aSlice s.1 : List A)) (hb : AscendingBy kb (MergeState.bSlice s.1 : List B)) :
    GSpec out h s (mergeAll op s) (sidesOf d op.cmp (MergeState.aSlice s.1 : List A) (MergeState.bSlice s.1 : List B)) [] [] := by
  have e : mergeAll op s = runEvs op s (planBin op.cmp (MergeState.aSlice s.1) (MergeState.bSlice s.1)) :=
    binaryMerge_eq_run_g impl hcmp _ _ [] [] s ha hb (List.append_nil _).symm (List.append_nil _).symm
  rw [e]
  exact run_legal_g impl (planBin_legal hcmp _ _ ha hb) s [] [] (by simp) (by simp)
end merge

section run
variable {A B X R S K : Type _} [Ord K] [TransOrd K] {ka : A → K} {kb : B → K} {d : Sides A B X}

theorem slice_merge {h : Closure S X (Option R)} {op : MergeOp (SliceMS A B R × S) A B} (impl : GImpl d op (fun s => s.r) h)
    (hcmp : ∀ x y, op.cmp x y = compare (ka x) (kb y)) (a : List A) (b : List B) (ha : AscendingBy ka a) (hb : AscendingBy kb b) (c : S) :
    SliceMS.mergeE a b op c = answersOf h (sidesOf d op.cmp a b) c := by
  have := mergeAll_g impl hcmp ({ a := a, b := b, r := [] }, c) ha hb
  exact Prod.ext (this.out.trans (List.nil_append _)) (Prod.ext this.st this.flow)

theorem place_merge {h : Closure S X (Option A)} {op : MergeOp (InPlaceMS A B × S) A B} (impl : GImpl d op (fun s => s.tgt) h)
    (hcmp : ∀ x y, op.cmp x y = compare (ka x) (kb y)) (a : List A) (b : List B) (ha : AscendingBy ka a) (hb : AscendingBy kb b) (c : S) :
    InPlaceMS.mergeE a b op c = answersOf h (sidesOf d op.cmp a b) c := by
  have := mergeAll_g impl hcmp ({ src := a, b := b, tgt := [] }, c) ha hb
  exact Prod.ext (this.out.trans (List.nil_append _)) (Prod.ext this.st this.flow)
end run

end CloneMerge
end Verif
