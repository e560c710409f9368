import Verif.Model.Hostile
import Verif.Lemmas.Account
import Verif.Lemmas.Schedule
/-! Lemmas about the containers with an arbitrary comparison. -/
namespace Verif
namespace Hostile
variable {W α β : Type}

/-- `x` has no undefined behaviour, panics only if `mp`, and a value it returns satisfies `P` -/
def Ok (mp : Prop) (x : M W α) (P : α → Prop) : Prop :=
  ∀ w, (∀ a, (x w).1 = .ret a → P a) ∧ ((x w).1 = .panic → mp) ∧ (x w).1 ≠ .fault

variable {mp : Prop}

theorem Ok.pure {P : α → Prop} {a : α} (h : P a) : Ok mp (Pure.pure a : M W α) P := by
  intro w
  refine ⟨fun b hb => ?_, fun hb => ?_, fun hb => ?_⟩
  · cases hb; exact h
  · cases hb
  · cases hb

theorem Ok.bind {P : α → Prop} {Q : β → Prop} {x : M W α} {f : α → M W β} (hx : Ok mp x P) (hf : ∀ a, P a → Ok mp (f a) Q) :
    Ok mp (x >>= f) Q := by
  intro w
  show (∀ a, ((match x w with
    | (.ret a, w') => f a w'
    | (.panic, w') => (.panic, w')
    | (.fault, w') => (.fault, w')) : Outcome β × W).1 = .ret a → Q a) ∧ _
  obtain ⟨h1, h2, h3⟩ := hx w
  show _ ∧ (((match x w with
    | (.ret a, w') => f a w'
    | (.panic, w') => (.panic, w')
    | (.fault, w') => (.fault, w')) : Outcome β × W).1 = .panic → mp) ∧
     ((match x w with
    | (.ret a, w') => f a w'
    | (.panic, w') => (.panic, w')
    | (.fault, w') => (.fault, w')) : Outcome β × W).1 ≠ .fault
  rcases hxw : x w with ⟨o, w'⟩
  rw [hxw] at h1 h2 h3
  cases o with
  | ret a => exact hf a (h1 a rfl) w'
  | panic => exact ⟨fun a h => (by cases h), fun _ => h2 rfl, fun h => (by cases h)⟩
  | fault => exact absurd rfl h3

theorem Ok.mono {P Q : α → Prop} {x : M W α} (h : Ok mp x P) (hpq : ∀ a, P a → Q a) : Ok mp x Q :=
  fun w => ⟨fun a ha => hpq a ((h w).1 a ha), (h w).2⟩

theorem Ok.call {c : W → Call α × W} {P : α → Prop} (hp : ∀ w, (c w).1 = .panic → mp) (hP : ∀ w a, (c w).1 = .ret a → P a) :
    Ok mp (call c) P := by
  intro w
  unfold Hostile.call
  have h1 := hp w
  have h2 := hP w
  rcases hc : c w with ⟨o, w'⟩
  rw [hc] at h1 h2
  cases o with
  | ret a => exact ⟨fun b hb => (by cases hb; exact h2 a rfl), fun h => (by cases h), fun h => (by cases h)⟩
  | panic => exact ⟨fun b hb => (by cases hb), fun _ => h1 rfl, fun h => (by cases h)⟩

theorem Ok.getUnchecked {l : List α} {i : Nat} (h : i < l.length) : Ok mp (getUnchecked l i : M W α) (fun x => x ∈ l) := by
  unfold Hostile.getUnchecked
  rw [List.getElem?_eq_getElem h]
  exact Ok.pure (List.getElem_mem h)

theorem bsLoop_ok {f : α → M W Ordering} {l : List α} (hf : ∀ x, Ok mp (f x) fun _ => True) :
    ∀ (size base : Nat), 1 ≤ size → base + size ≤ l.length → Ok mp (bsLoop f l base size) (fun r => r < l.length) := by
  intro size
  induction size using Nat.strongRecOn with
  | _ size ih =>
    intro base h1 h2
    rw [bsLoop]
    split
    · refine (Ok.getUnchecked (by omega)).bind fun x _ => (hf x).bind fun o _ => ?_
      split
      · exact ih _ (by omega) _ (by omega) (by omega)
      · exact ih _ (by omega) _ (by omega) (by omega)
    · exact Ok.pure (by omega)

/-- where a search may end -/
def InRange (l : List α) : SearchResult → Prop
  | .found i => i < l.length
  | .notFound i => i ≤ l.length

theorem binarySearchBy_ok {f : α → M W Ordering} {l : List α} (hf : ∀ x, Ok mp (f x) fun _ => True) :
    Ok mp (binarySearchBy f l) (InRange l) := by
  unfold binarySearchBy
  split
  · exact Ok.pure (Nat.zero_le _)
  · refine (bsLoop_ok hf l.length 0 (by omega) (by omega)).bind fun base hb => ?_
    refine (Ok.getUnchecked hb).bind fun x _ => (hf x).bind fun o _ => ?_
    cases o with
    | lt => exact Ok.pure (by show base + 1 ≤ _; omega)
    | eq => exact Ok.pure hb
    | gt => exact Ok.pure (by show base ≤ _; omega)

/-! ### A comparison that answers lawfully, if it answers -/

/-- the values the computation returns are those of `a` -/
def Agrees (x : M W α) (a : α) : Prop := ∀ w b, (x w).1 = .ret b → b = a

theorem Agrees.pure {a : α} : Agrees (Pure.pure a : M W α) a := by
  intro w b hb; cases hb; rfl

theorem Agrees.bind {x : M W α} {f : α → M W β} {a : α} {b : β} (hx : Agrees x a) (hf : Agrees (f a) b) : Agrees (x >>= f) b := by
  intro w c hc
  have hc : ((match x w with
    | (.ret a, w') => f a w'
    | (.panic, w') => (.panic, w')
    | (.fault, w') => (.fault, w')) : Outcome β × W).1 = .ret c := hc
  have h1 := hx w
  rcases hxw : x w with ⟨o, w'⟩
  rw [hxw] at h1 hc
  cases o with
  | ret a' => have := h1 a' rfl; subst this; exact hf w' c hc
  | panic => cases hc
  | fault => cases hc

theorem Agrees.call {c : W → Call α × W} {a : α} (h : ∀ w b, (c w).1 = .ret b → b = a) : Agrees (Hostile.call c) a := by
  intro w b hb
  unfold Hostile.call at hb
  have := h w
  rcases hc : c w with ⟨o, w'⟩
  rw [hc] at hb this
  cases o with
  | ret x => cases hb; exact this _ rfl
  | panic => cases hb

theorem Agrees.getUnchecked {l : List α} {i : Nat} (h : i < l.length) : Agrees (Hostile.getUnchecked l i : M W α) l[i] := by
  unfold Hostile.getUnchecked
  rw [List.getElem?_eq_getElem h]
  exact Agrees.pure

theorem bsLoop_agrees {f : α → M W Ordering} {g : α → Ordering} {l : List α} (hf : ∀ x, Agrees (f x) (g x)) :
    ∀ (size base : Nat), 1 ≤ size → base + size ≤ l.length → Agrees (bsLoop f l base size) (Verif.bsLoop g l base size) := by
  intro size
  induction size using Nat.strongRecOn with
  | _ size ih =>
    intro base h1 h2
    rw [bsLoop, Verif.bsLoop]
    split
    · have hm : base + size / 2 < l.length := by omega
      refine (Agrees.getUnchecked hm).bind ((hf _).bind ?_)
      simp only
      rw [List.getElem?_eq_getElem hm]
      simp only
      split
      · exact ih _ (by omega) _ (by omega) (by omega)
      · exact ih _ (by omega) _ (by omega) (by omega)
    · exact Agrees.pure

theorem vbsLoop_lt {g : α → Ordering} {l : List α} :
    ∀ (size base : Nat), 1 ≤ size → base + size ≤ l.length → Verif.bsLoop g l base size < l.length := by
  intro size
  induction size using Nat.strongRecOn with
  | _ size ih =>
    intro base h1 h2
    rw [Verif.bsLoop]
    split
    · have hm : base + size / 2 < l.length := by omega
      simp only
      rw [List.getElem?_eq_getElem hm]
      simp only
      split
      · exact ih _ (by omega) _ (by omega) (by omega)
      · exact ih _ (by omega) _ (by omega) (by omega)
    · omega

theorem binarySearchBy_agrees {f : α → M W Ordering} {g : α → Ordering} {l : List α} (hf : ∀ x, Agrees (f x) (g x)) :
    Agrees (binarySearchBy f l) (Verif.binarySearchBy g l) := by
  unfold binarySearchBy Verif.binarySearchBy
  split
  · exact Agrees.pure
  · have hb := vbsLoop_lt (g := g) (l := l) l.length 0 (by omega) (by omega)
    refine (bsLoop_agrees hf l.length 0 (by omega) (by omega)).bind ((Agrees.getUnchecked hb).bind ((hf _).bind ?_))
    simp only
    rw [List.getElem?_eq_getElem hb]
    simp only
    cases g l[Verif.bsLoop g l 0 l.length] <;> exact Agrees.pure

/-! ### The merge driver -/
section merge
variable {σ A B R : Type} [MergeState σ A B] {op : MergeOp σ A B} {out : σ → List R} {inv : σ → Prop} {fa : A → Emit R}
  {fb : B → Emit R} {fc : A → B → Emit R}

theorem step_out (r : σ × Flow) (w : W) : (step r w).1 = (r.1, ofFlow r.2) := rfl

/-- what a run with an arbitrary comparison amounts to: some callbacks, then possibly a panic of the comparison -/
def IsRun (mp : Prop) (op : MergeOp σ A B) (s : σ) (r : σ × Outcome Bool) : Prop :=
  ∃ evs, r.1 = (runEvs op s evs).1 ∧
    (r.2 = ofFlow (runEvs op s evs).2 ∨ (r.2 = .panic ∧ (runEvs op s evs).2 = .cont ∧ mp))

theorem ofFlow_true {fl : Flow} (h : ofFlow fl = .ret true) : fl = .cont := by cases fl <;> simp_all [ofFlow]

theorem IsRun.andThen {s : σ} {r : (σ × Outcome Bool) × W} {k : σ → W → (σ × Outcome Bool) × W} (h : IsRun mp op s r.1)
    (hk : r.1.2 = .ret true → IsRun mp op r.1.1 (k r.1.1 r.2).1) : IsRun mp op s (andThen r k).1 := by
  obtain ⟨evs, h1, h2⟩ := h
  unfold Hostile.andThen
  by_cases hc : r.1.2 = .ret true
  · rw [hc]
    obtain ⟨evs', h3, h4⟩ := hk hc
    have hc' : (runEvs op s evs).2 = .cont := by
      rcases h2 with h2 | ⟨h2, -⟩
      · exact ofFlow_true (h2.symm.trans hc)
      · rw [hc] at h2; cases h2
    refine ⟨evs ++ evs', ?_, ?_⟩
    · rw [runEvs_append, andThen_cont hc', ← h1]; exact h3
    · rw [runEvs_append, andThen_cont hc', ← h1]; exact h4
  · refine ⟨evs, ?_⟩
    cases ho : r.1.2 with
    | ret b => cases b with
      | true => exact absurd ho hc
      | false => exact ⟨h1, h2⟩
    | panic => exact ⟨h1, h2⟩
    | fault => exact ⟨h1, h2⟩

theorem single (r : σ × Flow) : Verif.andThen r (fun s => (s, .cont)) = r := by
  obtain ⟨s, fl⟩ := r; cases fl <;> rfl

theorem isRun_a (s : σ) (n : Nat) (w : W) : IsRun mp op s (step (op.fromA s n) w).1 :=
  ⟨[.a n], by simp only [runEvs, single, step], .inl (by simp only [runEvs, single, step])⟩
theorem isRun_b (s : σ) (n : Nat) (w : W) : IsRun mp op s (step (op.fromB s n) w).1 :=
  ⟨[.b n], by simp only [runEvs, single, step], .inl (by simp only [runEvs, single, step])⟩
theorem isRun_c (s : σ) (w : W) : IsRun mp op s (step (op.collision s) w).1 :=
  ⟨[.c], by simp only [runEvs, single, step], .inl (by simp only [runEvs, single, step])⟩

theorem cmp_ok {cmp : Cmp W A B} (hmp : ∀ a b w, (cmp a b w).1 = .panic → mp) (a : A) (b : B) :
    Ok mp (do let o ← call (cmp a b); pure o.swap : M W Ordering) fun _ => True :=
  (Ok.call (P := fun _ => True) (hmp a b) (fun _ _ _ => trivial)).bind fun _ _ => Ok.pure trivial

/-- the slices after a completed run -/
structure Done (inv : σ → Prop) (s s' : σ) (an bn : Nat) : Prop where
  a : MergeState.aSlice s' = (MergeState.aSlice s : List A).drop an
  b : MergeState.bSlice s' = (MergeState.bSlice s : List B).drop bn
  inv : inv s'

theorem andThen_not_true {r : (σ × Outcome Bool) × W} {k : σ → W → (σ × Outcome Bool) × W} (h : r.1.2 ≠ .ret true) : andThen r k = r := by
  unfold Hostile.andThen
  split
  · rename_i e; exact absurd e h
  · rfl

theorem andThen_true {r : (σ × Outcome Bool) × W} {k : σ → W → (σ × Outcome Bool) × W} (h : r.1.2 = .ret true) :
    andThen r k = k r.1.1 r.2 := by
  unfold Hostile.andThen; rw [h]

/-- some callback panics for some arguments -/
def CbPanics (fa : A → Emit R) (fb : B → Emit R) (fc : A → B → Emit R) : Prop :=
  (∃ x, (fa x).2 = .panic) ∨ (∃ y, (fb y).2 = .panic) ∨ ∃ x y, (fc x y).2 = .panic

theorem collect_panic {A : Type} {f : A → Emit R} : ∀ {l : List A}, (collect f l).2 = .panic → ∃ x, (f x).2 = .panic := by
  intro l
  induction l with
  | nil => intro h; cases h
  | cons x l ih =>
    intro h
    rw [collect, Emit.seq] at h
    cases hx : (f x).2 with
    | cont => rw [hx] at h; exact ih h
    | stop => rw [hx] at h; simp only at h; rw [hx] at h; cases h
    | panic => exact ⟨x, hx⟩

theorem ofFlow_panic {fl : Flow} (h : ofFlow fl = .panic) : fl = .panic := by cases fl <;> simp_all [ofFlow]

/-- With an arbitrary comparison the driver still only runs callbacks within the inputs: no undefined behaviour, and a panic comes from a
callback or from the comparison. -/
theorem binaryMerge_run (impl : Implements op out inv fa fb fc) {cmp : Cmp W A B} (hmp : ∀ a b w, (cmp a b w).1 = .panic → mp)
    (hcb : CbPanics fa fb fc → mp) :
    ∀ (an bn : Nat) (s : σ) (w : W), inv s → an ≤ (MergeState.aSlice s : List A).length → bn ≤ (MergeState.bSlice s : List B).length →
      IsRun mp op s (binaryMerge cmp op s an bn w).1 ∧
      ((binaryMerge cmp op s an bn w).1.2 = .ret true → Done inv s (binaryMerge cmp op s an bn w).1.1 an bn) ∧
      ((binaryMerge cmp op s an bn w).1.2 = .panic → mp) := by
  intro an
  induction an using Nat.strongRecOn with
  | _ an ih =>
  intro bn s w hi ha hb
  rw [binaryMerge]
  split
  · rename_i h0
    subst h0
    split
    · rename_i h0
      subst h0
      exact ⟨⟨[], rfl, .inl rfl⟩, fun _ => ⟨by simp [step], by simp [step], hi⟩, fun h => by cases h⟩
    · have st := impl.fromB s bn hi (by omega) hb
      refine ⟨isRun_b s bn w, fun hc => ?_, fun hc => ?_⟩
      · have hc := ofFlow_true hc
        exact ⟨by rw [List.drop_zero]; exact st.a hc, st.b hc, st.inv hc⟩
      · exact hcb (.inr (.inl (collect_panic (st.flow.symm.trans (ofFlow_panic hc)))))
  · rename_i h0
    split
    · rename_i hb0
      subst hb0
      have st := impl.fromA s an hi (by omega) ha
      refine ⟨isRun_a s an w, fun hc => ?_, fun hc => ?_⟩
      · have hc := ofFlow_true hc
        exact ⟨st.a hc, by rw [List.drop_zero]; exact st.b hc, st.inv hc⟩
      · exact hcb (.inl (collect_panic (st.flow.symm.trans (ofFlow_panic hc))))
    · rename_i hb0
      have hm : an / 2 < (MergeState.aSlice s : List A).length := by omega
      rw [List.getElem?_eq_getElem hm]
      simp only
      rw [if_neg (by omega)]
      generalize (MergeState.aSlice s : List A)[an / 2] = x
      have hs := binarySearchBy_ok (l := (MergeState.bSlice s : List B).take bn) (fun b => cmp_ok hmp x b) w
      have hlen : ((MergeState.bSlice s : List B).take bn).length = bn := by simp; omega
      /- three steps in a row -/
      have comb : ∀ (r : (σ × Outcome Bool) × W) (am bm an' bn' : Nat) (f : σ → σ × Flow),
          (IsRun mp op s r.1 ∧ (r.1.2 = .ret true → Done inv s r.1.1 am bm) ∧ (r.1.2 = .panic → mp)) →
          (∀ s1 w1, Done inv s s1 am bm → IsRun mp op s1 (step (f s1) w1).1 ∧ ((f s1).2 = .panic → mp) ∧
            ((f s1).2 = .cont →
              IsRun mp op (f s1).1 (binaryMerge cmp op (f s1).1 an' bn' w1).1 ∧
              ((binaryMerge cmp op (f s1).1 an' bn' w1).1.2 = .ret true → Done inv s (binaryMerge cmp op (f s1).1 an' bn' w1).1.1 an bn) ∧
              ((binaryMerge cmp op (f s1).1 an' bn' w1).1.2 = .panic → mp))) →
          IsRun mp op s (andThen r fun m w => andThen (step (f m) w) fun m w => binaryMerge cmp op m an' bn' w).1 ∧
          ((andThen r fun m w => andThen (step (f m) w) fun m w => binaryMerge cmp op m an' bn' w).1.2 = .ret true →
            Done inv s (andThen r fun m w => andThen (step (f m) w) fun m w => binaryMerge cmp op m an' bn' w).1.1 an bn) ∧
          ((andThen r fun m w => andThen (step (f m) w) fun m w => binaryMerge cmp op m an' bn' w).1.2 = .panic → mp) := by
        intro r am bm an' bn' f h1 h2
        by_cases hc1 : r.1.2 = .ret true
        · have h2 := h2 r.1.1 r.2 (h1.2.1 hc1)
          refine ⟨h1.1.andThen fun _ => h2.1.andThen fun hc2 => (h2.2.2 (ofFlow_true hc2)).1, ?_⟩
          rw [andThen_true hc1]
          by_cases hc2 : (f r.1.1).2 = .cont
          · rw [andThen_true (r := step (f r.1.1) r.2) (by simp only [step, hc2, ofFlow])]
            exact (h2.2.2 hc2).2
          · have hc3 : (step (f r.1.1) r.2).1.2 ≠ .ret true := fun h => hc2 (ofFlow_true h)
            rw [andThen_not_true hc3]
            exact ⟨fun h => absurd h hc3, fun h => h2.2.1 (ofFlow_panic h)⟩
        · rw [andThen_not_true hc1]
          exact ⟨h1.1, fun h => absurd h hc1, h1.2.2⟩
      split
      · rename_i heq; rw [heq] at hs
        exact ⟨⟨[], rfl, .inr ⟨rfl, rfl, hs.2.1 rfl⟩⟩, fun h => (by cases h), fun _ => hs.2.1 rfl⟩
      · rename_i heq; rw [heq] at hs; exact absurd rfl hs.2.2
      · rename_i bm w' heq
        rw [heq] at hs
        have hbm := hs.1 _ rfl
        simp only [InRange, hlen] at hbm
        refine comb _ (an / 2) bm _ _ op.collision (ih (an / 2) (by omega) bm s w' hi (by omega) (by omega)) fun s1 w1 hd => ?_
        have e1 : MergeState.aSlice s1 = (MergeState.aSlice s : List A)[an / 2] :: (MergeState.aSlice s).drop (an / 2 + 1) := by
          rw [hd.a, List.drop_eq_getElem_cons]
        have e2 : MergeState.bSlice s1 = (MergeState.bSlice s : List B)[bm] :: (MergeState.bSlice s).drop (bm + 1) := by
          rw [hd.b, List.drop_eq_getElem_cons]
        have st := impl.collision s1 _ _ _ _ hd.inv e1 e2
        refine ⟨isRun_c _ _, fun h => hcb (.inr (.inr ⟨_, _, st.flow.symm.trans h⟩)), fun hc => ?_⟩
        have i2 := ih (an - an / 2 - 1) (by omega) (bn - bm - 1) (op.collision s1).1 w1 (st.inv hc)
          (by rw [st.a hc]; simp; omega) (by rw [st.b hc]; simp; omega)
        refine ⟨i2.1, fun h => ?_, i2.2.2⟩
        have d2 := i2.2.1 h
        refine ⟨?_, ?_, d2.inv⟩
        · rw [d2.a, st.a hc, List.drop_drop]; congr 1; omega
        · rw [d2.b, st.b hc, List.drop_drop]; congr 1; omega
      · rename_i bi w' heq
        rw [heq] at hs
        have hbi := hs.1 _ rfl
        simp only [InRange, hlen] at hbi
        refine comb _ (an / 2) bi _ _ (fun m => op.fromA m 1) (ih (an / 2) (by omega) bi s w' hi (by omega) (by omega)) fun s1 w1 hd => ?_
        have st := impl.fromA s1 1 hd.inv (by omega) (by rw [hd.a]; simp; omega)
        refine ⟨isRun_a _ _ _, fun h => hcb (.inl (collect_panic (st.flow.symm.trans h))), fun hc => ?_⟩
        have i2 := ih (an - an / 2 - 1) (by omega) (bn - bi) (op.fromA s1 1).1 w1 (st.inv hc)
          (by rw [st.a hc, hd.a]; simp; omega) (by rw [st.b hc, hd.b]; simp; omega)
        refine ⟨i2.1, fun h => ?_, i2.2.2⟩
        have d2 := i2.2.1 h
        refine ⟨?_, ?_, d2.inv⟩
        · rw [d2.a, st.a hc, hd.a, List.drop_drop, List.drop_drop]; congr 1; omega
        · rw [d2.b, st.b hc, hd.b, List.drop_drop]; congr 1; omega

/-- what a run amounts to if the comparison answers lawfully or panics: the callbacks of `plan` up to some point -/
def LawRun (plan : List Ev) (op : MergeOp σ A B) (s : σ) (r : σ × Outcome Bool) : Prop :=
  ∃ evs, evs <+: plan ∧ r.1 = (runEvs op s evs).1 ∧
    ((evs = plan ∧ r.2 = ofFlow (runEvs op s evs).2) ∨ (r.2 = .panic ∧ (runEvs op s evs).2 = .cont))

theorem andThen_stop {s : σ} {fl : Flow} (k : σ → σ × Flow) (h : fl ≠ .cont) : Verif.andThen (s, fl) k = (s, fl) := by
  cases fl <;> simp_all [Verif.andThen]

theorem LawRun.andThen {p1 p2 : List Ev} {s : σ} {r : (σ × Outcome Bool) × W} {k : σ → W → (σ × Outcome Bool) × W}
    (h : LawRun p1 op s r.1) (hk : (runEvs op s p1).2 = .cont → r.1.1 = (runEvs op s p1).1 → LawRun p2 op r.1.1 (k r.1.1 r.2).1) :
    LawRun (p1 ++ p2) op s (andThen r k).1 := by
  obtain ⟨evs, hp, h1, h2⟩ := h
  unfold Hostile.andThen
  rcases h2 with ⟨rfl, h2⟩ | ⟨h2, h3⟩
  · by_cases hc : (runEvs op s evs).2 = .cont
    · rw [h2, hc]
      simp only [ofFlow]
      obtain ⟨evs', hp', h4, h5⟩ := hk hc h1
      refine ⟨evs ++ evs', (List.prefix_append_right_inj _).2 hp', ?_, ?_⟩
      · rw [runEvs_append, andThen_cont hc, ← h1]; exact h4
      · rw [runEvs_append, andThen_cont hc, ← h1]
        rcases h5 with ⟨h5, h6⟩ | h5
        · exact .inl ⟨by rw [h5], h6⟩
        · exact .inr h5
    · have e : runEvs op s (evs ++ p2) = runEvs op s evs := by
        rw [runEvs_append]
        exact andThen_stop _ hc
      refine ⟨evs ++ p2, List.prefix_refl _, ?_⟩
      rw [e]
      rw [h2]
      cases hf : (runEvs op s evs).2 with
      | cont => exact absurd hf hc
      | stop => simp only [ofFlow]; exact ⟨h1, .inl ⟨trivial, by rw [h2, hf]; rfl⟩⟩
      | panic => simp only [ofFlow]; exact ⟨h1, .inl ⟨trivial, by rw [h2, hf]; rfl⟩⟩
  · rw [h2]
    exact ⟨evs, hp.trans (List.prefix_append _ _), h1, .inr ⟨h2, h3⟩⟩

open Std
variable {κ : Type} [Ord κ] [TransOrd κ] {ka : A → κ} {kb : B → κ}

theorem binaryMerge_lawful (impl : Implements op out inv fa fb fc) (hcmp : ∀ a b, op.cmp a b = compare (ka a) (kb b))
    {cmp : Cmp W A B} (agree : ∀ a b w o, (cmp a b w).1 = .ret o → o = op.cmp a b) :
    ∀ (as : List A) (bs : List B) (as2 : List A) (bs2 : List B) (s : σ) (w : W), inv s → AscendingBy ka as → AscendingBy kb bs →
      MergeState.aSlice s = as ++ as2 → MergeState.bSlice s = bs ++ bs2 →
      LawRun (planBin op.cmp as bs) op s (binaryMerge cmp op s as.length bs.length w).1 := by
  intro as
  induction hl : as.length using Nat.strongRecOn generalizing as with
  | _ len ih =>
  intro bs as2 bs2 s w hi0 ha hb hsa hsb
  subst hl
  rw [planBin, binaryMerge]
  by_cases h0 : as.length = 0
  · by_cases hb0 : bs.length = 0
    · simp only [h0, hb0, ↓reduceDIte, ↓reduceIte]
      exact ⟨[], List.prefix_refl _, rfl, .inl ⟨rfl, rfl⟩⟩
    · simp only [h0, hb0, ↓reduceDIte, ↓reduceIte]
      exact ⟨_, List.prefix_refl _, by simp only [runEvs, single, step], .inl ⟨rfl, by simp only [runEvs, single, step]⟩⟩
  · by_cases hb0 : bs.length = 0
    · simp only [h0, hb0, ↓reduceDIte, ↓reduceIte]
      exact ⟨_, List.prefix_refl _, by simp only [runEvs, single, step], .inl ⟨rfl, by simp only [runEvs, single, step]⟩⟩
    · simp only [h0, hb0, ↓reduceDIte, ↓reduceIte]
      have hm : as.length / 2 < as.length := by omega
      have hbl : ¬ (MergeState.bSlice s : List B).length < bs.length := by rw [hsb]; simp
      have hget : (MergeState.aSlice s : List A)[as.length / 2]? = some as[as.length / 2] := by
        rw [hsa, List.getElem?_append_left hm, List.getElem?_eq_getElem hm]
      have htake : (MergeState.bSlice s : List B).take bs.length = bs := by rw [hsb]; simp
      rw [hget]
      simp only [hbl, ↓reduceIte, htake]
      have split : as = as.take (as.length / 2) ++ as[as.length / 2] :: as.drop (as.length / 2 + 1) := by
        rw [← List.drop_eq_getElem_cons hm, List.take_append_drop]
      generalize hx : as[as.length / 2] = x at split ⊢
      clear hx hget
      generalize hmid : as.length / 2 = am at hm split ⊢
      have ha' := ha
      rw [split, ascendingBy_append, ascendingBy_cons] at ha'
      obtain ⟨ha1, ⟨hax, ha2⟩, hcross⟩ := ha'
      have spec := binarySearchBy_spec (f := fun b => (op.cmp x b).swap) (l := bs)
        (by simpa [hcmp] using mono_swap hb (ka x))
      have hl1 : (as.take am).length = am := by simp; omega
      have hl2 : (as.drop (am + 1)).length = as.length - am - 1 := by simp; omega
      have hsa1 : (MergeState.aSlice s : List A)
          = as.take am ++ (x :: (as.drop (am + 1) ++ as2)) := by
        rw [hsa]; conv => lhs; rw [split]
        simp
      have hag := binarySearchBy_agrees (l := bs) (g := fun b => (op.cmp x b).swap)
        (f := fun b => (do let o ← call (cmp x b); pure o.swap : M W Ordering))
        (fun b => (Agrees.call (fun w o h => agree x b w o h)).bind Agrees.pure) w
      have hok := binarySearchBy_ok (l := bs) (fun b => cmp_ok (mp := True) (cmp := cmp) (fun _ _ _ _ => trivial) x b) w
      rcases hres : binarySearchBy (fun b => (do let o ← call (cmp x b); pure o.swap : M W Ordering)) bs w with ⟨o, w'⟩
      rw [hres] at hag hok
      cases o with
      | panic => exact ⟨[], List.nil_prefix, rfl, .inr ⟨rfl, rfl⟩⟩
      | fault => exact absurd rfl hok.2.2
      | ret sr =>
      have hag := hag sr rfl
      rw [← hag] at spec ⊢
      cases sr with
      | found bm =>
        obtain ⟨lo, y, hi, hbs, hlo, hy, hlt, hgt⟩ := spec
        have e1 : bs.take bm = lo := by rw [hbs, ← hlo]; simp
        have e2 : bs.drop (bm + 1) = hi := by rw [hbs, ← hlo]; simp
        have hl3 : hi.length = bs.length - bm - 1 := by rw [hbs, ← hlo]; simp
        have hb' := hb
        rw [hbs, ascendingBy_append, ascendingBy_cons] at hb'
        obtain ⟨hb1, ⟨hbx, hb2⟩, hbc⟩ := hb'
        have hsb1 : (MergeState.bSlice s : List B) = lo ++ (y :: (hi ++ bs2)) := by
          rw [hsb, hbs]; simp
        simp only [e1, e2]
        have r1 := ih am hm (as.take am) hl1 lo _ _ s w' hi0 ha1 hb1 hsa1 hsb1
        rw [hlo] at r1
        refine r1.andThen fun hc he => ?_
        have st := run_legal impl (planBin_legal hcmp (as.take am) lo ha1 hb1) s _ _ hi0 hsa1 hsb1
        have st2 := impl.collision _ _ _ _ _ (st.inv hc) (st.a hc) (st.b hc)
        rw [he]
        refine LawRun.andThen (p1 := [.c])
          ⟨_, List.prefix_refl _, by simp only [runEvs, single, step], .inl ⟨rfl, by simp only [runEvs, single, step]⟩⟩ fun hc2 he2 => ?_
        simp only [runEvs, single] at hc2
        have := ih (as.length - am - 1) (by omega) (as.drop (am + 1)) hl2 hi as2 bs2 _ (binaryMerge cmp op s am bm w').2 (st2.inv hc2) ha2 hb2
          (st2.a hc2) (st2.b hc2)
        rw [hl3] at this
        exact this
      | notFound bi =>
        obtain ⟨lo, hi, hbs, hlo, hlt, hgt⟩ := spec
        have e1 : bs.take bi = lo := by rw [hbs, ← hlo]; simp
        have e2 : bs.drop bi = hi := by rw [hbs, ← hlo]; simp
        have hl3 : hi.length = bs.length - bi := by rw [hbs, ← hlo]; simp
        have hb' := hb
        rw [hbs, ascendingBy_append] at hb'
        obtain ⟨hb1, hb2, hbc⟩ := hb'
        have hsb1 : (MergeState.bSlice s : List B) = lo ++ (hi ++ bs2) := by
          rw [hsb, hbs]; simp
        simp only [e1, e2]
        have r1 := ih am hm (as.take am) hl1 lo _ _ s w' hi0 ha1 hb1 hsa1 hsb1
        rw [hlo] at r1
        refine r1.andThen fun hc he => ?_
        have st := run_legal impl (planBin_legal hcmp (as.take am) lo ha1 hb1) s _ _ hi0 hsa1 hsb1
        have st2 := impl.fromA (runEvs op s (planBin op.cmp (as.take am) lo)).1 1 (st.inv hc) (by omega)
          (by rw [st.a hc]; simp)
        rw [he]
        refine LawRun.andThen (p1 := [.a 1])
          ⟨_, List.prefix_refl _, by simp only [runEvs, single, step], .inl ⟨rfl, by simp only [runEvs, single, step]⟩⟩ fun hc2 he2 => ?_
        simp only [runEvs, single] at hc2
        have := ih (as.length - am - 1) (by omega) (as.drop (am + 1)) hl2 hi as2 bs2 _ (binaryMerge cmp op s am bi w').2 (st2.inv hc2) ha2 hb2
          (by rw [st2.a hc2, st.a hc]; simp) (by rw [st2.b hc2, st.b hc])
        rw [hl3] at this
        exact this

end merge
end Hostile
end Verif
