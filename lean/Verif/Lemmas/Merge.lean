import Verif.Spec.Schedule
import Verif.Lemmas.BinarySearch
/-! Every legal schedule, and in particular the binary merge, computes `joinRef`. -/
namespace Verif
open Std

section emit
variable {A B R : Type _}

theorem Emit.seq_assoc (x y z : Emit R) : (x.seq y).seq z = x.seq (y.seq z) := by
  obtain ⟨x1, x2⟩ := x; obtain ⟨y1, y2⟩ := y; obtain ⟨z1, z2⟩ := z
  cases x2 <;> cases y2 <;> simp [Emit.seq]

@[simp] theorem Emit.seq_unit (x : Emit R) : x.seq ([], .cont) = x := by
  obtain ⟨x1, x2⟩ := x; cases x2 <;> simp [Emit.seq]

@[simp] theorem Emit.unit_seq (x : Emit R) : Emit.seq ([], .cont) x = x := by
  simp [Emit.seq]

theorem collect_append (f : A → Emit R) (l m : List A) :
    collect f (l ++ m) = (collect f l).seq (collect f m) := by
  induction l with
  | nil => simp [collect]
  | cons x l ih => simp [collect, ih, Emit.seq_assoc]

variable {cmp : A → B → Ordering} {fa : A → Emit R} {fb : B → Emit R} {fc : A → B → Emit R}

@[simp] theorem joinRef_nil_left (bs : List B) : joinRef cmp fa fb fc [] bs = collect fb bs := by
  unfold joinRef; rfl

@[simp] theorem joinRef_nil_right (as : List A) : joinRef cmp fa fb fc as [] = collect fa as := by
  cases as <;> (unfold joinRef; rfl)

theorem joinRef_a (n : Nat) (as : List A) (bs : List B)
    (h : ∀ x ∈ as.take n, ∀ y ∈ bs, cmp x y = .lt) :
    joinRef cmp fa fb fc as bs
      = (collect fa (as.take n)).seq (joinRef cmp fa fb fc (as.drop n) bs) := by
  induction n generalizing as with
  | zero => simp [collect]
  | succ n ih =>
    cases as with
    | nil => simp [collect]
    | cons x as =>
      cases bs with
      | nil =>
        simp only [joinRef_nil_right]
        rw [← collect_append, List.take_append_drop]
      | cons y bs =>
        have hx := h x (by simp) y (by simp)
        rw [joinRef, hx]
        simp only [List.take_succ_cons, List.drop_succ_cons, collect]
        rw [Emit.seq_assoc, ← ih as (fun x hx => h x (by simp [hx]))]

theorem joinRef_b (n : Nat) (as : List A) (bs : List B)
    (h : ∀ y ∈ bs.take n, ∀ x ∈ as, cmp x y = .gt) :
    joinRef cmp fa fb fc as bs
      = (collect fb (bs.take n)).seq (joinRef cmp fa fb fc as (bs.drop n)) := by
  induction n generalizing bs with
  | zero => simp [collect]
  | succ n ih =>
    cases bs with
    | nil => simp [collect]
    | cons y bs =>
      cases as with
      | nil =>
        simp only [joinRef_nil_left]
        rw [← collect_append, List.take_append_drop]
      | cons x as =>
        have hx := h y (by simp) x (by simp)
        rw [joinRef, hx]
        simp only [List.take_succ_cons, List.drop_succ_cons, collect]
        rw [Emit.seq_assoc, ← ih bs (fun x hx => h x (by simp [hx]))]

end emit

variable {σ A B R : Type _} [MergeState σ A B]

/-- `r` is what a callback (or a run of callbacks) does to state `s` when it should emit `e` and leave `a'`, `b'`. -/
structure StepSpec (out : σ → List R) (inv : σ → Prop) (s : σ) (r : σ × Flow) (e : Emit R) (a' : List A)
    (b' : List B) : Prop where
  flow : r.2 = e.2
  out : out r.1 = out s ++ e.1
  a : r.2 = .cont → MergeState.aSlice r.1 = a'
  b : r.2 = .cont → MergeState.bSlice r.1 = b'
  inv : r.2 = .cont → inv r.1

/-- The merge operation `op`, observed through `out` on states satisfying `inv`, handles each element with
`fa`, `fb`, `fc`. -/
structure Implements (op : MergeOp σ A B) (out : σ → List R) (inv : σ → Prop) (fa : A → Emit R) (fb : B → Emit R)
    (fc : A → B → Emit R) : Prop where
  fromA : ∀ s n, inv s → 1 ≤ n → n ≤ (MergeState.aSlice s : List A).length →
    StepSpec out inv s (op.fromA s n) (collect fa ((MergeState.aSlice s).take n))
      ((MergeState.aSlice s).drop n) (MergeState.bSlice s)
  fromB : ∀ s n, inv s → 1 ≤ n → n ≤ (MergeState.bSlice s : List B).length →
    StepSpec out inv s (op.fromB s n) (collect fb ((MergeState.bSlice s).take n))
      (MergeState.aSlice s) ((MergeState.bSlice s).drop n)
  collision : ∀ s a as b bs, inv s → MergeState.aSlice s = a :: as → MergeState.bSlice s = b :: bs →
    StepSpec out inv s (op.collision s) (fc a b) as bs

theorem StepSpec.andThen {out : σ → List R} {inv : σ → Prop} {s : σ} {r : σ × Flow} {e e' : Emit R}
    {a' a'' : List A} {b' b'' : List B} {k : σ → σ × Flow}
    (h : StepSpec out inv s r e a' b')
    (h' : r.2 = .cont → StepSpec out inv r.1 (k r.1) e' a'' b'') :
    StepSpec out inv s (Verif.andThen r k) (e.seq e') a'' b'' := by
  obtain ⟨s', fl⟩ := r
  obtain ⟨e1, e2⟩ := e
  obtain ⟨hf, ho, ha, hb, hi⟩ := h
  simp only at hf ho ha hb hi h'
  subst hf
  cases fl with
  | cont =>
    obtain ⟨hf', ho', ha', hb', hi'⟩ := h' rfl
    simp only [Verif.andThen, Emit.seq]
    exact ⟨hf', by rw [ho', ho, List.append_assoc], ha', hb', hi'⟩
  | stop => exact ⟨rfl, ho, by simp [Verif.andThen], by simp [Verif.andThen], by simp [Verif.andThen]⟩
  | panic => exact ⟨rfl, ho, by simp [Verif.andThen], by simp [Verif.andThen], by simp [Verif.andThen]⟩

variable {op : MergeOp σ A B} {out : σ → List R} {inv : σ → Prop} {fa : A → Emit R} {fb : B → Emit R}
    {fc : A → B → Emit R}

theorem StepSpec.refl (s : σ) (hi : inv s) :
    StepSpec out inv s (s, .cont) ([], .cont) (MergeState.aSlice s) (MergeState.bSlice s) :=
  ⟨rfl, by simp, fun _ => rfl, fun _ => rfl, fun _ => hi⟩

/-- Running any legal schedule for a prefix of the inputs has the effect of the textbook merge. -/
theorem run_legal (impl : Implements op out inv fa fb fc) {as : List A} {bs : List B} {evs : List Ev}
    (h : Legal op.cmp as bs evs) : ∀ (s : σ) (as2 : List A) (bs2 : List B), inv s →
      MergeState.aSlice s = as ++ as2 → MergeState.bSlice s = bs ++ bs2 →
      StepSpec out inv s (runEvs op s evs) (joinRef op.cmp fa fb fc as bs) as2 bs2 := by
  induction h with
  | done =>
    intro s as2 bs2 hi ha hb
    simp only [List.nil_append] at ha hb
    subst ha hb
    simpa [runEvs, collect] using StepSpec.refl s hi
  | @a as bs evs n h1 hn hlt _ ih =>
    intro s as2 bs2 hi ha hb
    rw [joinRef_a n as bs hlt, runEvs]
    have step := impl.fromA s n hi h1 (by rw [ha]; simp; omega)
    rw [ha, List.take_append_of_le_length hn, List.drop_append_of_le_length hn] at step
    refine step.andThen fun hc => ih _ as2 bs2 (step.inv hc) (step.a hc) ?_
    rw [step.b hc, hb]
  | @b as bs evs n h1 hn hlt _ ih =>
    intro s as2 bs2 hi ha hb
    rw [joinRef_b n as bs hlt, runEvs]
    have step := impl.fromB s n hi h1 (by rw [hb]; simp; omega)
    rw [hb, List.take_append_of_le_length hn, List.drop_append_of_le_length hn] at step
    refine step.andThen fun hc => ih _ as2 bs2 (step.inv hc) ?_ (step.b hc)
    rw [step.a hc, ha]
  | @c x y as bs evs he _ ih =>
    intro s as2 bs2 hi ha hb
    rw [joinRef, he, runEvs]
    have step := impl.collision s x (as ++ as2) y (bs ++ bs2) hi (by simpa using ha) (by simpa using hb)
    exact step.andThen fun hc => ih _ as2 bs2 (step.inv hc) (step.a hc) (step.b hc)

/-! ### Schedules of the two drivers -/

/-- the schedule issued by the binary merge -/
def planBin {A B : Type _} (cmp : A → B → Ordering) (as : List A) (bs : List B) : List Ev :=
  if h : as.length = 0 then
    if bs.length = 0 then [] else [.b bs.length]
  else if bs.length = 0 then [.a as.length]
  else
    let am := as.length / 2
    match binarySearchBy (fun b => (cmp (as[am]'(by omega)) b).swap) bs with
    | .found bm =>
      planBin cmp (as.take am) (bs.take bm) ++
        .c :: planBin cmp (as.drop (am + 1)) (bs.drop (bm + 1))
    | .notFound bi =>
      planBin cmp (as.take am) (bs.take bi) ++
        .a 1 :: planBin cmp (as.drop (am + 1)) (bs.drop bi)
termination_by as.length
decreasing_by all_goals (simp; omega)

/-- the schedule of an element-by-element ("tape") merge -/
def planTape {A B : Type _} (cmp : A → B → Ordering) : List A → List B → List Ev
  | [], [] => []
  | [], b :: bs => .b (b :: bs).length :: []
  | a :: as, [] => .a (a :: as).length :: []
  | a :: as, b :: bs =>
    match cmp a b with
    | .lt => .a 1 :: planTape cmp as (b :: bs)
    | .gt => .b 1 :: planTape cmp (a :: as) bs
    | .eq => .c :: planTape cmp as bs
termination_by as bs => as.length + bs.length

section legal
variable {A B : Type _} {cmp : A → B → Ordering}

theorem Legal.append {as bs e1} (h1 : Legal cmp as bs e1) {as' bs' e2}
    (h2 : Legal cmp as' bs' e2) (hab : ∀ x ∈ as, ∀ y ∈ bs', cmp x y = .lt)
    (hba : ∀ y ∈ bs, ∀ x ∈ as', cmp x y = .gt) :
    Legal cmp (as ++ as') (bs ++ bs') (e1 ++ e2) := by
  induction h1 with
  | done => simpa using h2
  | @a as bs evs n h1 hn hlt _ ih =>
    refine Legal.a n h1 (by simp; omega) ?_ ?_
    · rw [List.take_append_of_le_length hn]
      intro x hx y hy
      rcases List.mem_append.1 hy with hy | hy
      · exact hlt x hx y hy
      · exact hab x (List.mem_of_mem_take hx) y hy
    · rw [List.drop_append_of_le_length hn]
      exact ih (fun x hx => hab x (List.mem_of_mem_drop hx)) hba
  | @b as bs evs n h1 hn hlt _ ih =>
    refine Legal.b n h1 (by simp; omega) ?_ ?_
    · rw [List.take_append_of_le_length hn]
      intro y hy x hx
      rcases List.mem_append.1 hx with hx | hx
      · exact hlt y hy x hx
      · exact hba y (List.mem_of_mem_take hy) x hx
    · rw [List.drop_append_of_le_length hn]
      exact ih hab (fun y hy => hba y (List.mem_of_mem_drop hy))
  | @c x y as bs evs he _ ih =>
    exact Legal.c he (ih (fun x hx => hab x (by simp [hx])) (fun y hy => hba y (by simp [hy])))

variable {κ : Type _} [Ord κ] [TransOrd κ] {ka : A → κ} {kb : B → κ}

theorem mono_swap {bs : List B} (hb : AscendingBy kb bs) (k : κ) :
    Mono (fun b => (compare k (kb b)).swap) bs := by
  have := mono_of_ascendingBy hb k
  refine List.Pairwise.imp ?_ this
  intro x y h
  simp only [OrientedCmp.eq_swap (a := k), Ordering.swap_swap]
  exact h

theorem planBin_legal (hcmp : ∀ a b, cmp a b = compare (ka a) (kb b)) :
    ∀ (as : List A) (bs : List B), AscendingBy ka as → AscendingBy kb bs →
      Legal cmp as bs (planBin cmp as bs) := by
  intro as
  induction hl : as.length using Nat.strongRecOn generalizing as with
  | _ len ih =>
  intro bs ha hb
  subst hl
  rw [planBin]
  by_cases h0 : as.length = 0
  · have : as = [] := List.length_eq_zero_iff.1 h0
    subst this
    by_cases hb0 : bs.length = 0
    · have : bs = [] := List.length_eq_zero_iff.1 hb0
      subst this
      simpa using Legal.done
    · simp only [List.length_nil, ↓reduceDIte, hb0, ↓reduceIte]
      refine Legal.b _ (by omega) (by omega) (by simp) ?_
      simpa using Legal.done
  · simp only [h0, ↓reduceDIte]
    by_cases hb0 : bs.length = 0
    · have : bs = [] := List.length_eq_zero_iff.1 hb0
      subst this
      simp only [List.length_nil, ↓reduceIte]
      refine Legal.a _ (by omega) (by omega) (by simp) ?_
      simpa using Legal.done
    · simp only [hb0, ↓reduceIte]
      have hm : as.length / 2 < as.length := by omega
      have split : as = as.take (as.length / 2) ++ as[as.length / 2] :: as.drop (as.length / 2 + 1) := by
        rw [← List.drop_eq_getElem_cons hm, List.take_append_drop]
      generalize hx : as[as.length / 2] = x at split ⊢
      clear hx
      generalize hmid : as.length / 2 = am at hm split ⊢
      have ha' := ha
      rw [split, ascendingBy_append, ascendingBy_cons] at ha'
      obtain ⟨ha1, ⟨hax, ha2⟩, hcross⟩ := ha'
      have spec := binarySearchBy_spec (f := fun b => (cmp x b).swap) (l := bs)
        (by simpa [hcmp] using mono_swap hb (ka x))
      have hlen1 : (as.take am).length < as.length := by simp; omega
      have hlen2 : (as.drop (am + 1)).length < as.length := by simp; omega
      have key : ∀ y, cmp x y = .lt → ∀ z ∈ as.take am, cmp z y = .lt := by
        intro y hy z hz
        rw [hcmp] at *
        exact cmp_lt_trans (hcross z hz x (by simp)) hy
      have key' : ∀ y, cmp x y = .gt → ∀ z ∈ x :: as.drop (am + 1), cmp z y = .gt := by
        intro y hy z hz
        rcases List.mem_cons.1 hz with rfl | hz
        · exact hy
        rw [hcmp] at *
        exact cmp_gt_trans (cmp_gt_iff.2 (hax z hz)) hy
      cases hr : binarySearchBy (fun b => (cmp x b).swap) bs with
      | found bm =>
        rw [hr] at spec
        obtain ⟨lo, y, hi, hbs, hlo, hy, hlt, hgt⟩ := spec
        have hy : cmp x y = .eq := by simpa using hy
        have e1 : bs.take bm = lo := by rw [hbs, ← hlo]; simp
        have e2 : bs.drop (bm + 1) = hi := by rw [hbs, ← hlo]; simp
        simp only [e1, e2]
        rw [hbs, ascendingBy_append, ascendingBy_cons] at hb
        obtain ⟨hb1, ⟨hbx, hb2⟩, hbc⟩ := hb
        have L1 := ih _ hlen1 (as.take am) rfl lo ha1 hb1
        have L2 := ih _ hlen2 (as.drop (am + 1)) rfl hi ha2 hb2
        have := L1.append (Legal.c hy L2)
          (by
            intro z hz w hw
            rcases List.mem_cons.1 hw with rfl | hw
            · rw [hcmp] at *
              exact cmp_lt_of_lt_of_eq (hcross z hz x (by simp)) hy
            · exact key w (by simpa using hgt w hw) z hz)
          (fun w hw z hz => key' w (by simpa using hlt w hw) z hz)
        rw [← split, ← hbs] at this
        exact this
      | notFound bi =>
        rw [hr] at spec
        obtain ⟨lo, hi, hbs, hlo, hlt, hgt⟩ := spec
        have e1 : bs.take bi = lo := by rw [hbs, ← hlo]; simp
        have e2 : bs.drop bi = hi := by rw [hbs, ← hlo]; simp
        simp only [e1, e2]
        rw [hbs, ascendingBy_append] at hb
        obtain ⟨hb1, hb2, hbc⟩ := hb
        have L1 := ih _ hlen1 (as.take am) rfl lo ha1 hb1
        have L2 := ih _ hlen2 (as.drop (am + 1)) rfl hi ha2 hb2
        have L2' : Legal cmp (x :: as.drop (am + 1)) hi
            (.a 1 :: planBin cmp (as.drop (am + 1)) hi) := by
          refine Legal.a 1 (by omega) (by simp) ?_ (by simpa using L2)
          intro z hz w hw
          simp at hz; subst hz
          simpa using hgt w hw
        have := L1.append L2'
          (fun z hz w hw => key w (by simpa using hgt w hw) z hz)
          (fun w hw z hz => key' w (by simpa using hlt w hw) z hz)
        rw [← split, ← hbs] at this
        exact this

theorem planTape_legal (hcmp : ∀ a b, cmp a b = compare (ka a) (kb b)) (as : List A)
    (bs : List B) (ha : AscendingBy ka as) (hb : AscendingBy kb bs) :
    Legal cmp as bs (planTape cmp as bs) := by
  fun_induction planTape cmp as bs with
  | case1 => exact Legal.done
  | case2 b bs =>
    refine Legal.b _ (by simp) (by simp) (by simp) ?_
    simpa using Legal.done
  | case3 a as =>
    refine Legal.a _ (by simp) (by simp) (by simp) ?_
    simpa using Legal.done
  | case4 a as b bs hc ih =>
    rw [ascendingBy_cons] at ha
    have hb' := hb
    rw [ascendingBy_cons] at hb'
    refine Legal.a 1 (by simp) (by simp) ?_ (by simpa using ih ha.2 hb)
    intro x hx y hy
    simp at hx; subst hx
    rcases List.mem_cons.1 hy with rfl | hy
    · exact hc
    · rw [hcmp] at *; exact cmp_lt_trans hc (hb'.1 y hy)
  | case5 a as b bs hc ih =>
    have ha' := ha
    rw [ascendingBy_cons] at ha'
    rw [ascendingBy_cons] at hb
    refine Legal.b 1 (by simp) (by simp) ?_ (by simpa using ih ha hb.2)
    intro y hy x hx
    simp at hy; subst hy
    rcases List.mem_cons.1 hx with rfl | hx
    · exact hc
    · rw [hcmp] at *; exact cmp_gt_trans (cmp_gt_iff.2 (ha'.1 x hx)) hc
  | case6 a as b bs hc ih =>
    rw [ascendingBy_cons] at ha hb
    exact Legal.c hc (ih ha.2 hb.2)

end legal

theorem runEvs_append (s : σ) (e1 e2 : List Ev) :
    runEvs op s (e1 ++ e2) = andThen (runEvs op s e1) (fun s => runEvs op s e2) := by
  have assoc : ∀ (r : σ × Flow) (k k' : σ → σ × Flow),
      andThen (andThen r k) k' = andThen r (fun s => andThen (k s) k') := by
    intro r k k'
    obtain ⟨s, fl⟩ := r
    cases fl <;> simp [andThen]
  induction e1 generalizing s with
  | nil => simp [runEvs, andThen]
  | cons e e1 ih => cases e <;> simp [runEvs, assoc, ih]

theorem andThen_congr {r : σ × Flow} {k k' : σ → σ × Flow} (h : r.2 = .cont → k r.1 = k' r.1) :
    andThen r k = andThen r k' := by
  obtain ⟨s, fl⟩ := r
  cases fl <;> simp_all [andThen]

theorem andThen_cont {r : σ × Flow} {k : σ → σ × Flow} (h : r.2 = .cont) : andThen r k = k r.1 := by
  simp [andThen, h]

variable {κ : Type _} [Ord κ] [TransOrd κ] {ka : A → κ} {kb : B → κ}

/-- The binary merge runs exactly its schedule. -/
theorem binaryMerge_eq_run (impl : Implements op out inv fa fb fc)
    (hcmp : ∀ a b, op.cmp a b = compare (ka a) (kb b)) :
    ∀ (as : List A) (bs : List B) (as2 : List A) (bs2 : List B) (s : σ), inv s →
      AscendingBy ka as → AscendingBy kb bs →
      MergeState.aSlice s = as ++ as2 → MergeState.bSlice s = bs ++ bs2 →
      binaryMerge op s as.length bs.length = runEvs op s (planBin op.cmp as bs) := by
  intro as
  induction hl : as.length using Nat.strongRecOn generalizing as with
  | _ len ih =>
  intro bs as2 bs2 s hi0 ha hb hsa hsb
  subst hl
  rw [planBin, binaryMerge]
  have single : ∀ r : σ × Flow, andThen r (fun s => (s, .cont)) = r := by
    intro r; obtain ⟨s, fl⟩ := r; cases fl <;> rfl
  by_cases h0 : as.length = 0
  · by_cases hb0 : bs.length = 0
    · simp [h0, hb0, runEvs]
    · simp [h0, hb0, runEvs, single]
  · by_cases hb0 : bs.length = 0
    · simp [h0, hb0, runEvs, single]
    · simp only [h0, hb0, ↓reduceDIte, ↓reduceIte]
      have hm : as.length / 2 < as.length := by omega
      have hbl : ¬ (MergeState.bSlice s : List B).length < bs.length := by rw [hsb]; simp
      have hget : (MergeState.aSlice s : List A)[as.length / 2]? = some as[as.length / 2] := by
        rw [hsa, List.getElem?_append_left hm, List.getElem?_eq_getElem hm]
      have htake : (MergeState.bSlice s : List B).take bs.length = bs := by rw [hsb]; simp
      rw [hget]
      simp only [hbl, ↓reduceIte, htake]
      have split : as = as.take (as.length / 2) ++ as[as.length / 2] :: as.drop (as.length / 2 + 1) := by
        rw [← List.drop_eq_getElem_cons hm, List.take_append_drop]
      generalize hx : as[as.length / 2] = x at split ⊢
      clear hx hget
      generalize hmid : as.length / 2 = am at hm split ⊢
      have ha' := ha
      rw [split, ascendingBy_append, ascendingBy_cons] at ha'
      obtain ⟨ha1, ⟨hax, ha2⟩, hcross⟩ := ha'
      have spec := binarySearchBy_spec (f := fun b => (op.cmp x b).swap) (l := bs)
        (by simpa [hcmp] using mono_swap hb (ka x))
      have hl1 : (as.take am).length = am := by simp; omega
      have hl2 : (as.drop (am + 1)).length = as.length - am - 1 := by simp; omega
      have hsa1 : (MergeState.aSlice s : List A)
          = as.take am ++ (x :: (as.drop (am + 1) ++ as2)) := by
        rw [hsa]; conv => lhs; rw [split]
        simp
      cases hr : binarySearchBy (fun b => (op.cmp x b).swap) bs with
      | found bm =>
        rw [hr] at spec
        obtain ⟨lo, y, hi, hbs, hlo, hy, hlt, hgt⟩ := spec
        have e1 : bs.take bm = lo := by rw [hbs, ← hlo]; simp
        have e2 : bs.drop (bm + 1) = hi := by rw [hbs, ← hlo]; simp
        have hl3 : hi.length = bs.length - bm - 1 := by rw [hbs, ← hlo]; simp
        have hb' := hb
        rw [hbs, ascendingBy_append, ascendingBy_cons] at hb'
        obtain ⟨hb1, ⟨hbx, hb2⟩, hbc⟩ := hb'
        have hsb1 : (MergeState.bSlice s : List B) = lo ++ (y :: (hi ++ bs2)) := by
          rw [hsb, hbs]; simp
        simp only [e1, e2, runEvs_append, runEvs]
        have r1 := ih am hm (as.take am) hl1 lo _ _ s hi0 ha1 hb1 hsa1 hsb1
        rw [hlo] at r1
        rw [r1]
        have st := run_legal impl (planBin_legal hcmp (as.take am) lo ha1 hb1) s _ _ hi0 hsa1 hsb1
        refine andThen_congr fun hc => ?_
        have st2 := impl.collision _ _ _ _ _ (st.inv hc) (st.a hc) (st.b hc)
        refine andThen_congr fun hc2 => ?_
        have := ih (as.length - am - 1) (by omega) (as.drop (am + 1)) hl2 hi as2 bs2 _ (st2.inv hc2) ha2 hb2
          (st2.a hc2) (st2.b hc2)
        rw [hl3] at this
        exact this
      | notFound bi =>
        rw [hr] at spec
        obtain ⟨lo, hi, hbs, hlo, hlt, hgt⟩ := spec
        have e1 : bs.take bi = lo := by rw [hbs, ← hlo]; simp
        have e2 : bs.drop bi = hi := by rw [hbs, ← hlo]; simp
        have hl3 : hi.length = bs.length - bi := by rw [hbs, ← hlo]; simp
        have hb' := hb
        rw [hbs, ascendingBy_append] at hb'
        obtain ⟨hb1, hb2, hbc⟩ := hb'
        have hsb1 : (MergeState.bSlice s : List B) = lo ++ (hi ++ bs2) := by
          rw [hsb, hbs]; simp
        simp only [e1, e2, runEvs_append, runEvs]
        have r1 := ih am hm (as.take am) hl1 lo _ _ s hi0 ha1 hb1 hsa1 hsb1
        rw [hlo] at r1
        rw [r1]
        have st := run_legal impl (planBin_legal hcmp (as.take am) lo ha1 hb1) s _ _ hi0 hsa1 hsb1
        refine andThen_congr fun hc => ?_
        have st2 := impl.fromA (runEvs op s (planBin op.cmp (as.take am) lo)).1 1 (st.inv hc) (by omega)
          (by rw [st.a hc]; simp)
        refine andThen_congr fun hc2 => ?_
        have := ih (as.length - am - 1) (by omega) (as.drop (am + 1)) hl2 hi as2 bs2 _ (st2.inv hc2) ha2 hb2
          (by rw [st2.a hc2, st.a hc]; simp) (by rw [st2.b hc2, st.b hc])
        rw [hl3] at this
        exact this

/-- `MergeOperation::merge` computes the textbook merge. -/
theorem mergeAll_spec (impl : Implements op out inv fa fb fc)
    (hcmp : ∀ a b, op.cmp a b = compare (ka a) (kb b)) (s : σ) (hi : inv s)
    (ha : AscendingBy ka (MergeState.aSlice s : List A))
    (hb : AscendingBy kb (MergeState.bSlice s : List B)) :
    StepSpec out inv s (mergeAll op s)
      (joinRef op.cmp fa fb fc (MergeState.aSlice s) (MergeState.bSlice s)) [] [] := by
  unfold mergeAll
  rw [binaryMerge_eq_run impl hcmp _ _ [] [] s hi ha hb (by simp) (by simp)]
  exact run_legal impl (planBin_legal hcmp _ _ ha hb) s [] [] hi (by simp) (by simp)

end Verif
