import Verif.Spec.Effects
import Verif.Model.Effects
import Verif.Lemmas.VecMap
/-! Joins whose closure has side effects: the run is the sequence of calls on the join arguments in ascending order. -/
namespace Verif
open Std

/-! ### Sequences of calls -/
section calls
variable {S X Y R R' : Type _}

theorem callEach_append (f : Closure S X (Option R)) (xs ys : List X) (s : S) : callEach f (xs ++ ys) s =
    if (callEach f xs s).2.2 = .cont then
      ((callEach f xs s).1 ++ (callEach f ys (callEach f xs s).2.1).1, (callEach f ys (callEach f xs s).2.1).2)
    else callEach f xs s := by
  induction xs generalizing s with
  | nil => simp [callEach]
  | cons x xs ih =>
    obtain ⟨o, c, hc⟩ : ∃ o c, f x s = (o, c) := ⟨_, _, rfl⟩
    have ih := ih c
    rw [List.cons_append]
    rcases o with (_ | r) | _
    · have e : ∀ l, callEach f (x :: l) s = callEach f l c := fun l => by simp only [callEach, hc]
      simp only [e, ih]
    · have e : ∀ l, callEach f (x :: l) s = ((x, r) :: (callEach f l c).1, (callEach f l c).2) := fun l => by simp only [callEach, hc]
      simp only [e, ih]
      split <;> simp_all
    · have e : ∀ l, callEach f (x :: l) s = ([], c, .panic) := fun l => by simp only [callEach, hc]
      simp [e]

/-- skip the arguments for which no call is made -/
def skipping (sel : X → Option Y) (f : Closure S Y (Option R)) : Closure S X (Option R) := fun x s =>
  match sel x with
  | none => (.ret none, s)
  | some y => f y s

theorem callEach_skipping (sel : X → Option Y) (f : Closure S Y (Option R)) (kx : X → K) (ky : Y → K)
    (hk : ∀ x y, sel x = some y → ky y = kx x) (xs : List X) (s : S) :
    ((callEach (skipping sel f) xs s).1.map fun p => (kx p.1, p.2)) = ((callEach f (xs.filterMap sel) s).1.map fun p => (ky p.1, p.2)) ∧
    (callEach (skipping sel f) xs s).2 = (callEach f (xs.filterMap sel) s).2 := by
  induction xs generalizing s with
  | nil => simp [callEach]
  | cons x xs ih =>
    simp only [callEach, skipping]
    cases h : sel x with
    | none => simpa [h] using ih s
    | some y =>
      simp only [List.filterMap_cons, h, callEach]
      cases hf : f y s with
      | mk r s' =>
        cases r with
        | panic => simp
        | ret o =>
          cases o with
          | none => simpa using ih s'
          | some r => simpa [hk x y h] using ih s'
end calls

/-! ### Merging with a closure -/
section merge
variable {K V W R S σ : Type _} [MergeState σ (K × V) (K × W)]

/-- `r` is what a run of callbacks does to `s` if it calls the closure `h` on `args` and leaves `a'`, `b'` -/
structure ESpec (out : σ → List (K × R)) (h : Closure S (OuterJoinArg K V W) (Option R)) (s : σ × S) (r : (σ × S) × Flow)
    (args : List (OuterJoinArg K V W)) (a' : List (K × V)) (b' : List (K × W)) : Prop where
  out : out r.1.1 = out s.1 ++ (callEach h args s.2).1.map (fun p => (p.1.key, p.2))
  st : r.1.2 = (callEach h args s.2).2.1
  flow : r.2 = (callEach h args s.2).2.2
  a : r.2 = .cont → MergeState.aSlice r.1.1 = a'
  b : r.2 = .cont → MergeState.bSlice r.1.1 = b'

/-- the callbacks of `op` call `h` on the elements they are asked to handle, in order -/
structure EImpl (op : MergeOp (σ × S) (K × V) (K × W)) (out : σ → List (K × R)) (h : Closure S (OuterJoinArg K V W) (Option R)) :
    Prop where
  fromA : ∀ s n, n ≤ (MergeState.aSlice s.1 : List (K × V)).length →
    ESpec out h s (op.fromA s n) (((MergeState.aSlice s.1).take n).map fun x => .left x.1 x.2) ((MergeState.aSlice s.1).drop n) (MergeState.bSlice s.1)
  fromB : ∀ s n, n ≤ (MergeState.bSlice s.1 : List (K × W)).length →
    ESpec out h s (op.fromB s n) (((MergeState.bSlice s.1).take n).map fun x => .right x.1 x.2) (MergeState.aSlice s.1) ((MergeState.bSlice s.1).drop n)
  collision : ∀ s x as y bs, MergeState.aSlice s.1 = x :: as → MergeState.bSlice s.1 = y :: bs →
    ESpec out h s (op.collision s) [.both x.1 x.2 y.2] as bs

variable {out : σ → List (K × R)} {h : Closure S (OuterJoinArg K V W) (Option R)} {op : MergeOp (σ × S) (K × V) (K × W)}

theorem ESpec.refl (s : σ × S) : ESpec out h s (s, .cont) [] (MergeState.aSlice s.1) (MergeState.bSlice s.1) :=
  ⟨by simp [callEach], rfl, rfl, fun _ => rfl, fun _ => rfl⟩

theorem ESpec.andThen {s : σ × S} {r : (σ × S) × Flow} {as1 as2 : List (OuterJoinArg K V W)} {a' a'' : List (K × V)} {b' b'' : List (K × W)}
    {k : σ × S → (σ × S) × Flow} (h1 : ESpec out h s r as1 a' b') (h2 : r.2 = .cont → ESpec out h r.1 (k r.1) as2 a'' b'') :
    ESpec out h s (Verif.andThen r k) (as1 ++ as2) a'' b'' := by
  obtain ⟨s', fl⟩ := r
  obtain ⟨ho, hs, hf, ha, hb⟩ := h1
  simp only at ho hs hf ha hb h2
  cases fl with
  | cont =>
    obtain ⟨ho', hs', hf', ha', hb'⟩ := h2 rfl
    have e := callEach_append h as1 as2 s.2
    rw [if_pos hf.symm, ← hs] at e
    simp only [Verif.andThen]
    exact ⟨by rw [ho', ho, e]; simp, by rw [hs', e], by rw [hf', e], ha', hb'⟩
  | stop =>
    have e := callEach_append h as1 as2 s.2
    rw [if_neg (by rw [← hf]; simp)] at e
    simp only [Verif.andThen]
    exact ⟨by rw [ho, e], by rw [hs, e], by rw [← e] at hf; exact hf, by simp, by simp⟩
  | panic =>
    have e := callEach_append h as1 as2 s.2
    rw [if_neg (by rw [← hf]; simp)] at e
    simp only [Verif.andThen]
    exact ⟨by rw [ho, e], by rw [hs, e], by rw [← e] at hf; exact hf, by simp, by simp⟩

section
variable [Ord K]

/-- one argument at a time, all of them -/
theorem joinRef_one (a : List (K × V)) (b : List (K × W)) :
    joinRef (fun (x : K × V) (y : K × W) => compare x.1 y.1) (fun x => ([OuterJoinArg.left x.1 x.2], Flow.cont)) (fun y => ([.right y.1 y.2], .cont))
      (fun x y => ([.both x.1 x.2 y.2], .cont)) a b = (joinArgs a b, .cont) := by
  rw [joinRef_args (fun x : OuterJoinArg K V W => ([x], Flow.cont))]
  have : ∀ l : List (OuterJoinArg K V W), collect (fun x => ([x], Flow.cont)) l = (l, .cont) := by
    intro l
    induction l with
    | nil => rfl
    | cons x l ih => simp [collect, ih, Emit.seq]
  exact this _

theorem collect_each {A : Type _} (g : A → OuterJoinArg K V W) (l : List A) :
    collect (fun x => ([g x], Flow.cont)) l = (l.map g, .cont) := by
  induction l with
  | nil => rfl
  | cons x l ih => simp [collect, ih, Emit.seq]

theorem joinArgs_a (n : Nat) (a : List (K × V)) (b : List (K × W)) (hlt : ∀ x ∈ a.take n, ∀ y ∈ b, compare x.1 y.1 = .lt) :
    joinArgs a b = ((a.take n).map fun x => .left x.1 x.2) ++ joinArgs (a.drop n) b := by
  have := joinRef_one a b
  rw [joinRef_a n a b hlt, joinRef_one, collect_each] at this
  simp only [Emit.seq] at this
  exact (congrArg Prod.fst this).symm

theorem joinArgs_b (n : Nat) (a : List (K × V)) (b : List (K × W)) (hlt : ∀ y ∈ b.take n, ∀ x ∈ a, compare x.1 y.1 = .gt) :
    joinArgs a b = ((b.take n).map fun x => .right x.1 x.2) ++ joinArgs a (b.drop n) := by
  have := joinRef_one a b
  rw [joinRef_b n a b hlt, joinRef_one, collect_each] at this
  simp only [Emit.seq] at this
  exact (congrArg Prod.fst this).symm

theorem joinArgs_c (x : K × V) (y : K × W) (a : List (K × V)) (b : List (K × W)) (he : compare x.1 y.1 = .eq) :
    joinArgs (x :: a) (y :: b) = [.both x.1 x.2 y.2] ++ joinArgs a b := by
  have := joinRef_one (x :: a) (y :: b)
  rw [joinRef, he, joinRef_one] at this
  simp only [Emit.seq] at this
  exact (congrArg Prod.fst this).symm

/-- any legal schedule calls the closure on the join arguments in order -/
theorem run_legal_e (impl : EImpl op out h) (hcmp : ∀ x y, op.cmp x y = compare x.1 y.1) {as : List (K × V)} {bs : List (K × W)}
    {evs : List Ev} (hl : Legal op.cmp as bs evs) : ∀ (s : σ × S) (as2 : List (K × V)) (bs2 : List (K × W)),
      MergeState.aSlice s.1 = as ++ as2 → MergeState.bSlice s.1 = bs ++ bs2 →
      ESpec out h s (runEvs op s evs) (joinArgs as bs) as2 bs2 := by
  induction hl with
  | done =>
    intro s as2 bs2 ha hb
    simp only [List.nil_append] at ha hb
    subst ha hb
    have : joinArgs ([] : List (K × V)) ([] : List (K × W)) = [] := by
      have := joinRef_one ([] : List (K × V)) ([] : List (K × W))
      simp only [joinRef, collect] at this
      exact (congrArg Prod.fst this).symm
    rw [this]
    exact ESpec.refl s
  | @a as bs evs n h1 hn hlt _ ih =>
    intro s as2 bs2 ha hb
    rw [joinArgs_a n as bs (by simpa [hcmp] using hlt), runEvs]
    have step := impl.fromA s n (by rw [ha]; simp; omega)
    rw [ha, List.take_append_of_le_length hn, List.drop_append_of_le_length hn] at step
    refine step.andThen fun hc => ih _ as2 bs2 (step.a hc) ?_
    rw [step.b hc, hb]
  | @b as bs evs n h1 hn hlt _ ih =>
    intro s as2 bs2 ha hb
    rw [joinArgs_b n as bs (by simpa [hcmp] using hlt), runEvs]
    have step := impl.fromB s n (by rw [hb]; simp; omega)
    rw [hb, List.take_append_of_le_length hn, List.drop_append_of_le_length hn] at step
    refine step.andThen fun hc => ih _ as2 bs2 ?_ (step.b hc)
    rw [step.a hc, ha]
  | @c x y as bs evs he _ ih =>
    intro s as2 bs2 ha hb
    rw [joinArgs_c x y as bs (by rw [← hcmp]; exact he), runEvs]
    have step := impl.collision s x (as ++ as2) y (bs ++ bs2) (by simpa using ha) (by simpa using hb)
    exact step.andThen fun hc => ih _ as2 bs2 (step.a hc) (step.b hc)

variable [TransOrd K]

/-- the binary merge runs its schedule -/
theorem binaryMerge_eq_run_e (impl : EImpl op out h) (hcmp : ∀ x y, op.cmp x y = compare x.1 y.1) :
    ∀ (as : List (K × V)) (bs : List (K × W)) (as2 : List (K × V)) (bs2 : List (K × W)) (s : σ × S),
      AscendingBy Prod.fst as → AscendingBy Prod.fst bs →
      MergeState.aSlice s.1 = as ++ as2 → MergeState.bSlice s.1 = bs ++ bs2 →
      binaryMerge op s as.length bs.length = runEvs op s (planBin op.cmp as bs) := by
  intro as
  induction hl : as.length using Nat.strongRecOn generalizing as with
  | _ len ih =>
  intro bs as2 bs2 s ha hb hsa hsb
  subst hl
  rw [planBin, binaryMerge]
  have hSa : (MergeState.aSlice s : List (K × V)) = MergeState.aSlice s.1 := rfl
  have hSb : (MergeState.bSlice s : List (K × W)) = MergeState.bSlice s.1 := rfl
  rw [hSa, hSb]
  have single : ∀ r : (σ × S) × Flow, andThen r (fun s => (s, .cont)) = r := by
    intro r; obtain ⟨s, fl⟩ := r; cases fl <;> rfl
  by_cases h0 : as.length = 0
  · by_cases hb0 : bs.length = 0
    · simp [h0, hb0, runEvs]
    · simp [h0, hb0, runEvs, single]
  · by_cases hb0 : bs.length = 0
    · simp [h0, hb0, runEvs, single]
    · simp only [h0, hb0, ↓reduceDIte, ↓reduceIte]
      have hm : as.length / 2 < as.length := by omega
      have hbl : ¬ (MergeState.bSlice s.1 : List (K × W)).length < bs.length := by rw [hsb]; simp
      have hget : (MergeState.aSlice s.1 : List (K × V))[as.length / 2]? = some as[as.length / 2] := by
        rw [hsa, List.getElem?_append_left hm, List.getElem?_eq_getElem hm]
      have htake : (MergeState.bSlice s.1 : List (K × W)).take bs.length = bs := by rw [hsb]; simp
      rw [hget]
      simp only [hbl, ↓reduceIte, htake]
      have split : as = as.take (as.length / 2) ++ as[as.length / 2] :: as.drop (as.length / 2 + 1) := by
        rw [← List.drop_eq_getElem_cons hm, List.take_append_drop]
      generalize hx : as[as.length / 2] = x at split ⊢
      clear hx hget
      generalize hmid : as.length / 2 = am at hm split ⊢
      have ha' := ha
      rw [split, ascendingBy_append, ascendingBy_cons] at ha'
      obtain ⟨ha1, ⟨hax, ha2⟩, hcross⟩ := ha'
      have spec := binarySearchBy_spec (f := fun b => (op.cmp x b).swap) (l := bs)
        (by simpa [hcmp] using mono_swap hb x.1)
      have hl1 : (as.take am).length = am := by simp; omega
      have hl2 : (as.drop (am + 1)).length = as.length - am - 1 := by simp; omega
      have hsa1 : (MergeState.aSlice s.1 : List (K × V))
          = as.take am ++ (x :: (as.drop (am + 1) ++ as2)) := by
        rw [hsa]; conv => lhs; rw [split]
        simp
      cases hr : binarySearchBy (fun b => (op.cmp x b).swap) bs with
      | found bm =>
        rw [hr] at spec
        obtain ⟨lo, y, hi, hbs, hlo, hy, hlt, hgt⟩ := spec
        have e1 : bs.take bm = lo := by rw [hbs, ← hlo]; simp
        have e2 : bs.drop (bm + 1) = hi := by rw [hbs, ← hlo]; simp
        have hl3 : hi.length = bs.length - bm - 1 := by rw [hbs, ← hlo]; simp
        have hb' := hb
        rw [hbs, ascendingBy_append, ascendingBy_cons] at hb'
        obtain ⟨hb1, ⟨hbx, hb2⟩, hbc⟩ := hb'
        have hsb1 : (MergeState.bSlice s.1 : List (K × W)) = lo ++ (y :: (hi ++ bs2)) := by
          rw [hsb, hbs]; simp
        simp only [e1, e2, runEvs_append, runEvs]
        have r1 := ih am hm (as.take am) hl1 lo _ _ s ha1 hb1 hsa1 hsb1
        rw [hlo] at r1
        rw [r1]
        have st := run_legal_e impl hcmp (planBin_legal hcmp (as.take am) lo ha1 hb1) s _ _ hsa1 hsb1
        refine andThen_congr fun hc => ?_
        have st2 := impl.collision _ _ _ _ _ (st.a hc) (st.b hc)
        refine andThen_congr fun hc2 => ?_
        have := ih (as.length - am - 1) (by omega) (as.drop (am + 1)) hl2 hi as2 bs2 _ ha2 hb2
          (st2.a hc2) (st2.b hc2)
        rw [hl3] at this
        exact this
      | notFound bi =>
        rw [hr] at spec
        obtain ⟨lo, hi, hbs, hlo, hlt, hgt⟩ := spec
        have e1 : bs.take bi = lo := by rw [hbs, ← hlo]; simp
        have e2 : bs.drop bi = hi := by rw [hbs, ← hlo]; simp
        have hl3 : hi.length = bs.length - bi := by rw [hbs, ← hlo]; simp
        have hb' := hb
        rw [hbs, ascendingBy_append] at hb'
        obtain ⟨hb1, hb2, hbc⟩ := hb'
        have hsb1 : (MergeState.bSlice s.1 : List (K × W)) = lo ++ (hi ++ bs2) := by
          rw [hsb, hbs]; simp
        simp only [e1, e2, runEvs_append, runEvs]
        have r1 := ih am hm (as.take am) hl1 lo _ _ s ha1 hb1 hsa1 hsb1
        rw [hlo] at r1
        rw [r1]
        have st := run_legal_e impl hcmp (planBin_legal hcmp (as.take am) lo ha1 hb1) s _ _ hsa1 hsb1
        refine andThen_congr fun hc => ?_
        have st2 := impl.fromA (runEvs op s (planBin op.cmp (as.take am) lo)).1 1
          (by rw [st.a hc]; simp)
        refine andThen_congr fun hc2 => ?_
        have := ih (as.length - am - 1) (by omega) (as.drop (am + 1)) hl2 hi as2 bs2 _ ha2 hb2
          (by rw [st2.a hc2, st.a hc]; simp) (by rw [st2.b hc2, st.b hc])
        rw [hl3] at this
        exact this

theorem mergeAll_e (impl : EImpl op out h) (hcmp : ∀ x y, op.cmp x y = compare x.1 y.1) (s : σ × S)
    (ha : AscendingBy Prod.fst (MergeState.aSlice s.1 : List (K × V))) (hb : AscendingBy Prod.fst (MergeState.bSlice s.1 : List (K × W))) :
    ESpec out h s (mergeAll op s) (joinArgs (MergeState.aSlice s.1) (MergeState.bSlice s.1)) [] [] := by
  have e : mergeAll op s = runEvs op s (planBin op.cmp (MergeState.aSlice s.1) (MergeState.bSlice s.1)) :=
    binaryMerge_eq_run_e impl hcmp _ _ [] [] s ha hb (List.append_nil _).symm (List.append_nil _).symm
  rw [e]
  exact run_legal_e impl hcmp (planBin_legal hcmp _ _ ha hb) s [] [] (by simp) (by simp)
end
end merge

/-! ### The callback loops -/
section loops
variable {K V W R S : Type _} {h : Closure S (OuterJoinArg K V W) (Option R)}

theorem SliceMS.loopAE_spec (n : Nat) : ∀ (s : SliceMS (K × V) (K × W) (K × R) × S), n ≤ s.1.a.length →
    ESpec (fun m => m.r) h s (SliceMS.loopAE (fun x c => keyed x.1 (h (.left x.1 x.2) c)) s n)
      ((s.1.a.take n).map fun x => .left x.1 x.2) (s.1.a.drop n) s.1.b := by
  induction n with
  | zero => intro s _; exact ESpec.refl s
  | succ n ih =>
    rintro ⟨⟨a, b, r⟩, c⟩ hn
    cases a with
    | nil => simp at hn
    | cons x xs =>
      simp only [loopAE, List.take_succ_cons, List.drop_succ_cons, List.map_cons]
      cases hc : h (.left x.1 x.2) c with
      | mk o c' =>
        rw [show keyed x.1 (o, c') = (o.withKey x.1, c') from rfl]
        cases o with
        | panic => exact ⟨by simp [callEach, hc, Call.withKey], by simp [callEach, hc, Call.withKey], by simp [callEach, hc, Call.withKey], by simp [Call.withKey], by simp [Call.withKey]⟩
        | ret o =>
          cases o with
          | none =>
            have := ih ({ a := xs, b := b, r := r }, c') (by simpa using hn)
            simp only [Call.withKey, Option.toList, List.append_nil]
            exact ⟨by rw [this.out]; simp [callEach, hc], by rw [this.st]; simp [callEach, hc], by rw [this.flow]; simp [callEach, hc], this.a, this.b⟩
          | some v =>
            have := ih ({ a := xs, b := b, r := r ++ [(x.1, v)] }, c') (by simpa using hn)
            simp only [Call.withKey, Option.toList]
            exact ⟨by rw [this.out]; simp [callEach, hc, OuterJoinArg.key], by rw [this.st]; simp [callEach, hc], by rw [this.flow]; simp [callEach, hc], this.a, this.b⟩

theorem SliceMS.loopBE_spec (n : Nat) : ∀ (s : SliceMS (K × V) (K × W) (K × R) × S), n ≤ s.1.b.length →
    ESpec (fun m => m.r) h s (SliceMS.loopBE (fun x c => keyed x.1 (h (.right x.1 x.2) c)) s n)
      ((s.1.b.take n).map fun x => .right x.1 x.2) s.1.a (s.1.b.drop n) := by
  induction n with
  | zero => intro s _; exact ESpec.refl s
  | succ n ih =>
    rintro ⟨⟨a, b, r⟩, c⟩ hn
    cases b with
    | nil => simp at hn
    | cons x xs =>
      simp only [loopBE, List.take_succ_cons, List.drop_succ_cons, List.map_cons]
      cases hc : h (.right x.1 x.2) c with
      | mk o c' =>
        rw [show keyed x.1 (o, c') = (o.withKey x.1, c') from rfl]
        cases o with
        | panic => exact ⟨by simp [callEach, hc, Call.withKey], by simp [callEach, hc, Call.withKey], by simp [callEach, hc, Call.withKey], by simp [Call.withKey], by simp [Call.withKey]⟩
        | ret o =>
          cases o with
          | none =>
            have := ih ({ a := a, b := xs, r := r }, c') (by simpa using hn)
            simp only [Call.withKey, Option.toList, List.append_nil]
            exact ⟨by rw [this.out]; simp [callEach, hc], by rw [this.st]; simp [callEach, hc], by rw [this.flow]; simp [callEach, hc], this.a, this.b⟩
          | some v =>
            have := ih ({ a := a, b := xs, r := r ++ [(x.1, v)] }, c') (by simpa using hn)
            simp only [Call.withKey, Option.toList]
            exact ⟨by rw [this.out]; simp [callEach, hc, OuterJoinArg.key], by rw [this.st]; simp [callEach, hc], by rw [this.flow]; simp [callEach, hc], this.a, this.b⟩

theorem SliceMS.bothE_spec (s : SliceMS (K × V) (K × W) (K × R) × S) (x : K × V) (as : List (K × V)) (y : K × W) (bs : List (K × W))
    (ha : s.1.a = x :: as) (hb : s.1.b = y :: bs) :
    ESpec (fun m => m.r) h s (SliceMS.bothE (fun x y c => keyed x.1 (h (.both x.1 x.2 y.2) c)) s) [.both x.1 x.2 y.2] as bs := by
  obtain ⟨⟨a, b, r⟩, c⟩ := s
  simp only at ha hb
  subst ha hb
  simp only [bothE, keyed]
  cases hc : h (.both x.1 x.2 y.2) c with
  | mk o c' =>
    rcases o with (_ | v) | _ <;>
      exact ⟨by simp [callEach, hc, Call.withKey, OuterJoinArg.key], by simp [callEach, hc, Call.withKey],
        by simp [callEach, hc, Call.withKey], by simp [Call.withKey, MergeState.aSlice], by simp [Call.withKey, MergeState.bSlice]⟩

end loops

section loops2
variable {K V W S : Type _} {h : Closure S (OuterJoinArg K V W) (Option V)}

theorem InPlaceMS.loopAE_spec (n : Nat) : ∀ (s : InPlaceMS (K × V) (K × W) × S), n ≤ s.1.src.length →
    ESpec (fun m => m.tgt) h s (InPlaceMS.loopAE (fun x c => keyed x.1 (h (.left x.1 x.2) c)) s n)
      ((s.1.src.take n).map fun x => .left x.1 x.2) (s.1.src.drop n) s.1.b := by
  induction n with
  | zero => intro s _; exact ESpec.refl s
  | succ n ih =>
    rintro ⟨⟨t, a, b⟩, c⟩ hn
    cases a with
    | nil => simp at hn
    | cons x xs =>
      simp only [loopAE, List.take_succ_cons, List.drop_succ_cons, List.map_cons]
      cases hc : h (.left x.1 x.2) c with
      | mk o c' =>
        rw [show keyed x.1 (o, c') = (o.withKey x.1, c') from rfl]
        cases o with
        | panic => exact ⟨by simp [callEach, hc, Call.withKey], by simp [callEach, hc, Call.withKey], by simp [callEach, hc, Call.withKey], by simp [Call.withKey], by simp [Call.withKey]⟩
        | ret o =>
          cases o with
          | none =>
            have := ih ({ src := xs, b := b, tgt := t }, c') (by simpa using hn)
            simp only [Call.withKey, Option.toList, List.append_nil]
            exact ⟨by rw [this.out]; simp [callEach, hc], by rw [this.st]; simp [callEach, hc], by rw [this.flow]; simp [callEach, hc], this.a, this.b⟩
          | some v =>
            have := ih ({ src := xs, b := b, tgt := t ++ [(x.1, v)] }, c') (by simpa using hn)
            simp only [Call.withKey, Option.toList]
            exact ⟨by rw [this.out]; simp [callEach, hc, OuterJoinArg.key], by rw [this.st]; simp [callEach, hc], by rw [this.flow]; simp [callEach, hc], this.a, this.b⟩

theorem InPlaceMS.loopBE_spec (n : Nat) : ∀ (s : InPlaceMS (K × V) (K × W) × S), n ≤ s.1.b.length →
    ESpec (fun m => m.tgt) h s (InPlaceMS.loopBE (fun x c => keyed x.1 (h (.right x.1 x.2) c)) s n)
      ((s.1.b.take n).map fun x => .right x.1 x.2) s.1.src (s.1.b.drop n) := by
  induction n with
  | zero => intro s _; exact ESpec.refl s
  | succ n ih =>
    rintro ⟨⟨t, a, b⟩, c⟩ hn
    cases b with
    | nil => simp at hn
    | cons x xs =>
      simp only [loopBE, List.take_succ_cons, List.drop_succ_cons, List.map_cons]
      cases hc : h (.right x.1 x.2) c with
      | mk o c' =>
        rw [show keyed x.1 (o, c') = (o.withKey x.1, c') from rfl]
        cases o with
        | panic => exact ⟨by simp [callEach, hc, Call.withKey], by simp [callEach, hc, Call.withKey], by simp [callEach, hc, Call.withKey], by simp [Call.withKey], by simp [Call.withKey]⟩
        | ret o =>
          cases o with
          | none =>
            have := ih ({ src := a, b := xs, tgt := t }, c') (by simpa using hn)
            simp only [Call.withKey, Option.toList, List.append_nil]
            exact ⟨by rw [this.out]; simp [callEach, hc], by rw [this.st]; simp [callEach, hc], by rw [this.flow]; simp [callEach, hc], this.a, this.b⟩
          | some v =>
            have := ih ({ src := a, b := xs, tgt := t ++ [(x.1, v)] }, c') (by simpa using hn)
            simp only [Call.withKey, Option.toList]
            exact ⟨by rw [this.out]; simp [callEach, hc, OuterJoinArg.key], by rw [this.st]; simp [callEach, hc], by rw [this.flow]; simp [callEach, hc], this.a, this.b⟩

theorem InPlaceMS.bothE_spec (s : InPlaceMS (K × V) (K × W) × S) (x : K × V) (as : List (K × V)) (y : K × W) (bs : List (K × W))
    (ha : s.1.src = x :: as) (hb : s.1.b = y :: bs) :
    ESpec (fun m => m.tgt) h s (InPlaceMS.bothE (fun x y c => keyed x.1 (h (.both x.1 x.2 y.2) c)) s) [.both x.1 x.2 y.2] as bs := by
  obtain ⟨⟨t, a, b⟩, c⟩ := s
  simp only at ha hb
  subst ha hb
  simp only [bothE, keyed]
  cases hc : h (.both x.1 x.2 y.2) c with
  | mk o c' =>
    rcases o with (_ | v) | _ <;>
      exact ⟨by simp [callEach, hc, Call.withKey, OuterJoinArg.key], by simp [callEach, hc, Call.withKey],
        by simp [callEach, hc, Call.withKey], by simp [Call.withKey, MergeState.aSlice], by simp [Call.withKey, MergeState.bSlice]⟩

end loops2
end Verif

/-! ### The joins -/
namespace Verif
open Std
section joins
variable {K V W R S : Type _}

/-- the arguments of a left join among those of an outer join -/
def leftSel : OuterJoinArg K V W → Option (K × V × Option W)
  | .left k v => some (k, v, none)
  | .right _ _ => none
  | .both k v w => some (k, v, some w)
def rightSel : OuterJoinArg K V W → Option (K × Option V × W)
  | .left _ _ => none
  | .right k w => some (k, none, w)
  | .both k v w => some (k, some v, w)
def innerSel : OuterJoinArg K V W → Option (K × V × W)
  | .left _ _ => none
  | .right _ _ => none
  | .both k v w => some (k, v, w)

theorem callEach_nothing {X : Type _} (h : Closure S X (Option R)) (l : List X) (hn : ∀ x ∈ l, ∀ c, h x c = (.ret none, c)) (c : S) :
    callEach h l c = ([], c, .cont) := by
  induction l with
  | nil => rfl
  | cons x l ih =>
    simp only [callEach, hn x (by simp)]
    exact ih fun x hx => hn x (by simp [hx])

theorem quiet_spec {σ : Type _} [MergeState σ (K × V) (K × W)] {out : σ → List (K × R)} {h : Closure S (OuterJoinArg K V W) (Option R)}
    {k : σ → σ × Flow} {s : σ × S} {a' b'} (hs : StepSpec out (fun _ => True) s.1 (k s.1) ([], .cont) a' b') {args : List (OuterJoinArg K V W)}
    (hn : ∀ x ∈ args, ∀ c, h x c = (.ret none, c)) : ESpec out h s (quiet k s) args a' b' := by
  have e := callEach_nothing h args hn s.2
  exact ⟨by rw [e]; simpa [quiet] using hs.out, by rw [e]; rfl, by rw [e]; exact hs.flow, hs.a, hs.b⟩

variable [Ord K]

theorem outerJoinOpE_impl (f : Closure S (OuterJoinArg K V W) (Option R)) : EImpl (outerJoinOpE f) (fun s => s.r) f where
  fromA s n hn := SliceMS.loopAE_spec n s hn
  fromB s n hn := SliceMS.loopBE_spec n s hn
  collision s x as y bs ha hb := SliceMS.bothE_spec s x as y bs ha hb

theorem leftJoinOpE_impl (f : Closure S (K × V × Option W) (Option R)) : EImpl (leftJoinOpE f) (fun s => s.r) (skipping leftSel f) where
  fromA s n hn := SliceMS.loopAE_spec (h := skipping leftSel f) n s hn
  fromB s n hn := by
    refine quiet_spec (k := fun m => m.dropB n) (s := s) (SliceMS.dropB_spec n s.1 hn) ?_
    intro x hx c; obtain ⟨y, _, rfl⟩ := List.mem_map.1 hx; rfl
  collision s x as y bs ha hb := SliceMS.bothE_spec (h := skipping leftSel f) s x as y bs ha hb

theorem rightJoinOpE_impl (f : Closure S (K × Option V × W) (Option R)) : EImpl (rightJoinOpE f) (fun s => s.r) (skipping rightSel f) where
  fromA s n hn := by
    refine quiet_spec (k := fun m => m.dropA n) (s := s) (SliceMS.dropA_spec n s.1 hn) ?_
    intro x hx c; obtain ⟨y, _, rfl⟩ := List.mem_map.1 hx; rfl
  fromB s n hn := SliceMS.loopBE_spec (h := skipping rightSel f) n s hn
  collision s x as y bs ha hb := SliceMS.bothE_spec (h := skipping rightSel f) s x as y bs ha hb

theorem innerJoinOpE_impl (f : Closure S (K × V × W) (Option R)) : EImpl (innerJoinOpE f) (fun s => s.r) (skipping innerSel f) where
  fromA s n hn := by
    refine quiet_spec (k := fun m => m.dropA n) (s := s) (SliceMS.dropA_spec n s.1 hn) ?_
    intro x hx c; obtain ⟨y, _, rfl⟩ := List.mem_map.1 hx; rfl
  fromB s n hn := by
    refine quiet_spec (k := fun m => m.dropB n) (s := s) (SliceMS.dropB_spec n s.1 hn) ?_
    intro x hx c; obtain ⟨y, _, rfl⟩ := List.mem_map.1 hx; rfl
  collision s x as y bs ha hb := SliceMS.bothE_spec (h := skipping innerSel f) s x as y bs ha hb

theorem outerJoinWithOpE_impl (f : Closure S (OuterJoinArg K V W) (Option V)) : EImpl (outerJoinWithOpE f) (fun s => s.tgt) f where
  fromA s n hn := InPlaceMS.loopAE_spec n s hn
  fromB s n hn := InPlaceMS.loopBE_spec n s hn
  collision s x as y bs ha hb := InPlaceMS.bothE_spec s x as y bs ha hb

theorem leftJoinWithOpE_impl (f : Closure S (K × V × Option W) (Option V)) : EImpl (leftJoinWithOpE f) (fun s => s.tgt) (skipping leftSel f) where
  fromA s n hn := InPlaceMS.loopAE_spec (h := skipping leftSel f) n s hn
  fromB s n hn := by
    refine quiet_spec (k := fun m => m.dropB n) (s := s) (InPlaceMS.dropB_spec n s.1 hn) ?_
    intro x hx c; obtain ⟨y, _, rfl⟩ := List.mem_map.1 hx; rfl
  collision s x as y bs ha hb := InPlaceMS.bothE_spec (h := skipping leftSel f) s x as y bs ha hb

theorem rightJoinWithOpE_impl (f : Closure S (K × Option V × W) (Option V)) : EImpl (rightJoinWithOpE f) (fun s => s.tgt) (skipping rightSel f) where
  fromA s n hn := by
    refine quiet_spec (k := fun m => (m.consume n false, .cont)) (s := s) (consume_false_spec n s.1 hn) ?_
    intro x hx c; obtain ⟨y, _, rfl⟩ := List.mem_map.1 hx; rfl
  fromB s n hn := InPlaceMS.loopBE_spec (h := skipping rightSel f) n s hn
  collision s x as y bs ha hb := InPlaceMS.bothE_spec (h := skipping rightSel f) s x as y bs ha hb

theorem innerJoinWithOpE_impl (f : Closure S (K × V × W) (Option V)) : EImpl (innerJoinWithOpE f) (fun s => s.tgt) (skipping innerSel f) where
  fromA s n hn := by
    refine quiet_spec (k := fun m => (m.consume n false, .cont)) (s := s) (consume_false_spec n s.1 hn) ?_
    intro x hx c; obtain ⟨y, _, rfl⟩ := List.mem_map.1 hx; rfl
  fromB s n hn := by
    refine quiet_spec (k := fun m => m.dropB n) (s := s) (InPlaceMS.dropB_spec n s.1 hn) ?_
    intro x hx c; obtain ⟨y, _, rfl⟩ := List.mem_map.1 hx; rfl
  collision s x as y bs ha hb := InPlaceMS.bothE_spec (h := skipping innerSel f) s x as y bs ha hb

variable [TransOrd K]

theorem SliceMS.mergeE_spec {h : Closure S (OuterJoinArg K V W) (Option R)} {op : MergeOp (SliceMS (K × V) (K × W) (K × R) × S) (K × V) (K × W)}
    (impl : EImpl op (fun s => s.r) h) (hcmp : ∀ x y, op.cmp x y = compare x.1 y.1) (a : List (K × V)) (b : List (K × W))
    (ha : AscendingBy Prod.fst a) (hb : AscendingBy Prod.fst b) (c : S) :
    SliceMS.mergeE a b op c = ((callEach h (joinArgs a b) c).1.map (fun p => (p.1.key, p.2)), (callEach h (joinArgs a b) c).2) := by
  have := mergeAll_e impl hcmp ({ a := a, b := b, r := [] }, c) ha hb
  exact Prod.ext (this.out.trans (List.nil_append _)) (Prod.ext this.st this.flow)

theorem InPlaceMS.mergeE_spec {h : Closure S (OuterJoinArg K V W) (Option V)} {op : MergeOp (InPlaceMS (K × V) (K × W) × S) (K × V) (K × W)}
    (impl : EImpl op (fun s => s.tgt) h) (hcmp : ∀ x y, op.cmp x y = compare x.1 y.1) (a : List (K × V)) (b : List (K × W))
    (ha : AscendingBy Prod.fst a) (hb : AscendingBy Prod.fst b) (c : S) :
    InPlaceMS.mergeE a b op c = ((callEach h (joinArgs a b) c).1.map (fun p => (p.1.key, p.2)), (callEach h (joinArgs a b) c).2) := by
  have := mergeAll_e impl hcmp ({ src := a, b := b, tgt := [] }, c) ha hb
  exact Prod.ext (this.out.trans (List.nil_append _)) (Prod.ext this.st this.flow)

omit [TransOrd K] in
theorem ascendingBy_sel {X Y : Type _} {kx : X → K} {ky : Y → K} {sel : X → Option Y} (hk : ∀ x y, sel x = some y → ky y = kx x)
    {l : List X} (h : AscendingBy kx l) : AscendingBy ky (l.filterMap sel) := by
  unfold AscendingBy at *
  rw [List.pairwise_filterMap]
  refine h.imp ?_
  intro x x' hlt y hy y' hy'
  rw [hk x y hy, hk x' y' hy']
  exact hlt

theorem leftSel_key (x : OuterJoinArg K V W) (y) (h : leftSel x = some y) : y.1 = x.key := by
  cases x <;> simp [leftSel] at h <;> subst h <;> rfl
theorem rightSel_key (x : OuterJoinArg K V W) (y) (h : rightSel x = some y) : y.1 = x.key := by
  cases x <;> simp [rightSel] at h <;> subst h <;> rfl
theorem innerSel_key (x : OuterJoinArg K V W) (y) (h : innerSel x = some y) : y.1 = x.key := by
  cases x <;> simp [innerSel] at h <;> subst h <;> rfl

variable {a : List (K × V)} {b : List (K × W)}

theorem inOrder_outer (ha : AscendingBy Prod.fst a) (hb : AscendingBy Prod.fst b) : InOrder OuterJoinArg.key (Offers a b) (joinArgs a b) :=
  ⟨joinArgs_asc ha hb, mem_joinArgs ha hb⟩

theorem inOrder_left (ha : AscendingBy Prod.fst a) (hb : AscendingBy Prod.fst b) :
    InOrder (fun x : K × V × Option W => x.1) (LeftOffer a b) ((joinArgs a b).filterMap leftSel) := by
  refine ⟨ascendingBy_sel leftSel_key (joinArgs_asc ha hb), fun x => ?_⟩
  rw [List.mem_filterMap]
  constructor
  · rintro ⟨y, hy, e⟩
    rw [mem_joinArgs ha hb] at hy
    cases y <;> simp [leftSel] at e <;> subst e <;> exact hy
  · obtain ⟨k, v, _ | w⟩ := x
    · intro h; exact ⟨.left k v, (mem_joinArgs ha hb _).2 h, rfl⟩
    · intro h; exact ⟨.both k v w, (mem_joinArgs ha hb _).2 h, rfl⟩

theorem inOrder_right (ha : AscendingBy Prod.fst a) (hb : AscendingBy Prod.fst b) :
    InOrder (fun x : K × Option V × W => x.1) (RightOffer a b) ((joinArgs a b).filterMap rightSel) := by
  refine ⟨ascendingBy_sel rightSel_key (joinArgs_asc ha hb), fun x => ?_⟩
  rw [List.mem_filterMap]
  constructor
  · rintro ⟨y, hy, e⟩
    rw [mem_joinArgs ha hb] at hy
    cases y <;> simp [rightSel] at e <;> subst e <;> exact hy
  · obtain ⟨k, _ | v, w⟩ := x
    · intro h; exact ⟨.right k w, (mem_joinArgs ha hb _).2 h, rfl⟩
    · intro h; exact ⟨.both k v w, (mem_joinArgs ha hb _).2 h, rfl⟩

theorem inOrder_inner (ha : AscendingBy Prod.fst a) (hb : AscendingBy Prod.fst b) :
    InOrder (fun x : K × V × W => x.1) (InnerOffer a b) ((joinArgs a b).filterMap innerSel) := by
  refine ⟨ascendingBy_sel innerSel_key (joinArgs_asc ha hb), fun x => ?_⟩
  rw [List.mem_filterMap]
  constructor
  · rintro ⟨y, hy, e⟩
    rw [mem_joinArgs ha hb] at hy
    cases y <;> simp [innerSel] at e <;> subst e <;> exact hy
  · obtain ⟨k, v, w⟩ := x
    intro h; exact ⟨.both k v w, (mem_joinArgs ha hb _).2 h, rfl⟩

theorem InOrder.unique {X : Type _} {key : X → K} {offer : X → Prop} {l l' : List X} (h : InOrder key offer l) (h' : InOrder key offer l') :
    l = l' := by
  obtain ⟨h1, h2⟩ := h
  obtain ⟨h1', h2'⟩ := h'
  have hm : ∀ x, x ∈ l ↔ x ∈ l' := fun x => (h2 x).trans (h2' x).symm
  clear h2 h2'
  induction l generalizing l' with
  | nil =>
    cases l' with
    | nil => rfl
    | cons y l' => exact absurd ((hm y).2 (by simp)) (by simp)
  | cons x l ih =>
    cases l' with
    | nil => exact absurd ((hm x).1 (by simp)) (by simp)
    | cons y l' =>
      rw [ascendingBy_cons] at h1 h1'
      have hxy : x = y := by
        rcases List.mem_cons.1 ((hm x).1 (by simp)) with e | e
        · exact e
        · rcases List.mem_cons.1 ((hm y).2 (by simp)) with e' | e'
          · exact e'.symm
          · have l1 := h1'.1 x e
            have l2 := h1.1 y e'
            exact absurd (cmp_lt_trans l1 l2) (by simp [cmp_self])
      subst hxy
      rw [ih h1.2 h1'.2 fun z => ?_]
      have irr : ∀ l'' : List X, (∀ w ∈ l'', compare (key x) (key w) = .lt) → x ∉ l'' := by
        intro l'' h hx
        have := h x hx
        simp [cmp_self] at this
      have n1 := irr l h1.1
      have n2 := irr l' h1'.1
      have := hm z
      simp only [List.mem_cons] at this
      constructor
      · intro hz
        rcases this.1 (Or.inr hz) with e | e
        · subst e; exact absurd hz n1
        · exact e
      · intro hz
        rcases this.2 (Or.inr hz) with e | e
        · subst e; exact absurd hz n2
        · exact e
end joins

/-! ### A closure without side effects -/
section pure
variable {σ S A B : Type _} [MergeState σ A B]

/-- `o'` does what `o` does and leaves the closure's state alone -/
def Lifts (o' : MergeOp (σ × S) A B) (o : MergeOp σ A B) : Prop :=
  (∀ x y, o'.cmp x y = o.cmp x y) ∧ (∀ s n, o'.fromA s n = quiet (fun m => o.fromA m n) s) ∧
  (∀ s n, o'.fromB s n = quiet (fun m => o.fromB m n) s) ∧ ∀ s, o'.collision s = quiet o.collision s

theorem andThen_quiet (k1 k2 : σ → σ × Flow) (s : σ × S) :
    andThen (quiet k1 s) (fun s => quiet k2 s) = quiet (fun m => andThen (k1 m) k2) s := by
  unfold andThen quiet
  cases h : (k1 s.1).2 <;> simp [h]

theorem binaryMerge_lifts {o' : MergeOp (σ × S) A B} {o : MergeOp σ A B} (h : Lifts o' o) (an bn : Nat) :
    ∀ s, binaryMerge o' s an bn = quiet (fun m => binaryMerge o m an bn) s := by
  induction an using Nat.strongRecOn generalizing bn with
  | ind an ih =>
    intro s
    have e : quiet (fun m => binaryMerge o m an bn) s = (((binaryMerge o s.1 an bn).1, s.2), (binaryMerge o s.1 an bn).2) := rfl
    rw [e, binaryMerge, binaryMerge]
    have hSa : (MergeState.aSlice s : List A) = MergeState.aSlice s.1 := rfl
    have hSb : (MergeState.bSlice s : List B) = MergeState.bSlice s.1 := rfl
    rw [hSa, hSb]
    split
    · split
      · rfl
      · exact h.2.2.1 s bn
    · split
      · exact h.2.1 s an
      · simp only []
        cases (MergeState.aSlice s.1 : List A)[an / 2]? with
        | none => rfl
        | some a =>
          simp only
          split
          · rfl
          · have hs : (fun b => (o'.cmp a b).swap) = (fun b => (o.cmp a b).swap) := by funext b; rw [h.1]
            rw [hs]
            split
            · simp only [ih _ (show an / 2 < an by omega), ih _ (show an - an / 2 - 1 < an by omega), h.2.2.2, andThen_quiet]
              rfl
            · simp only [ih _ (show an / 2 < an by omega), ih _ (show an - an / 2 - 1 < an by omega), h.2.1, andThen_quiet]
              rfl
end pure
end Verif

/-! ### Derived closures -/
namespace Verif
section derived
variable {S X Y R K V : Type _}

/-- the closure's state only depends on the arguments that reach it -/
theorem callEach_sel_state {R' : Type _} (sel : X → Option Y) (h : Closure S X (Option R)) (g : Closure S Y (Option R'))
    (h1 : ∀ x, sel x = none → ∀ c, ∃ o, h x c = (.ret o, c))
    (h2 : ∀ x y, sel x = some y → ∀ c, (h x c).2 = (g y c).2 ∧ ((h x c).1 = .panic ↔ (g y c).1 = .panic)) (xs : List X) (c : S) :
    (callEach h xs c).2 = (callEach g (xs.filterMap sel) c).2 := by
  induction xs generalizing c with
  | nil => rfl
  | cons x xs ih =>
    cases e : sel x with
    | none =>
      obtain ⟨o, ho⟩ := h1 x e c
      rw [List.filterMap_cons_none e]
      cases o <;> simp only [callEach, ho] <;> exact ih c
    | some y =>
      obtain ⟨e1, e2⟩ := h2 x y e c
      rw [List.filterMap_cons_some e]
      obtain ⟨o, c1, hc⟩ : ∃ o c1, h x c = (o, c1) := ⟨_, _, rfl⟩
      obtain ⟨o', c1', hc'⟩ : ∃ o c1, g y c = (o, c1) := ⟨_, _, rfl⟩
      rw [hc, hc'] at e1 e2
      simp only at e1 e2
      subst e1
      rcases o with (_ | r) | _ <;> rcases o' with (_ | r') | _ <;> simp at e2 <;> simp only [callEach, hc, hc'] <;> first | rfl | exact ih c1

theorem mapEntriesE_eq (g : Closure S V R) (l : List (K × V)) (c : S) : VecMap.mapEntriesE g l c =
    ((callEach (answering fun e : K × V => g e.2) l c).1.map (fun p => (p.1.1, p.2)),
      (callEach (answering fun e : K × V => g e.2) l c).2) := by
  induction l generalizing c with
  | nil => rfl
  | cons e l ih =>
    obtain ⟨o, c1, hc⟩ : ∃ o c1, g e.2 c = (o, c1) := ⟨_, _, rfl⟩
    cases o with
    | panic => simp [VecMap.mapEntriesE, callEach, hc, answering, VecMap.someOf]
    | ret r => simp [VecMap.mapEntriesE, callEach, hc, answering, VecMap.someOf, ih]

/-- leaving out the answers that equal the default -/
theorem callEach_unless [BEq R] (d : R) (g : Closure S X R) (xs : List X) (c : S) :
    callEach (fun x c => TotalVecMap.unlessDefault d (g x c)) xs c =
      ((callEach (answering g) xs c).1.filter (fun p => p.2 != d), (callEach (answering g) xs c).2) := by
  induction xs generalizing c with
  | nil => rfl
  | cons x xs ih =>
    obtain ⟨o, c1, hc⟩ : ∃ o c1, g x c = (o, c1) := ⟨_, _, rfl⟩
    cases o with
    | panic => simp [callEach, hc, answering, VecMap.someOf, TotalVecMap.unlessDefault]
    | ret r =>
      have h1 : callEach (answering g) (x :: xs) c =
          ((x, r) :: (callEach (answering g) xs c1).1, (callEach (answering g) xs c1).2) := by
        simp [callEach, hc, answering, VecMap.someOf]
      rw [h1]
      by_cases hr : (r != d) = true
      · have h2 : TotalVecMap.unlessDefault d (Call.ret r, c1) = (.ret (some r), c1) := by simp [TotalVecMap.unlessDefault, hr]
        simp only [callEach, hc, h2, hr, ↓reduceIte, List.filter_cons, ih]
      · have h2 : TotalVecMap.unlessDefault d (Call.ret r, c1) = (.ret none, c1) := by simp [TotalVecMap.unlessDefault, hr]
        simp only [callEach, hc, h2, hr, Bool.false_eq_true, ↓reduceIte, List.filter_cons, ih]

theorem totalMapEntriesE_eq [BEq R] (g : Closure S V R) (d : R) (l : List (K × V)) (c : S) : TotalVecMap.mapEntriesE g d l c =
    ((callEach (fun (e : K × V) c => TotalVecMap.unlessDefault d (g e.2 c)) l c).1.map (fun p => (p.1.1, p.2)),
      (callEach (fun (e : K × V) c => TotalVecMap.unlessDefault d (g e.2 c)) l c).2) := by
  induction l generalizing c with
  | nil => rfl
  | cons e l ih =>
    obtain ⟨o, c1, hc⟩ : ∃ o c1, g e.2 c = (o, c1) := ⟨_, _, rfl⟩
    cases o with
    | panic => simp [TotalVecMap.mapEntriesE, callEach, hc, TotalVecMap.unlessDefault]
    | ret r =>
      by_cases hr : (r != d) = true
      · simp only [TotalVecMap.mapEntriesE, callEach, hc, TotalVecMap.unlessDefault, hr, ↓reduceIte, ih, List.map_cons]
      · simp only [TotalVecMap.mapEntriesE, callEach, hc, TotalVecMap.unlessDefault, hr, Bool.false_eq_true, ↓reduceIte, ih]

theorem callEach_flow (h : Closure S X (Option R)) (xs : List X) (c : S) :
    (callEach h xs c).2.2 = .cont ∨ (callEach h xs c).2.2 = .panic := by
  induction xs generalizing c with
  | nil => exact Or.inl rfl
  | cons x xs ih =>
    simp only [callEach]
    obtain ⟨o, c1, hc⟩ : ∃ o c1, h x c = (o, c1) := ⟨_, _, rfl⟩
    rw [hc]
    rcases o with (_ | r) | _
    · exact ih c1
    · exact ih c1
    · exact Or.inr rfl

theorem callEach_sublist (h : Closure S X (Option R)) (xs : List X) (c : S) : ((callEach h xs c).1.map (·.1)).Sublist xs := by
  induction xs generalizing c with
  | nil => exact List.Sublist.refl _
  | cons x xs ih =>
    simp only [callEach]
    obtain ⟨o, c1, hc⟩ : ∃ o c1, h x c = (o, c1) := ⟨_, _, rfl⟩
    rw [hc]
    rcases o with (_ | r) | _
    · exact (ih c1).cons _
    · exact (ih c1).cons_cons _
    · exact List.nil_sublist _

end derived
end Verif

/-! ### The effect-free joins are a special case -/
namespace Verif
section special
variable {A B R S : Type _}

theorem SliceMS.loopAE_pure (g : A → Call (Option R)) (n : Nat) : ∀ s : SliceMS A B R × S,
    SliceMS.loopAE (fun x c => (g x, c)) s n = quiet (fun m => m.loopA g n) s := by
  induction n with
  | zero => intro s; rfl
  | succ n ih =>
    rintro ⟨⟨a, b, r⟩, c⟩
    cases a with
    | nil => simpa [loopAE, loopA, quiet] using ih (⟨[], b, r⟩, c)
    | cons x xs =>
      cases h : g x with
      | panic => simp [loopAE, loopA, quiet, h]
      | ret o => simpa [loopAE, loopA, quiet, h] using ih (⟨xs, b, r ++ o.toList⟩, c)

theorem SliceMS.loopBE_pure (g : B → Call (Option R)) (n : Nat) : ∀ s : SliceMS A B R × S,
    SliceMS.loopBE (fun x c => (g x, c)) s n = quiet (fun m => m.loopB g n) s := by
  induction n with
  | zero => intro s; rfl
  | succ n ih =>
    rintro ⟨⟨a, b, r⟩, c⟩
    cases b with
    | nil => simpa [loopBE, loopB, quiet] using ih (⟨a, [], r⟩, c)
    | cons x xs =>
      cases h : g x with
      | panic => simp [loopBE, loopB, quiet, h]
      | ret o => simpa [loopBE, loopB, quiet, h] using ih (⟨a, xs, r ++ o.toList⟩, c)

theorem SliceMS.bothE_pure (g : A → B → Call (Option R)) (s : SliceMS A B R × S) :
    SliceMS.bothE (fun x y c => (g x y, c)) s = quiet (fun m => m.both g) s := by
  obtain ⟨⟨a, b, r⟩, c⟩ := s
  cases a with
  | nil => rfl
  | cons x xs =>
    cases b with
    | nil => rfl
    | cons y ys => cases h : g x y <;> simp [bothE, both, quiet, h]

theorem InPlaceMS.loopAE_pure (g : A → Call (Option A)) (n : Nat) : ∀ s : InPlaceMS A B × S,
    InPlaceMS.loopAE (fun x c => (g x, c)) s n = quiet (fun m => m.loopA g n) s := by
  induction n with
  | zero => intro s; rfl
  | succ n ih =>
    rintro ⟨⟨t, a, b⟩, c⟩
    cases a with
    | nil => simpa [loopAE, loopA, quiet] using ih (⟨t, [], b⟩, c)
    | cons x xs =>
      cases h : g x with
      | panic => simp [loopAE, loopA, quiet, h]
      | ret o => simpa [loopAE, loopA, quiet, h] using ih (⟨t ++ o.toList, xs, b⟩, c)

theorem InPlaceMS.loopBE_pure (g : B → Call (Option A)) (n : Nat) : ∀ s : InPlaceMS A B × S,
    InPlaceMS.loopBE (fun x c => (g x, c)) s n = quiet (fun m => m.loopB g n) s := by
  induction n with
  | zero => intro s; rfl
  | succ n ih =>
    rintro ⟨⟨t, a, b⟩, c⟩
    cases b with
    | nil => simpa [loopBE, loopB, quiet] using ih (⟨t, a, []⟩, c)
    | cons x xs =>
      cases h : g x with
      | panic => simp [loopBE, loopB, quiet, h]
      | ret o => simpa [loopBE, loopB, quiet, h] using ih (⟨t ++ o.toList, a, xs⟩, c)

theorem InPlaceMS.bothE_pure (g : A → B → Call (Option A)) (s : InPlaceMS A B × S) :
    InPlaceMS.bothE (fun x y c => (g x y, c)) s = quiet (fun m => m.both g) s := by
  obtain ⟨⟨t, a, b⟩, c⟩ := s
  cases a with
  | nil => rfl
  | cons x xs =>
    cases b with
    | nil => rfl
    | cons y ys => cases h : g x y <;> simp [bothE, both, quiet, h]

variable {K V W : Type _} [Ord K]

theorem outerJoinOpE_pure (f : OuterJoinArg K V W → Call (Option R)) :
    Lifts (outerJoinOpE fun x (c : S) => (f x, c)) (outerJoinOp f) :=
  ⟨fun _ _ => rfl, fun s n => SliceMS.loopAE_pure (fun x : K × V => (f (.left x.1 x.2)).withKey x.1) n s, fun s n => SliceMS.loopBE_pure (fun x : K × W => (f (.right x.1 x.2)).withKey x.1) n s, fun s => SliceMS.bothE_pure _ s⟩
theorem leftJoinOpE_pure (f : K → V → Option W → Call (Option R)) :
    Lifts (leftJoinOpE fun x (c : S) => (f x.1 x.2.1 x.2.2, c)) (leftJoinOp f) :=
  ⟨fun _ _ => rfl, fun s n => SliceMS.loopAE_pure (fun x : K × V => (f x.1 x.2 none).withKey x.1) n s, fun _ _ => rfl, fun s => SliceMS.bothE_pure _ s⟩
theorem rightJoinOpE_pure (f : K → Option V → W → Call (Option R)) :
    Lifts (rightJoinOpE fun x (c : S) => (f x.1 x.2.1 x.2.2, c)) (rightJoinOp f) :=
  ⟨fun _ _ => rfl, fun _ _ => rfl, fun s n => SliceMS.loopBE_pure (fun x : K × W => (f x.1 none x.2).withKey x.1) n s, fun s => SliceMS.bothE_pure _ s⟩
theorem innerJoinOpE_pure (f : K → V → W → Call (Option R)) :
    Lifts (innerJoinOpE fun x (c : S) => (f x.1 x.2.1 x.2.2, c)) (innerJoinOp f) :=
  ⟨fun _ _ => rfl, fun _ _ => rfl, fun _ _ => rfl, fun s => SliceMS.bothE_pure _ s⟩
theorem outerJoinWithOpE_pure (f : OuterJoinArg K V W → Call (Option V)) :
    Lifts (outerJoinWithOpE fun x (c : S) => (f x, c)) (outerJoinWithOp f) :=
  ⟨fun _ _ => rfl, fun s n => InPlaceMS.loopAE_pure (fun x : K × V => (f (.left x.1 x.2)).withKey x.1) n s, fun s n => InPlaceMS.loopBE_pure (fun x : K × W => (f (.right x.1 x.2)).withKey x.1) n s, fun s => InPlaceMS.bothE_pure _ s⟩
theorem leftJoinWithOpE_pure (f : K → V → Option W → Call (Option V)) :
    Lifts (leftJoinWithOpE fun x (c : S) => (f x.1 x.2.1 x.2.2, c)) (leftJoinWithOp f) :=
  ⟨fun _ _ => rfl, fun s n => InPlaceMS.loopAE_pure (fun x : K × V => (f x.1 x.2 none).withKey x.1) n s, fun _ _ => rfl, fun s => InPlaceMS.bothE_pure _ s⟩
theorem rightJoinWithOpE_pure (f : K → Option V → W → Call (Option V)) :
    Lifts (rightJoinWithOpE fun x (c : S) => (f x.1 x.2.1 x.2.2, c)) (rightJoinWithOp f) :=
  ⟨fun _ _ => rfl, fun _ _ => rfl, fun s n => InPlaceMS.loopBE_pure (fun x : K × W => (f x.1 none x.2).withKey x.1) n s, fun s => InPlaceMS.bothE_pure _ s⟩
theorem innerJoinWithOpE_pure (f : K → V → W → Call (Option V)) :
    Lifts (innerJoinWithOpE fun x (c : S) => (f x.1 x.2.1 x.2.2, c)) (innerJoinWithOp f) :=
  ⟨fun _ _ => rfl, fun _ _ => rfl, fun _ _ => rfl, fun s => InPlaceMS.bothE_pure _ s⟩

theorem SliceMS.mergeE_pure {o' : MergeOp (SliceMS A B R × S) A B} {o : MergeOp (SliceMS A B R) A B} (h : Lifts o' o) (a : List A) (b : List B)
    (c : S) : SliceMS.mergeE a b o' c = ((SliceMS.merge a b o).1, c, (SliceMS.merge a b o).2) := by
  have e : mergeAll o' ({ a := a, b := b, r := [] }, c) = _ := binaryMerge_lifts h a.length b.length _
  simp only [mergeE, e]
  rfl
theorem InPlaceMS.mergeE_pure {o' : MergeOp (InPlaceMS A B × S) A B} {o : MergeOp (InPlaceMS A B) A B} (h : Lifts o' o) (a : List A) (b : List B)
    (c : S) : InPlaceMS.mergeE a b o' c = ((InPlaceMS.merge a b o).1, c, (InPlaceMS.merge a b o).2) := by
  have e : mergeAll o' ({ src := a, b := b, tgt := [] }, c) = _ := binaryMerge_lifts h a.length b.length _
  simp only [mergeE, e]
  rfl
end special
end Verif
