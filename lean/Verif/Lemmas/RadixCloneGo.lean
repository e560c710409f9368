import Verif.Lemmas.RadixCloneInv
import Verif.Lemmas.RadixPrefixGo
/-! Whatever `clone` and the closures do, an in-place combination leaves a valid tree with entries made from those it was given. -/
namespace Verif
namespace Tree
open Std

section
variable {K V W S : Type _} [Ord K] [TransOrd K] [LawfulEqOrd K]

/-- a condition on predicates that holds at every subtree -/
def Stable (Fit : (List K → V → Prop) → (List K → W → Prop) → Prop) : Prop := ∀ p P Q, Fit P Q → Fit (under p P) (under p Q)
/-- `RecOkC` for all predicates that fit -/
def RecAll (Fit : (List K → V → Prop) → (List K → W → Prop) → Prop) (rec : Tree K V → Tree K W → S → (Tree K V × S) × Flow) : Prop :=
  ∀ P Q, Fit P Q → RecOkC P Q rec
/-- the result of the cases of an operation -/
def Mid (P : List K → V → Prop) (a : Tree K V) (n : Nat) (r : Tree K V) : Prop := Ok P a.pre r ∨ Ok P (a.pre.take n) r

variable {e : Clones S V W} {P : List K → V → Prop} {Q : List K → W → Prop} {takeA : Bool}
  {oconv : Option (Tree K W → S → Call (Tree K V) × S)} {rec : Tree K V → Tree K W → S → (Tree K V × S) × Flow}

theorem Ok.setVal {p : List K} {t : Tree K V} (h : Ok P p t) {v : Option V} (hv : ∀ x, v = some x → P p x) : Ok P p { t with val := v } :=
  ⟨valid_iff.2 h.valid.kids, ent_iff.2 ⟨by rw [show ({ t with val := v } : Tree K V).pre = p from h.pre]; exact hv, (ent_iff.1 h.ent).2⟩, h.pre⟩

theorem Ok.valP {p : List K} {t : Tree K V} (h : Ok P p t) : ∀ x, t.val = some x → P p x := by
  have := (ent_iff.1 h.ent).1
  rw [h.pre] at this
  exact this

theorem andThen_all {σ : Type _} {J : σ → Prop} {r : σ × Flow} {k : σ → σ × Flow} (h : J r.1) (hk : r.2 = .cont → J (k r.1).1) : J (andThen r k).1 := by
  unfold andThen
  split
  · exact hk ‹_›
  · exact h

theorem childrenWithC_ok (hcl : Closed e P Q) {p : List K}
    (hconv : ∀ conv, oconv = some conv → ConvOkC (under p P) (under p Q) conv) (hrec : RecOkC (under p P) (under p Q) rec)
    {t : Tree K V × S} {rhs : List (Tree K W)} (h : Ok P p t.1) (kb : Kids rhs) (eb : EntL (under p Q) rhs) :
    Ok P p (childrenWithC e (inPlaceOpC takeA oconv rec) t rhs).1.1 := by
  unfold childrenWithC
  refine andThen_all (J := fun x : Tree K V × S => Ok P p x.1) (childrenMutC_ok hcl h) fun _ => ?_
  exact childrenWithE_ok hconv hrec (childrenMutC_ok hcl h) kb eb

theorem clearKidsC_ok (hcl : Closed e P Q) {p : List K} {t : Tree K V × S} (h : Ok P p t.1) : Ok P p (clearKidsC e t).1.1 := by
  unfold clearKidsC
  refine andThen_all (J := fun x : Tree K V × S => Ok P p x.1) (childrenMutC_ok hcl h) fun _ => ?_
  have h := childrenMutC_ok hcl h
  exact ⟨valid_iff.2 Kids.nil, ent_iff.2 ⟨(ent_iff.1 h.ent).1, entL_nil⟩, h.pre⟩

theorem ok_self {a : Tree K V} (ha : Valid a) (ea : Ent P a) : Ok P a.pre a := ⟨ha, ea, rfl⟩

theorem split_ok' [DecidableEq K] {a : Tree K V} {n : Nat} (hn : n < a.pre.length) (ha : Valid a) (ea : Ent P a) : Ok P (a.pre.take n) (a.split n).1 := by
  rw [split_eq hn]
  refine ⟨valid_iff.2 (Kids.single (valid_iff.2 ha.kids) ?_), ?_, rfl⟩
  · simp [shorten]; omega
  · exact ent_iff.2 ⟨by simp, entL_single (ent_shorten ea n)⟩

theorem ifSelectedE_all {J : Tree K V × S → Prop} {f : PredE S W} {v : Option W} {c : S} {t : Tree K V} {yes no : S → (Tree K V × S) × Flow}
    (h0 : ∀ c, J (t, c)) (h1 : ∀ c, J (yes c).1) (h2 : ∀ c, J (no c).1) : J (ifSelectedE f v c t yes no).1 := by
  unfold ifSelectedE
  cases v with
  | none => exact h2 c
  | some w =>
    simp only
    rcases f w c with ⟨r, c'⟩
    rcases r with _ | _
    · rename_i b; cases b
      · exact h2 c'
      · exact h1 c'
    · exact h0 c'

theorem withMatC_all {J : Tree K V × S → Prop} {m : Call (Tree K W) × S} {t : Tree K V} {k : Tree K W → S → (Tree K V × S) × Flow}
    (h0 : ∀ c, J (t, c)) (h1 : ∀ x c, m = (.ret x, c) → J (k x c).1) : J (withMatC m t k).1 := by
  unfold withMatC
  rcases m with ⟨r, c'⟩
  rcases r with _ | _
  · exact h1 _ _ rfl
  · exact h0 c'

theorem mat_kids (hcl : Closed e P Q) {b : Tree K W} (hb : Valid b) (eb : Ent Q b) {n : Nat} {s : S} {z : Tree K W} {s' : S}
    (h : b.materializeShortenedC e.other n s = (.ret z, s')) : Kids [z] ∧ EntL (under (b.pre.take n) Q) [z] := by
  obtain ⟨h1, h2, h3, h4⟩ := materializeC_ent b Q Q (fun k v s v' s' hq hc => hcl.other k v s v' s' hq hc) n s z s' hb eb h
  exact ⟨Kids.single h2 (by rw [h4]; simp; omega), entL_single h3⟩

variable [DecidableEq K]

/-- what is needed of the two trees and the length of their common prefix -/
structure Sit (P : List K → V → Prop) (Q : List K → W → Prop) (a : Tree K V) (b : Tree K W) (n : Nat) : Prop where
  va : Valid a
  vb : Valid b
  ea : Ent P a
  eb : Ent Q b
  la : n ≤ a.pre.length
  lb : n ≤ b.pre.length
  tk : a.pre.take n = b.pre.take n
  df : n < a.pre.length → n < b.pre.length → hd (a.shorten n) ≠ hd (b.shorten n)

theorem sit {a : Tree K V} {b : Tree K W} (va : Valid a) (vb : Valid b) (ea : Ent P a) (eb : Ent Q b) : Sit P Q a b (commonPrefix a.pre b.pre) :=
  ⟨va, vb, ea, eb, commonPrefix_le_left .., commonPrefix_le_right .., commonPrefix_take .., commonPrefix_differ a.pre b.pre⟩

variable {a : Tree K V} {b : Tree K W} {n : Nat}

omit [TransOrd K] [LawfulEqOrd K] [DecidableEq K] in
theorem Sit.preB (h : Sit P Q a b n) (h1 : n = b.pre.length) : a.pre.take n = b.pre := by
  rw [h.tk, List.take_of_length_le (by omega)]
omit [TransOrd K] [LawfulEqOrd K] [DecidableEq K] in
theorem Sit.preA (h : Sit P Q a b n) (h1 : n = a.pre.length) : b.pre.take n = a.pre := by
  rw [← h.tk, List.take_of_length_le (by omega)]
omit [TransOrd K] [LawfulEqOrd K] [DecidableEq K] in
theorem Sit.pre (h : Sit P Q a b n) (h1 : n = a.pre.length ∧ n = b.pre.length) : b.pre = a.pre := by
  rw [← h.preA h1.1, List.take_of_length_le (by omega)]
omit [TransOrd K] [LawfulEqOrd K] [DecidableEq K] in
theorem Sit.kidsB (h : Sit P Q a b n) : EntL (under b.pre Q) b.kids := (ent_iff.1 h.eb).2

/-- the children of `b` are merged into `t`, which is at the same path -/
theorem kids_okC (hcl : Closed e P Q) (hconv : ∀ p conv, oconv = some conv → ConvOkC (under p P) (under p Q) conv)
    (hrec : ∀ p, RecOkC (under p P) (under p Q) rec) (h : Sit P Q a b n) {t : Tree K V × S} (ht : Ok P b.pre t.1) :
    Ok P b.pre (childrenWithC e (inPlaceOpC takeA oconv rec) t b.kids).1.1 :=
  childrenWithC_ok hcl (hconv _) (hrec _) ht h.vb.kids h.kidsB

/-- `b` is below `a` -/
theorem above_okC (hcl : Closed e P Q) (hconv : ∀ p conv, oconv = some conv → ConvOkC (under p P) (under p Q) conv)
    (hrec : ∀ p, RecOkC (under p P) (under p Q) rec) (h : Sit P Q a b n) (hn : n = a.pre.length) {t : Tree K V} (ht : Ok P a.pre t) (s : S) :
    Ok P a.pre (withMatC (b.materializeShortenedC e.other n s) t fun z s => childrenWithC e (inPlaceOpC takeA oconv rec) (t, s) [z]).1.1 := by
  refine withMatC_all (J := fun x : Tree K V × S => Ok P a.pre x.1) (fun _ => ht) fun z s' hz => ?_
  obtain ⟨k1, k2⟩ := mat_kids hcl h.vb h.eb hz
  rw [h.preA hn] at k2
  exact childrenWithC_ok hcl (hconv _) (hrec _) ht k1 k2

/-- `a` is below `b` -/
theorem below_okC (hcl : Closed e P Q) (hconv : ∀ p conv, oconv = some conv → ConvOkC (under p P) (under p Q) conv)
    (hrec : ∀ p, RecOkC (under p P) (under p Q) rec) (h : Sit P Q a b n) (hn : n = b.pre.length) (ha : n < a.pre.length) (s : S) :
    Ok P (a.pre.take n) (andThen (((a.split n).1, s), (a.split n).2) fun t => childrenWithC e (inPlaceOpC takeA oconv rec) t b.kids).1.1 := by
  have h0 := split_ok' ha h.va h.ea
  refine andThen_all (J := fun x : Tree K V × S => Ok P (a.pre.take n) x.1) h0 fun _ => ?_
  rw [h.preB hn] at h0 ⊢
  exact kids_okC hcl hconv hrec h h0

/-- the closure keeps `P` -/
def FnOk (f : MutFnE S V W) (P : List K → V → Prop) (Q : List K → W → Prop) : Prop := ∀ k v w s, P k v → Q k w → P k (f v w s).1

theorem applyMutE_P {f : MutFnE S V W} (hf : FnOk f P Q) {k : List K} {v : V} {w : W} (s : S) (hv : P k v) (hw : Q k w) :
    ∀ x, (applyMutE f v w s).1.1 = some x → P k x := by
  have := hf k v w s hv hw
  unfold applyMutE
  rcases hfe : f v w s with ⟨v', r, s'⟩
  rw [hfe] at this
  rcases r with b | _
  · cases b
    · simp
    · simp only [Option.some.injEq]; rintro x rfl; exact this
  · simp only [Option.some.injEq]; rintro x rfl; exact this

theorem innerValE_P {f : MutFnE S V W} (hf : FnOk f P Q) {k : List K} {v : Option V} {w : Option W} (s : S) (hv : ∀ x, v = some x → P k x)
    (hw : ∀ x, w = some x → Q k x) : ∀ x, (innerValE f v w s).1.1 = some x → P k x := by
  cases v with
  | none => simp [innerValE]
  | some v =>
    cases w with
    | none => simp [innerValE]
    | some w => exact applyMutE_P hf s (hv v rfl) (hw w rfl)

theorem leftValE_P {f : MutFnE S V W} (hf : FnOk f P Q) {k : List K} {v : Option V} {w : Option W} (s : S) (hv : ∀ x, v = some x → P k x)
    (hw : ∀ x, w = some x → Q k x) : ∀ x, (leftValE f v w s).1.1 = some x → P k x := by
  cases w with
  | none => exact hv
  | some w =>
    cases v with
    | none => simp [leftValE]
    | some v => exact applyMutE_P hf s (hv v rfl) (hw w rfl)

/-- the value of `b`, and clones of it -/
theorem Sit.valB (h : Sit P Q a b n) : ∀ x, b.val = some x → Q b.pre x := (ent_iff.1 h.eb).1

theorem innerWithCasesC_ok {f : MutFnE S V W} (hcl : Closed e P Q) (hf : FnOk f P Q) (hrec : ∀ p, RecOkC (under p P) (under p Q) rec)
    (h : Sit P Q a b n) (s : S) : Mid P a n (innerWithCasesC e (inPlaceOpC takeA none rec) f n a b s).1.1 := by
  have hs := ok_self h.va h.ea
  have hconv : ∀ p conv, (none : Option (Tree K W → S → Call (Tree K V) × S)) = some conv → ConvOkC (under p P) (under p Q) conv := by intro p c hc; cases hc
  unfold innerWithCasesC
  split
  · rename_i h1
    have he := h.pre h1
    left
    refine andThen_all (J := fun x : Tree K V × S => Ok P a.pre x.1) ?_ fun _ => ?_
    · exact hs.setVal (innerValE_P hf s hs.valP (by rw [← he]; exact h.valB))
    · rw [← he]
      refine kids_okC hcl hconv hrec h ?_
      rw [he]
      exact hs.setVal (innerValE_P hf s hs.valP (by rw [← he]; exact h.valB))
  · split
    · exact .inl (above_okC hcl hconv hrec h ‹_› (hs.setVal (by simp)) s)
    · have := h.la
      split
      · exact .inr (below_okC hcl hconv hrec h ‹_› (by omega) s)
      · exact .inl (clearKidsC_ok hcl (t := ({ a with val := none }, s)) (hs.setVal (by simp)))

theorem leftWithCasesC_ok {f : MutFnE S V W} (hcl : Closed e P Q) (hf : FnOk f P Q) (hrec : ∀ p, RecOkC (under p P) (under p Q) rec)
    (h : Sit P Q a b n) (s : S) : Mid P a n (leftWithCasesC e (inPlaceOpC takeA none rec) f n a b s).1.1 := by
  have hs := ok_self h.va h.ea
  have hconv : ∀ p conv, (none : Option (Tree K W → S → Call (Tree K V) × S)) = some conv → ConvOkC (under p P) (under p Q) conv := by intro p c hc; cases hc
  unfold leftWithCasesC
  split
  · rename_i h1
    have he := h.pre h1
    left
    refine andThen_all (J := fun x : Tree K V × S => Ok P a.pre x.1) ?_ fun _ => ?_
    · exact hs.setVal (leftValE_P hf s hs.valP (by rw [← he]; exact h.valB))
    · rw [← he]
      refine kids_okC hcl hconv hrec h ?_
      rw [he]
      exact hs.setVal (leftValE_P hf s hs.valP (by rw [← he]; exact h.valB))
  · split
    · exact .inl (above_okC hcl hconv hrec h ‹_› hs s)
    · have := h.la
      split
      · exact .inr (below_okC hcl hconv hrec h ‹_› (by omega) s)
      · exact .inl hs

theorem removePrefixCasesC_ok {f : PredE S W} (hcl : Closed e P Q) (hrec : ∀ p, RecOkC (under p P) (under p Q) rec)
    (h : Sit P Q a b n) (s : S) : Mid P a n (removePrefixCasesC e (inPlaceOpC takeA none rec) f n a b s).1.1 := by
  have hs := ok_self h.va h.ea
  have hconv : ∀ p conv, (none : Option (Tree K W → S → Call (Tree K V) × S)) = some conv → ConvOkC (under p P) (under p Q) conv := by intro p c hc; cases hc
  have hclr : ∀ s, Ok P a.pre (clearKidsC e ({ a with val := none }, s)).1.1 := fun s =>
    clearKidsC_ok hcl (t := ({ a with val := none }, s)) (hs.setVal (by simp))
  unfold removePrefixCasesC
  split
  · rename_i h1
    have he := h.pre h1
    refine ifSelectedE_all (J := fun x : Tree K V × S => Mid P a n x.1) (fun _ => .inl hs) (fun c => .inl (hclr c)) fun c => .inl ?_
    rw [← he]
    refine kids_okC hcl hconv hrec h ?_
    rw [he]; exact hs
  · have := h.la
    split
    · exact ifSelectedE_all (J := fun x : Tree K V × S => Mid P a n x.1) (fun _ => .inl hs) (fun c => .inl (hclr c)) fun c =>
        .inr (below_okC hcl hconv hrec h ‹_› (by omega) c)
    · split
      · exact .inl (above_okC hcl hconv hrec h ‹_› hs s)
      · exact .inl hs

theorem retainPrefixCasesC_ok {f : PredE S W} (hcl : Closed e P Q) (hrec : ∀ p, RecOkC (under p P) (under p Q) rec)
    (h : Sit P Q a b n) (s : S) : Mid P a n (retainPrefixCasesC e (inPlaceOpC takeA none rec) f n a b s).1.1 := by
  have hs := ok_self h.va h.ea
  have hconv : ∀ p conv, (none : Option (Tree K W → S → Call (Tree K V) × S)) = some conv → ConvOkC (under p P) (under p Q) conv := by intro p c hc; cases hc
  unfold retainPrefixCasesC
  split
  · rename_i h1
    have he := h.pre h1
    refine ifSelectedE_all (J := fun x : Tree K V × S => Mid P a n x.1) (fun _ => .inl hs) (fun _ => .inl hs) fun c => .inl ?_
    rw [← he]
    refine kids_okC hcl hconv hrec h ?_
    rw [he]; exact hs.setVal (by simp)
  · have := h.la
    split
    · exact ifSelectedE_all (J := fun x : Tree K V × S => Mid P a n x.1) (fun _ => .inl hs) (fun _ => .inl hs) fun c =>
        .inr (below_okC hcl hconv hrec h ‹_› (by omega) c)
    · split
      · exact .inl (above_okC hcl hconv hrec h ‹_› (hs.setVal (by simp)) s)
      · exact .inl (clearKidsC_ok hcl (t := ({ a with val := none }, s)) (hs.setVal (by simp)))

theorem finishC_ok (hcl : Closed e P Q) {r : (Tree K V × S) × Flow} (h : Mid P a n r.1.1) :
    Valid (finishC e r).1.1 ∧ Ent P (finishC e r).1.1 ∧ ((finishC e r).2 = .cont → (finishC e r).1.1.isEmpty = false →
      ∃ q, (finishC e r).1.1.pre = a.pre ++ q ∨ (finishC e r).1.1.pre = a.pre.take n ++ q) := by
  obtain ⟨⟨t, s⟩, fl⟩ := r
  obtain ⟨p, hp, ht⟩ : ∃ p, (p = a.pre ∨ p = a.pre.take n) ∧ Ok P p t := by
    rcases h with h | h
    · exact ⟨_, .inl rfl, h⟩
    · exact ⟨_, .inr rfl, h⟩
  have hm := childrenMutC_ok hcl (t := (t, s)) ht
  unfold finishC
  cases fl with
  | stop => exact ⟨ht.valid, ht.ent, by simp [andThen]⟩
  | panic => exact ⟨ht.valid, ht.ent, by simp [andThen]⟩
  | cont =>
    simp only [andThen]
    rcases hc : childrenMutC e (t, s) with ⟨⟨t', s'⟩, fl'⟩
    rw [hc] at hm
    cases fl' with
    | stop => exact ⟨hm.valid, hm.ent, by simp⟩
    | panic => exact ⟨hm.valid, hm.ent, by simp⟩
    | cont =>
      refine ⟨hm.valid.unsplit, fun k v he => hm.ent k v ((entry_unsplit hm.valid k v).1 he), fun _ hne => ?_⟩
      obtain ⟨q, hq⟩ := unsplit_pre hne
      simp only at hq ⊢
      rw [hq, hm.pre]
      rcases hp with rfl | rfl
      · exact ⟨q, .inl rfl⟩
      · exact ⟨q, .inr rfl⟩

/-- the result of a whole operation -/
structure LeftC (P : List K → V → Prop) (a : Tree K V) (b : Tree K W) (r : (Tree K V × S) × Flow) : Prop where
  valid : Valid r.1.1
  ent : Ent P r.1.1
  hd : r.2 = .cont → r.1.1.isEmpty = false → a.pre ≠ [] → hd a = hd b → hd r.1.1 = hd a

theorem finishC_left (hcl : Closed e P Q) {r : (Tree K V × S) × Flow} (h : Mid P a (commonPrefix a.pre b.pre) r.1.1) : LeftC P a b (finishC e r) := by
  obtain ⟨h1, h2, h3⟩ := finishC_ok hcl h
  refine ⟨h1, h2, fun hc hne ha hh => ?_⟩
  obtain ⟨c, ra, hpa⟩ := head?_some_of_ne ha
  have hb : b.pre.head? = some c := by rw [show b.pre.head? = a.pre.head? from hh.symm, hpa]; rfl
  have hpos := commonPrefix_pos a.pre b.pre c (by rw [hpa]; rfl) hb
  obtain ⟨q, hq | hq⟩ := h3 hc hne
  · simp [Tree.hd, hq, hpa]
  · obtain ⟨m, hm⟩ : ∃ m, commonPrefix a.pre b.pre = m + 1 := ⟨_, (Nat.sub_add_cancel hpos).symm⟩
    rw [hm] at hq
    simp [Tree.hd, hq, hpa]

theorem LeftC.recOk {rec : Tree K V → Tree K W → S → (Tree K V × S) × Flow}
    (h : ∀ x y s, Valid x → Valid y → Ent P x → Ent Q y → LeftC P x y (rec x y s)) : RecOkC P Q rec := by
  intro x y s vx vy hx hh ex ey hc
  have := h x y s vx vy ex ey
  exact ⟨this.valid, this.ent, fun hne => this.hd hc hne hx hh⟩

theorem innerWithGoC_left (f : MutFnE S V W) : ∀ (fuel : Nat) (P : List K → V → Prop) (Q : List K → W → Prop), Closed e P Q → FnOk f P Q →
    ∀ (a : Tree K V) (b : Tree K W) (s : S), Valid a → Valid b → Ent P a → Ent Q b → LeftC P a b (innerWithGoC e f fuel a b s)
  | 0, P, Q, _, _, a, b, s, va, _, ea, _ => ⟨va, ea, by simp [innerWithGoC]⟩
  | fuel + 1, P, Q, hcl, hf, a, b, s, va, vb, ea, eb => finishC_left hcl (innerWithCasesC_ok hcl hf (fun p => LeftC.recOk fun x y s vx vy ex ey =>
      innerWithGoC_left f fuel _ _ (hcl.under p) (fun k v w s => hf (p ++ k) v w s) x y s vx vy ex ey) (sit va vb ea eb) s)

theorem leftWithGoC_left (f : MutFnE S V W) : ∀ (fuel : Nat) (P : List K → V → Prop) (Q : List K → W → Prop), Closed e P Q → FnOk f P Q →
    ∀ (a : Tree K V) (b : Tree K W) (s : S), Valid a → Valid b → Ent P a → Ent Q b → LeftC P a b (leftWithGoC e f fuel a b s)
  | 0, P, Q, _, _, a, b, s, va, _, ea, _ => ⟨va, ea, by simp [leftWithGoC]⟩
  | fuel + 1, P, Q, hcl, hf, a, b, s, va, vb, ea, eb => finishC_left hcl (leftWithCasesC_ok hcl hf (fun p => LeftC.recOk fun x y s vx vy ex ey =>
      leftWithGoC_left f fuel _ _ (hcl.under p) (fun k v w s => hf (p ++ k) v w s) x y s vx vy ex ey) (sit va vb ea eb) s)

theorem removePrefixGoC_left (f : PredE S W) : ∀ (fuel : Nat) (P : List K → V → Prop) (Q : List K → W → Prop), Closed e P Q →
    ∀ (a : Tree K V) (b : Tree K W) (s : S), Valid a → Valid b → Ent P a → Ent Q b → LeftC P a b (removePrefixGoC e f fuel a b s)
  | 0, P, Q, _, a, b, s, va, _, ea, _ => ⟨va, ea, by simp [removePrefixGoC]⟩
  | fuel + 1, P, Q, hcl, a, b, s, va, vb, ea, eb => finishC_left hcl (removePrefixCasesC_ok hcl (fun p => LeftC.recOk fun x y s vx vy ex ey =>
      removePrefixGoC_left f fuel _ _ (hcl.under p) x y s vx vy ex ey) (sit va vb ea eb) s)

theorem retainPrefixGoC_left (f : PredE S W) : ∀ (fuel : Nat) (P : List K → V → Prop) (Q : List K → W → Prop), Closed e P Q →
    ∀ (a : Tree K V) (b : Tree K W) (s : S), Valid a → Valid b → Ent P a → Ent Q b → LeftC P a b (retainPrefixGoC e f fuel a b s)
  | 0, P, Q, _, a, b, s, va, _, ea, _ => ⟨va, ea, by simp [retainPrefixGoC]⟩
  | fuel + 1, P, Q, hcl, a, b, s, va, vb, ea, eb => finishC_left hcl (retainPrefixCasesC_ok hcl (fun p => LeftC.recOk fun x y s vx vy ex ey =>
      retainPrefixGoC_left f fuel _ _ (hcl.under p) x y s vx vy ex ey) (sit va vb ea eb) s)

end

section outer
variable {K V S : Type _} [Ord K] [TransOrd K] [LawfulEqOrd K] [DecidableEq K] {e : Clones S V V} {P Q : List K → V → Prop} {a b : Tree K V} {n : Nat}
  {rec : Tree K V → Tree K V → S → (Tree K V × S) × Flow} {takeA : Bool}

/-- clones of the values of the other tree are good values -/
def CopyOk (e : Clones S V V) (P Q : List K → V → Prop) : Prop := ∀ k w s w' s', Q k w → e.other w s = (.ret w', s') → P k w'

theorem outerValC_P {f : MutFnE S V V} (hf : FnOk f P Q) (hcp : CopyOk e P Q) {k : List K} {v w : Option V} (s : S) (hv : ∀ x, v = some x → P k x)
    (hw : ∀ x, w = some x → Q k x) : ∀ x, (outerValC e f v w s).1.1 = some x → P k x := by
  cases w with
  | none => exact hv
  | some w =>
    cases v with
    | some v => exact applyMutE_P hf s (hv v rfl) (hw w rfl)
    | none =>
      simp only [outerValC]
      rcases hc : e.other w s with ⟨r, s'⟩
      rcases r with w' | _
      · simpa using hcp k w s w' s' (hw w rfl) hc
      · simp

theorem convOk_mat (hcp : CopyOk e P Q) : ConvOkC P Q fun t => t.materializeShortenedC e.other 0 := by
  intro y s z s' vy ey h
  obtain ⟨_, h2, h3, h4⟩ := materializeC_ent y Q P hcp 0 s z s' vy ey h
  refine ⟨h2, ?_, by simpa using h4⟩
  intro k v hk
  simpa [under] using h3 k v hk

theorem kids_pair {x y : Tree K V} (vx : Valid x) (vy : Valid y) (hx : x.pre ≠ []) (hy : y.pre ≠ []) (hne : hd x ≠ hd y) : Kids (sortKids [x, y]) := by
  have hs : sortKids [x, y] = if headCmp x y != .gt then [x, y] else [y, x] := by
    simp [sortKids, stableSortBy, List.mergeSort, List.MergeSort.Internal.splitInTwo, List.merge]
  rw [hs]
  split
  · rename_i h
    refine ⟨by simp [hx, hy], ?_, by simp [vx, vy]⟩
    simp only [AscendingBy, List.pairwise_cons, List.mem_singleton, forall_eq, List.not_mem_nil, false_implies, implies_true, List.Pairwise.nil, and_true]
    rw [headCmp_eq] at h
    rcases hc : compare (hd x) (hd y) with _ | _ | _
    · rfl
    · exact absurd (cmp_eq_iff.1 hc) hne
    · simp [hc] at h
  · rename_i h
    refine ⟨by simp [hx, hy], ?_, by simp [vx, vy]⟩
    simp only [AscendingBy, List.pairwise_cons, List.mem_singleton, forall_eq, List.not_mem_nil, false_implies, implies_true, List.Pairwise.nil, and_true]
    rw [headCmp_eq] at h
    exact cmp_gt_iff.1 (by simpa using h)

theorem outerWithCasesC_ok {f : MutFnE S V V} (hcl : Closed e P Q) (hcp : CopyOk e P Q) (hf : FnOk f P Q)
    (hrec : ∀ p, RecOkC (under p P) (under p Q) rec) (h : Sit P Q a b n) (s : S) :
    Mid P a n (outerWithCasesC e (inPlaceOpC takeA (some fun t => t.materializeShortenedC e.other 0) rec) f n a b s).1.1 := by
  have hs := ok_self h.va h.ea
  have hconv : ∀ p conv, (some fun t : Tree K V => t.materializeShortenedC e.other 0) = some conv → ConvOkC (under p P) (under p Q) conv := by
    intro p c hc; cases hc
    exact convOk_mat fun k => hcp (p ++ k)
  unfold outerWithCasesC
  split
  · rename_i h1
    have he := h.pre h1
    left
    have hv := hs.setVal (outerValC_P (e := e) hf hcp s hs.valP (by rw [← he]; exact h.valB))
    refine andThen_all (J := fun x : Tree K V × S => Ok P a.pre x.1) hv fun _ => ?_
    rw [← he]
    refine kids_okC hcl hconv hrec h ?_
    rw [he]
    exact hv
  · split
    · exact .inl (above_okC hcl hconv hrec h ‹_› hs s)
    · have := h.la
      have ha : n < a.pre.length := by omega
      have h0 := split_ok' ha h.va h.ea
      split
      · rename_i h2
        right
        refine andThen_all (J := fun x : Tree K V × S => Ok P (a.pre.take n) x.1) h0 fun _ => ?_
        have he := h.preB h2
        have hv := h0.setVal (outerValC_P (e := e) hf hcp s h0.valP (by rw [he]; exact h.valB))
        refine andThen_all (J := fun x : Tree K V × S => Ok P (a.pre.take n) x.1) hv fun _ => ?_
        rw [he] at hv ⊢
        exact kids_okC hcl hconv hrec h hv
      · right
        refine andThen_all (J := fun x : Tree K V × S => Ok P (a.pre.take n) x.1) h0 fun _ => ?_
        refine withMatC_all (J := fun x : Tree K V × S => Ok P (a.pre.take n) x.1) (fun _ => h0) fun z s' hz => ?_
        obtain ⟨m1, m2, m3, m4⟩ := materializeC_ent b Q P hcp n s z s' h.vb h.eb hz
        have hzp : z.pre ≠ [] := by rw [m4]; simp; omega
        have hzh : hd z = hd (b.shorten n) := by simp [hd, m4, shorten]
        rw [← h.tk] at m3
        simp only [split_eq ha, List.singleton_append]
        have hk := kids_pair (h.va.shorten n) m2 (shorten_ne ha) hzp (by rw [hzh]; exact h.df ha m1)
        rw [if_pos (by simp [headed, shorten_ne ha, hzp])]
        refine ⟨valid_iff.2 hk, ent_iff.2 ⟨by simp, ?_⟩, rfl⟩
        refine EntL.sub (ks := [a.shorten n, z]) ((entL_single (ent_shorten h.ea n)).append (entL_single m3)) ?_
        intro c hc
        simpa [sortKids, stableSortBy] using hc

theorem outerWithGoC_left (f : MutFnE S V V) : ∀ (fuel : Nat) (P Q : List K → V → Prop), Closed e P Q → CopyOk e P Q → FnOk f P Q →
    ∀ (a b : Tree K V) (s : S), Valid a → Valid b → Ent P a → Ent Q b → LeftC P a b (outerWithGoC e f fuel a b s)
  | 0, P, Q, _, _, _, a, b, s, va, _, ea, _ => ⟨va, ea, by simp [outerWithGoC]⟩
  | fuel + 1, P, Q, hcl, hcp, hf, a, b, s, va, vb, ea, eb => finishC_left hcl (outerWithCasesC_ok hcl hcp hf (fun p => LeftC.recOk fun x y s vx vy ex ey =>
      outerWithGoC_left f fuel _ _ (hcl.under p) (fun k => hcp (p ++ k)) (fun k v w s => hf (p ++ k) v w s) x y s vx vy ex ey) (sit va vb ea eb) s)

end outer
end Tree
end Verif
