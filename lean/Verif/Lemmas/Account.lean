import Verif.Model.InPlaceBuilder
import Verif.Spec.Schedule
/-!
# Lemmas for C57: the slot-level builder refines the two-list state, and no element is lost or duplicated
-/
namespace Verif

namespace Builder
variable {α : Type _}

/-- the buffer is `tgt`, then `g` empty slots, then `src` -/
structure RepG (b : Builder α) (tgt : List α) (g : Nat) (src : List α) : Prop where
  slots : b.slots = tgt.map some ++ (List.replicate g none ++ src.map some)
  t1 : b.t1 = tgt.length
  s0 : b.s0 = tgt.length + g
  fault : b.fault = false

theorem new_rep (v : List α) : (new v).RepG [] 0 v := ⟨by simp [new], rfl, rfl, rfl⟩

theorem get_s0 {b : Builder α} {tgt g src x} (h : b.RepG tgt g (x :: src)) :
    b.slots[b.s0]? = some (some x) := by
  rw [h.slots, h.s0, List.getElem?_append_right (by simp)]
  rw [List.getElem?_append_right (by simp)]
  simp

theorem set_s0 (tgt : List α) (g : Nat) (src : List α) (x : α) :
    (tgt.map some ++ (List.replicate g none ++ (x :: src).map some)).set (tgt.length + g) none =
      tgt.map some ++ (List.replicate (g + 1) none ++ src.map some) := by
  have e : tgt.length + g = (tgt.map (some : α → Option α)).length + (List.replicate g (none : Option α)).length := by simp
  rw [List.set_append, if_neg (by simp), List.set_append, if_neg (by simp)]
  simp [List.replicate_succ']

theorem get_t1 {b : Builder α} {tgt g src} (h : b.RepG tgt (g + 1) src) :
    b.slots[b.t1]? = some none := by
  rw [h.slots, h.t1, List.getElem?_append_right (by simp)]
  simp [List.replicate_succ]

theorem set_t1 (tgt : List α) (g : Nat) (src : List α) (x : α) :
    (tgt.map some ++ (List.replicate (g + 1) none ++ src.map some)).set tgt.length (some x) =
      (tgt ++ [x]).map some ++ (List.replicate g none ++ src.map some) := by
  rw [List.set_append, if_neg (by simp)]
  simp [List.replicate_succ]

theorem len_rep {b : Builder α} {tgt g src} (h : b.RepG tgt g src) : b.slots.length = tgt.length + g + src.length := by
  rw [h.slots]; simp; omega

theorem sourceSlice_rep {b : Builder α} {tgt g src} (h : b.RepG tgt g src) : b.sourceSlice = src := by
  unfold sourceSlice
  rw [h.slots, h.s0, List.drop_append, List.drop_append, List.drop_of_length_le (by simp)]
  simp

theorem popFront_cons {b : Builder α} {tgt g x src} (h : b.RepG tgt g (x :: src)) :
    ∃ b', b.popFront = (some x, b') ∧ b'.RepG tgt (g + 1) src ∧ b'.drops = b.drops := by
  have hl := len_rep h
  have hs := h.s0
  refine ⟨{ b with slots := b.slots.set b.s0 none, s0 := b.s0 + 1 }, ?_, ?_, ?_⟩
  · unfold popFront
    rw [if_pos (by simp at hl; omega)]
    simp [moveOut, get_s0 h]
  · exact ⟨by simp only; rw [h.slots, h.s0, set_s0], h.t1, by simp only; omega, h.fault⟩
  · rfl

theorem popFront_nil {b : Builder α} {tgt g} (h : b.RepG tgt g []) : b.popFront = (none, b) := by
  have hl := len_rep h
  have hs := h.s0
  unfold popFront
  rw [if_neg (by simp at hl; omega)]

theorem reserve_rep (pol : Nat → Nat) {b : Builder α} {tgt g src} (h : b.RepG tgt g src) (n : Nat) :
    (∃ g', n ≤ g' ∧ (b.reserve pol n).RepG tgt g' src) ∧ (b.reserve pol n).drops = b.drops := by
  have h1 := h.t1
  have h2 := h.s0
  unfold reserve
  split
  · refine ⟨⟨g + (n + pol (b.slots.length + n)), by omega, ?_, h.t1, by simp only; omega, h.fault⟩, rfl⟩
    simp only
    rw [h.slots, h.s0]
    rw [List.take_append, List.drop_append, List.take_append, List.drop_append]
    simp only [List.length_map, List.length_replicate, List.append_assoc]
    rw [List.take_of_length_le (by simp), List.drop_of_length_le (by simp)]
    simp [← List.replicate_append_replicate, ← List.append_assoc]
  · exact ⟨⟨g, by omega, h⟩, rfl⟩

theorem pushUnsafe_rep {b : Builder α} {tgt g src} (h : b.RepG tgt (g + 1) src) (x : α) :
    (b.pushUnsafe x).RepG (tgt ++ [x]) g src ∧ (b.pushUnsafe x).drops = b.drops := by
  have h1 := h.t1
  have h2 := h.s0
  unfold pushUnsafe
  rw [if_pos (by omega)]
  unfold write
  rw [get_t1 h]
  refine ⟨⟨?_, by simp [h1], by simp; omega, h.fault⟩, rfl⟩
  simp only
  rw [h.slots, h.t1, set_t1]

theorem push_rep (pol : Nat → Nat) {b : Builder α} {tgt g src} (h : b.RepG tgt g src) (x : α) :
    (∃ g', (b.push pol x).RepG (tgt ++ [x]) g' src) ∧ (b.push pol x).drops = b.drops := by
  obtain ⟨⟨g', hg, h'⟩, hd⟩ := reserve_rep pol h 1
  obtain ⟨g'', rfl⟩ : ∃ k, g' = k + 1 := ⟨g' - 1, by omega⟩
  have := pushUnsafe_rep h' x
  exact ⟨⟨g'', this.1⟩, by unfold push; rw [this.2, hd]⟩

theorem takeOne_rep {b : Builder α} {tgt g x src} (h : b.RepG tgt g (x :: src)) :
    b.takeOne.RepG (tgt ++ [x]) g src ∧ b.takeOne.drops = b.drops := by
  have h1 := h.t1
  have h2 := h.s0
  unfold takeOne
  split
  · have : g = 0 := by omega
    subst this
    refine ⟨⟨?_, by simp [h1], by simp [h2], h.fault⟩, rfl⟩
    simp [h.slots]
  · obtain ⟨k, rfl⟩ : ∃ k, g = k + 1 := ⟨g - 1, by omega⟩
    have hm : b.moveOut b.s0 = (some x, { b with slots := b.slots.set b.s0 none }) := by
      simp [moveOut, get_s0 h]
    rw [hm]
    simp only
    have hr : ({ b with slots := b.slots.set b.s0 none, s0 := b.s0 + 1 } : Builder α).RepG tgt (k + 1 + 1) src :=
      ⟨by simp only; rw [h.slots, h.s0, set_s0], h.t1, by simp only; omega, h.fault⟩
    have hg := get_t1 hr
    simp only at hg
    unfold write
    simp only [hg]
    refine ⟨⟨?_, by simp [h1], by simp; omega, h.fault⟩, by trivial⟩
    have := hr.slots
    simp only at this ⊢
    rw [this, h.t1, set_t1]

theorem dropOne_rep {b : Builder α} {tgt g x src} (h : b.RepG tgt g (x :: src)) :
    b.dropOne.RepG tgt (g + 1) src ∧ b.dropOne.drops = b.drops ++ [x] := by
  have h2 := h.s0
  unfold dropOne dropAt
  rw [get_s0 h]
  refine ⟨⟨?_, h.t1, by simp only; omega, h.fault⟩, rfl⟩
  simp only
  rw [h.slots, h.s0, set_s0]

theorem iter_take {n : Nat} {b : Builder α} {tgt g src} (h : b.RepG tgt g src) (hn : n ≤ src.length) :
    (iter takeOne n b).RepG (tgt ++ src.take n) g (src.drop n) ∧ (iter takeOne n b).drops = b.drops := by
  induction n generalizing b tgt src with
  | zero => simpa [iter] using h
  | succ n ih =>
    cases src with
    | nil => simp at hn
    | cons x src =>
      have h1 := takeOne_rep h
      have := ih h1.1 (by simpa using hn)
      simp only [iter, List.take_succ_cons, List.drop_succ_cons]
      rw [this.2, h1.2]
      exact ⟨by simpa using this.1, rfl⟩

theorem iter_drop {n : Nat} {b : Builder α} {tgt g src} (h : b.RepG tgt g src) (hn : n ≤ src.length) :
    (iter dropOne n b).RepG tgt (g + n) (src.drop n) ∧ (iter dropOne n b).drops = b.drops ++ src.take n := by
  induction n generalizing b g src with
  | zero => simpa [iter] using h
  | succ n ih =>
    cases src with
    | nil => simp at hn
    | cons x src =>
      have h1 := dropOne_rep h
      have := ih h1.1 (by simpa using hn)
      simp only [iter, List.take_succ_cons, List.drop_succ_cons]
      rw [this.2, h1.2]
      refine ⟨?_, by simp⟩
      have e : g + (n + 1) = g + 1 + n := by omega
      rw [e]; exact this.1

theorem consume_take {b : Builder α} {tgt g src} (h : b.RepG tgt g src) (n : Nat) :
    (b.consume n true).RepG (tgt ++ src.take (min n src.length)) g (src.drop (min n src.length)) ∧
      (b.consume n true).drops = b.drops := by
  have hl := len_rep h
  have hs := h.s0
  unfold consume
  have : b.slots.length - b.s0 = src.length := by omega
  rw [this]
  exact iter_take h (by omega)

theorem consume_drop {b : Builder α} {tgt g src} (h : b.RepG tgt g src) (n : Nat) :
    (b.consume n false).RepG tgt (g + min n src.length) (src.drop (min n src.length)) ∧
      (b.consume n false).drops = b.drops ++ src.take (min n src.length) := by
  have hl := len_rep h
  have hs := h.s0
  unfold consume
  have : b.slots.length - b.s0 = src.length := by omega
  rw [this]
  exact iter_drop h (by omega)

theorem finish_rep {b : Builder α} {tgt g src} (h : b.RepG tgt g src) :
    b.finish.slots = tgt.map some ∧ b.finish.fault = false ∧ b.finish.drops = b.drops ++ src := by
  have hl := len_rep h
  have hs := h.s0
  unfold finish
  have : b.slots.length - b.s0 = src.length := by omega
  rw [this]
  have hd := iter_drop h (Nat.le_refl _)
  refine ⟨?_, hd.1.fault, by simpa using hd.2⟩
  simp only
  rw [hd.1.slots, hd.1.t1, List.take_append, List.take_of_length_le (by simp)]
  simp

end Builder

/-! ### Simulation -/

/-- the slot-level state represents the two-list state -/
structure Refines {A B : Type _} (s : SlotMS A B) (l : InPlaceMS A B) : Prop where
  rep : ∃ g, s.bld.RepG l.tgt g l.src
  b : s.b = l.b

/-- two callbacks of the same shape preserve `R` and agree on the outcome -/
def SimOp {A B : Type _} (R : SlotMS A B → InPlaceMS A B → Prop) (o1 : MergeOp (SlotMS A B) A B)
    (o2 : MergeOp (InPlaceMS A B) A B) : Prop :=
  (∀ a b, o1.cmp a b = o2.cmp a b) ∧
  (∀ s l, R s l → ∀ n, R (o1.fromA s n).1 (o2.fromA l n).1 ∧ (o1.fromA s n).2 = (o2.fromA l n).2) ∧
  (∀ s l, R s l → ∀ n, R (o1.fromB s n).1 (o2.fromB l n).1 ∧ (o1.fromB s n).2 = (o2.fromB l n).2) ∧
  (∀ s l, R s l → R (o1.collision s).1 (o2.collision l).1 ∧ (o1.collision s).2 = (o2.collision l).2)

section sim
variable {A B : Type _} {R : SlotMS A B → InPlaceMS A B → Prop}

theorem andThen_sim {r1 : SlotMS A B × Flow} {r2 : InPlaceMS A B × Flow} {k1 k2}
    (h : R r1.1 r2.1 ∧ r1.2 = r2.2) (hk : ∀ s l, R s l → R (k1 s).1 (k2 l).1 ∧ (k1 s).2 = (k2 l).2) :
    R (andThen r1 k1).1 (andThen r2 k2).1 ∧ (andThen r1 k1).2 = (andThen r2 k2).2 := by
  obtain ⟨s, f⟩ := r1
  obtain ⟨l, f2⟩ := r2
  obtain ⟨h1, h2⟩ := h
  simp only at h1 h2
  subst h2
  unfold andThen
  cases f <;> simp only
  · exact hk s l h1
  all_goals exact ⟨h1, trivial⟩

theorem run_sim {o1 o2} (h : SimOp R o1 o2) (evs : List Ev) :
    ∀ s l, R s l → R (runEvs o1 s evs).1 (runEvs o2 l evs).1 ∧ (runEvs o1 s evs).2 = (runEvs o2 l evs).2 := by
  induction evs with
  | nil => intro s l hr; exact ⟨hr, rfl⟩
  | cons e evs ih =>
    intro s l hr
    cases e with
    | a n => exact andThen_sim (h.2.1 s l hr n) ih
    | b n => exact andThen_sim (h.2.2.1 s l hr n) ih
    | c => exact andThen_sim (h.2.2.2 s l hr) ih

theorem binaryMerge_sim {o1 o2} (h : SimOp R o1 o2) (hR : ∀ s l, R s l → Refines s l) (an bn : Nat) :
    ∀ s l, R s l → R (binaryMerge o1 s an bn).1 (binaryMerge o2 l an bn).1 ∧
      (binaryMerge o1 s an bn).2 = (binaryMerge o2 l an bn).2 := by
  induction an using Nat.strongRecOn generalizing bn with
  | ind an ih =>
    intro s l hr
    have hf := hR s l hr
    have ha : MergeState.aSlice s = l.src := by
      obtain ⟨g, hg⟩ := hf.rep
      exact Builder.sourceSlice_rep hg
    have hb : MergeState.bSlice s = l.b := hf.b
    rw [binaryMerge, binaryMerge]
    split
    · split
      · exact ⟨hr, rfl⟩
      · exact h.2.2.1 s l hr bn
    · split
      · exact h.2.1 s l hr an
      · simp only [ha, hb]
        have ha' : MergeState.aSlice l = l.src := rfl
        have hb' : MergeState.bSlice l = l.b := rfl
        rw [ha', hb']
        cases l.src[an / 2]? with
        | none => exact ⟨hr, rfl⟩
        | some a =>
          simp only
          split
          · exact ⟨hr, rfl⟩
          · have hs : (fun b => (o1.cmp a b).swap) = (fun b => (o2.cmp a b).swap) := by
              funext b; rw [h.1]
            rw [hs]
            split
            · refine andThen_sim (ih _ (by omega) _ s l hr) fun s l hr => ?_
              refine andThen_sim (h.2.2.2 s l hr) fun s l hr => ?_
              exact ih _ (by omega) _ s l hr
            · refine andThen_sim (ih _ (by omega) _ s l hr) fun s l hr => ?_
              refine andThen_sim (h.2.1 s l hr 1) fun s l hr => ?_
              exact ih _ (by omega) _ s l hr

end sim

/-! ### Accounting for the set operations -/
section sets
variable {T : Type _}

/-- refinement, plus: every element of the inputs is in exactly one place, counted with multiplicity -/
structure Acc (a0 b0 : List T) (s : SlotMS T T) (l : InPlaceMS T T) : Prop where
  ref : Refines s l
  acc : ∀ p : T → Bool, l.tgt.countP p + l.src.countP p + s.bld.drops.countP p + (s.b.countP p + s.bdrops.countP p) =
    a0.countP p + b0.countP p

theorem countP_split (p : T → Bool) (n : Nat) (l : List T) : (l.take n).countP p + (l.drop n).countP p = l.countP p := by
  rw [← List.countP_append, List.take_append_drop]

theorem new_acc (a b : List T) : Acc a b (SlotMS.new a b) { tgt := [], src := a, b := b } :=
  ⟨⟨⟨0, Builder.new_rep a⟩, rfl⟩, by intro p; simp [SlotMS.new, Builder.new]⟩

theorem consume_acc {a0 b0 : List T} {s l} (h : Acc a0 b0 s l) (n : Nat) (take : Bool) :
    Acc a0 b0 { s with bld := s.bld.consume n take } (l.consume n take) := by
  obtain ⟨⟨⟨g, hg⟩, hb⟩, hc⟩ := h
  cases take with
  | true =>
    have := Builder.consume_take hg n
    refine ⟨⟨⟨g, ?_⟩, ?_⟩, ?_⟩
    · simpa [InPlaceMS.consume] using this.1
    · simpa [InPlaceMS.consume] using hb
    · intro p
      have h1 := hc p
      have h2 := countP_split p (min n l.src.length) l.src
      simp only [InPlaceMS.consume, this.2, List.countP_append, if_true]
      omega
  | false =>
    have := Builder.consume_drop hg n
    refine ⟨⟨⟨g + min n l.src.length, ?_⟩, ?_⟩, ?_⟩
    · simpa [InPlaceMS.consume] using this.1
    · simpa [InPlaceMS.consume] using hb
    · intro p
      have h1 := hc p
      have h2 := countP_split p (min n l.src.length) l.src
      simp only [InPlaceMS.consume, this.2, List.countP_append, Bool.false_eq_true, if_false]
      omega

theorem skipB_acc {a0 b0 : List T} (n : Nat) {s l} (h : Acc a0 b0 s l) : Acc a0 b0 (s.skipB n) (l.skipB n) := by
  induction n generalizing s l with
  | zero => exact h
  | succ n ih =>
    refine ih ?_
    obtain ⟨⟨hg, hb⟩, hc⟩ := h
    refine ⟨⟨hg, by simp only; rw [hb]⟩, ?_⟩
    intro p
    have h1 := hc p
    have h2 := countP_split p 1 s.b
    simp only [List.countP_append, List.drop_one] at h2 ⊢
    omega

theorem extendLoop_acc {a0 b0 : List T} {conv : T → Call T} (hconv : ∀ x y, conv x = .ret y → y = x) (n : Nat) {s : SlotMS T T}
    {l : InPlaceMS T T} (hg : ∃ g, n ≤ g ∧ s.bld.RepG l.tgt g l.src) (h : Acc a0 b0 s l) :
    Acc a0 b0 (s.extendLoop conv n).1 (l.extendFromIter conv n).1 ∧
      (s.extendLoop conv n).2 = (l.extendFromIter conv n).2 := by
  induction n generalizing s l with
  | zero => exact ⟨h, rfl⟩
  | succ n ih =>
    obtain ⟨g, hn, hg⟩ := hg
    obtain ⟨hr, hc⟩ := h
    have hb := hr.b
    rw [SlotMS.extendLoop, InPlaceMS.extendFromIter, hb]
    cases hlb : l.b with
    | nil => exact ⟨⟨hr, hc⟩, rfl⟩
    | cons x xs =>
      simp only
      cases hx : conv x with
      | panic =>
        refine ⟨⟨⟨hr.rep, rfl⟩, ?_⟩, rfl⟩
        intro p
        have := hc p
        rw [hb, hlb] at this
        simp only [List.countP_append, List.countP_cons, List.countP_nil] at this ⊢
        omega
      | ret y =>
        have hyx := hconv x y hx
        subst hyx
        obtain ⟨g, rfl⟩ : ∃ k, g = k + 1 := ⟨g - 1, by omega⟩
        have hp := Builder.pushUnsafe_rep hg y
        refine ih ⟨g, by omega, hp.1⟩ ⟨⟨⟨g, hp.1⟩, rfl⟩, ?_⟩
        intro p
        have := hc p
        rw [hb, hlb] at this
        simp only [List.countP_append, List.countP_cons, List.countP_nil, hp.2] at this ⊢
        omega

theorem extend_acc {a0 b0 : List T} (pol : Nat → Nat) {conv : T → Call T} (hconv : ∀ x y, conv x = .ret y → y = x) (n : Nat)
    {s l} (h : Acc a0 b0 s l) :
    Acc a0 b0 (s.extendFromIter pol conv n).1 (l.extendFromIter conv n).1 ∧
      (s.extendFromIter pol conv n).2 = (l.extendFromIter conv n).2 := by
  unfold SlotMS.extendFromIter
  split
  · rename_i hn
    subst hn
    exact ⟨h, rfl⟩
  · obtain ⟨⟨⟨g, hg⟩, hb⟩, hc⟩ := h
    obtain ⟨⟨g', hle, h'⟩, hd⟩ := Builder.reserve_rep pol hg n
    refine extendLoop_acc hconv n ⟨g', hle, h'⟩ ⟨⟨⟨g', h'⟩, hb⟩, ?_⟩
    intro p
    have := hc p
    simp only [hd]
    exact this

theorem advB_acc {a0 b0 : List T} (pol : Nat → Nat) {conv : T → Call T} (hconv : ∀ x y, conv x = .ret y → y = x) (n : Nat)
    (take : Bool) {s l} (h : Acc a0 b0 s l) :
    Acc a0 b0 ((SlotMS.mut pol conv).advanceB s n take).1 ((InPlaceMS.mut conv).advanceB l n take).1 ∧
      ((SlotMS.mut pol conv).advanceB s n take).2 = ((InPlaceMS.mut conv).advanceB l n take).2 := by
  cases take with
  | true => exact extend_acc pol hconv n h
  | false => exact ⟨skipB_acc n h, rfl⟩

theorem acc_perm {a0 b0 : List T} {s l} (h : Acc a0 b0 s l) :
    s.finish.bld.fault = false ∧ s.finish.bld.slots = l.tgt.map some ∧
    (l.tgt ++ (s.finish.bld.drops ++ s.finish.bdrops)).Perm (a0 ++ b0) := by
  obtain ⟨⟨⟨g, hg⟩, hb⟩, hc⟩ := h
  have hf := Builder.finish_rep hg
  refine ⟨hf.2.1, hf.1, ?_⟩
  classical
  rw [List.perm_iff_count]
  intro x
  have := hc (· == x)
  simp only [SlotMS.finish, hf.2.2, List.count, List.countP_append]
  omega

variable [Ord T]

theorem union_sim {a0 b0 : List T} (pol : Nat → Nat) {conv : T → Call T} (hconv : ∀ x y, conv x = .ret y → y = x) :
    SimOp (Acc a0 b0) (setUnionOp (SlotMS.mut pol conv)) (setUnionOp (InPlaceMS.mut conv)) :=
  ⟨fun _ _ => rfl, fun _ _ h n => ⟨consume_acc h n true, rfl⟩, fun _ _ h n => advB_acc pol hconv n true h,
   fun _ _ h => andThen_sim ⟨consume_acc h 1 true, rfl⟩ fun _ _ h => advB_acc pol hconv 1 false h⟩

theorem intersection_sim {a0 b0 : List T} (pol : Nat → Nat) {conv : T → Call T} (hconv : ∀ x y, conv x = .ret y → y = x) :
    SimOp (Acc a0 b0) (setIntersectionOp (SlotMS.mut pol conv)) (setIntersectionOp (InPlaceMS.mut conv)) :=
  ⟨fun _ _ => rfl, fun _ _ h n => ⟨consume_acc h n false, rfl⟩, fun _ _ h n => advB_acc pol hconv n false h,
   fun _ _ h => andThen_sim ⟨consume_acc h 1 true, rfl⟩ fun _ _ h => advB_acc pol hconv 1 false h⟩

theorem diff_sim {a0 b0 : List T} (pol : Nat → Nat) {conv : T → Call T} (hconv : ∀ x y, conv x = .ret y → y = x) :
    SimOp (Acc a0 b0) (setDiffOp (SlotMS.mut pol conv)) (setDiffOp (InPlaceMS.mut conv)) :=
  ⟨fun _ _ => rfl, fun _ _ h n => ⟨consume_acc h n true, rfl⟩, fun _ _ h n => advB_acc pol hconv n false h,
   fun _ _ h => andThen_sim ⟨consume_acc h 1 false, rfl⟩ fun _ _ h => advB_acc pol hconv 1 false h⟩

theorem xor_sim {a0 b0 : List T} (pol : Nat → Nat) {conv : T → Call T} (hconv : ∀ x y, conv x = .ret y → y = x) :
    SimOp (Acc a0 b0) (setXorOp (SlotMS.mut pol conv)) (setXorOp (InPlaceMS.mut conv)) :=
  ⟨fun _ _ => rfl, fun _ _ h n => ⟨consume_acc h n true, rfl⟩, fun _ _ h n => advB_acc pol hconv n true h,
   fun _ _ h => andThen_sim ⟨consume_acc h 1 false, rfl⟩ fun _ _ h => advB_acc pol hconv 1 false h⟩

end sets

/-! ### The map joins -/
section maps
variable {A B : Type _}

theorem Refines.popFront {s : SlotMS A B} {l : InPlaceMS A B} (h : Refines s l) :
    (l.src = [] ∧ s.bld.popFront = (none, s.bld)) ∨
    ∃ x xs bld, l.src = x :: xs ∧ s.bld.popFront = (some x, bld) ∧ (∃ g, bld.RepG l.tgt g xs) := by
  obtain ⟨⟨g, hg⟩, hb⟩ := h
  cases hs : l.src with
  | nil => rw [hs] at hg; exact .inl ⟨rfl, Builder.popFront_nil hg⟩
  | cons x xs =>
    rw [hs] at hg
    obtain ⟨b', h1, h2, _⟩ := Builder.popFront_cons hg
    exact .inr ⟨x, xs, b', rfl, h1, _, h2⟩

theorem loopA_sim (pol : Nat → Nat) (g : A → Call (Option A)) (n : Nat) : ∀ (s : SlotMS A B) (l : InPlaceMS A B), Refines s l →
    Refines (s.loopA pol g n).1 (l.loopA g n).1 ∧ (s.loopA pol g n).2 = (l.loopA g n).2 := by
  induction n with
  | zero => intro s l h; exact ⟨h, rfl⟩
  | succ n ih =>
    intro s l h
    rw [SlotMS.loopA, InPlaceMS.loopA]
    rcases h.popFront with ⟨h1, h2⟩ | ⟨x, xs, bld, h1, h2, k, hk⟩
    · rw [h1, h2]; exact ih s l h
    · rw [h1, h2]
      simp only
      cases hx : g x with
      | panic => exact ⟨⟨⟨k, hk⟩, h.b⟩, rfl⟩
      | ret o =>
        cases o with
        | none => exact ih _ _ ⟨⟨k, by simpa using hk⟩, h.b⟩
        | some y => exact ih _ _ ⟨(Builder.push_rep pol hk y).1, h.b⟩

theorem loopB_sim (pol : Nat → Nat) (g : B → Call (Option A)) (n : Nat) : ∀ (s : SlotMS A B) (l : InPlaceMS A B), Refines s l →
    Refines (s.loopB pol g n).1 (l.loopB g n).1 ∧ (s.loopB pol g n).2 = (l.loopB g n).2 := by
  induction n with
  | zero => intro s l h; exact ⟨h, rfl⟩
  | succ n ih =>
    intro s l h
    rw [SlotMS.loopB, InPlaceMS.loopB, h.b]
    cases hb : l.b with
    | nil => exact ih s l h
    | cons x xs =>
      simp only
      obtain ⟨k, hk⟩ := h.rep
      cases hx : g x with
      | panic => exact ⟨⟨⟨k, hk⟩, rfl⟩, rfl⟩
      | ret o =>
        cases o with
        | none => exact ih _ _ ⟨⟨k, by simpa using hk⟩, rfl⟩
        | some y => exact ih _ _ ⟨(Builder.push_rep pol hk y).1, rfl⟩

theorem both_sim (pol : Nat → Nat) (g : A → B → Call (Option A)) (s : SlotMS A B) (l : InPlaceMS A B) (h : Refines s l) :
    Refines (s.both pol g).1 (l.both g).1 ∧ (s.both pol g).2 = (l.both g).2 := by
  rw [SlotMS.both, InPlaceMS.both]
  rcases h.popFront with ⟨h1, h2⟩ | ⟨x, xs, bld, h1, h2, k, hk⟩
  · rw [h1, h2]; exact ⟨h, rfl⟩
  · rw [h1, h2, h.b]
    simp only
    cases hb : l.b with
    | nil => exact ⟨⟨⟨k, hk⟩, by simp [h.b, hb]⟩, rfl⟩
    | cons y ys =>
      simp only
      cases hx : g x y with
      | panic => exact ⟨⟨⟨k, hk⟩, rfl⟩, rfl⟩
      | ret o =>
        cases o with
        | none => exact ⟨⟨⟨k, by simpa using hk⟩, rfl⟩, rfl⟩
        | some y => exact ⟨⟨(Builder.push_rep pol hk y).1, rfl⟩, rfl⟩

theorem dropB_sim (n : Nat) (s : SlotMS A B) (l : InPlaceMS A B) (h : Refines s l) :
    Refines (s.dropB n).1 (l.dropB n).1 ∧ (s.dropB n).2 = (l.dropB n).2 := by
  rw [SlotMS.dropB, InPlaceMS.dropB, h.b]
  split
  · exact ⟨h, rfl⟩
  · exact ⟨⟨h.rep, rfl⟩, rfl⟩

theorem consume_sim (n : Nat) (s : SlotMS A B) (l : InPlaceMS A B) (h : Refines s l) :
    Refines { s with bld := s.bld.consume n false } (l.consume n false) := by
  obtain ⟨⟨g, hg⟩, hb⟩ := h
  have := Builder.consume_drop hg n
  exact ⟨⟨_, by simpa [InPlaceMS.consume] using this.1⟩, by simpa [InPlaceMS.consume] using hb⟩

variable {K V W : Type _} [Ord K]

theorem outer_sim (pol : Nat → Nat) (f : OuterJoinArg K V W → Call (Option V)) :
    SimOp Refines (slotOuterJoinOp pol f) (outerJoinWithOp f) :=
  ⟨fun _ _ => rfl, fun s l h n => loopA_sim pol _ n s l h, fun s l h n => loopB_sim pol _ n s l h,
   fun s l h => both_sim pol _ s l h⟩
theorem left_sim (pol : Nat → Nat) (f : K → V → Option W → Call (Option V)) :
    SimOp Refines (slotLeftJoinOp pol f) (leftJoinWithOp f) :=
  ⟨fun _ _ => rfl, fun s l h n => loopA_sim pol _ n s l h, fun s l h n => dropB_sim n s l h,
   fun s l h => both_sim pol _ s l h⟩
theorem right_sim (pol : Nat → Nat) (f : K → Option V → W → Call (Option V)) :
    SimOp Refines (slotRightJoinOp pol f) (rightJoinWithOp f) :=
  ⟨fun _ _ => rfl, fun s l h n => ⟨consume_sim n s l h, rfl⟩, fun s l h n => loopB_sim pol _ n s l h,
   fun s l h => both_sim pol _ s l h⟩
theorem inner_sim (pol : Nat → Nat) (f : K → V → W → Call (Option V)) :
    SimOp Refines (slotInnerJoinOp pol f) (innerJoinWithOp f) :=
  ⟨fun _ _ => rfl, fun s l h n => ⟨consume_sim n s l h, rfl⟩, fun s l h n => dropB_sim n s l h,
   fun s l h => both_sim pol _ s l h⟩

theorem new_refines (a : List A) (b : List B) : Refines (SlotMS.new a b) { tgt := [], src := a, b := b } :=
  ⟨⟨0, Builder.new_rep a⟩, rfl⟩

theorem Refines.finish {s : SlotMS A B} {l : InPlaceMS A B} (h : Refines s l) :
    s.finish.bld.fault = false ∧ s.finish.bld.slots = l.tgt.map some := by
  obtain ⟨⟨g, hg⟩, hb⟩ := h
  have hf := Builder.finish_rep hg
  exact ⟨hf.2.1, hf.1⟩

/-! ### Keys of the map joins at list level: each key of the result is the key of exactly one input entry -/

/-- every key of the inputs is in exactly one place: in the target, the source, the right iterator, or gone -/
def KeyAcc (a0 : List (K × V)) (b0 : List (K × W)) (l : InPlaceMS (K × V) (K × W)) : Prop :=
  ∃ gone : List K, ∀ p : K → Bool,
    (l.tgt.map (·.1)).countP p + (l.src.map (·.1)).countP p + (l.b.map (·.1)).countP p + gone.countP p =
    (a0.map (·.1)).countP p + (b0.map (·.1)).countP p

/-- a callback keeps the key of its entry -/
def KeepsKey (g : K × V → Call (Option (K × V))) : Prop := ∀ x y, g x = .ret (some y) → y.1 = x.1

omit [Ord K] in
theorem withKey_keeps {R : Type _} {c : Call (Option R)} {k : K} {y : K × R} (h : c.withKey k = .ret (some y)) : y.1 = k := by
  cases c with
  | panic => simp [Call.withKey] at h
  | ret o =>
    cases o with
    | none => simp [Call.withKey] at h
    | some r => simp [Call.withKey] at h; rw [← h]

omit [Ord K] in
theorem loopA_keys {a0 : List (K × V)} {b0 : List (K × W)} (g : K × V → Call (Option (K × V)))
    (hg : ∀ x y, g x = .ret (some y) → y.1 = x.1) (n : Nat) :
    ∀ l, KeyAcc a0 b0 l → KeyAcc a0 b0 (l.loopA g n).1 := by
  induction n with
  | zero => intro l h; exact h
  | succ n ih =>
    intro l h
    obtain ⟨gone, h⟩ := h
    rw [InPlaceMS.loopA]
    cases hs : l.src with
    | nil => exact ih l ⟨gone, h⟩
    | cons x xs =>
      simp only
      rw [hs] at h
      cases hx : g x with
      | panic =>
        refine ⟨x.1 :: gone, fun p => ?_⟩
        have := h p
        simp only [List.map_cons, List.countP_cons] at this ⊢
        omega
      | ret o =>
        refine ih _ ?_
        cases o with
        | none =>
          refine ⟨x.1 :: gone, fun p => ?_⟩
          have := h p
          simp only [List.map_cons, List.countP_cons, Option.toList_none, List.append_nil] at this ⊢
          omega
        | some y =>
          refine ⟨gone, fun p => ?_⟩
          have := h p
          have hy := hg x y hx
          simp only [List.map_cons, List.countP_cons, Option.toList_some, List.map_append, List.countP_append, List.map_nil,
            List.countP_nil, hy] at this ⊢
          omega

omit [Ord K] in
theorem loopB_keys {a0 : List (K × V)} {b0 : List (K × W)} (g : K × W → Call (Option (K × V)))
    (hg : ∀ x y, g x = .ret (some y) → y.1 = x.1) (n : Nat) :
    ∀ l, KeyAcc a0 b0 l → KeyAcc a0 b0 (l.loopB g n).1 := by
  induction n with
  | zero => intro l h; exact h
  | succ n ih =>
    intro l h
    obtain ⟨gone, h⟩ := h
    rw [InPlaceMS.loopB]
    cases hs : l.b with
    | nil => exact ih l ⟨gone, h⟩
    | cons x xs =>
      simp only
      rw [hs] at h
      cases hx : g x with
      | panic =>
        refine ⟨x.1 :: gone, fun p => ?_⟩
        have := h p
        simp only [List.map_cons, List.countP_cons] at this ⊢
        omega
      | ret o =>
        refine ih _ ?_
        cases o with
        | none =>
          refine ⟨x.1 :: gone, fun p => ?_⟩
          have := h p
          simp only [List.map_cons, List.countP_cons, Option.toList_none, List.append_nil] at this ⊢
          omega
        | some y =>
          refine ⟨gone, fun p => ?_⟩
          have := h p
          have hy := hg x y hx
          simp only [List.map_cons, List.countP_cons, Option.toList_some, List.map_append, List.countP_append, List.map_nil,
            List.countP_nil, hy] at this ⊢
          omega

omit [Ord K] in
theorem both_keys {a0 : List (K × V)} {b0 : List (K × W)} (g : K × V → K × W → Call (Option (K × V)))
    (hg : ∀ x y z, g x y = .ret (some z) → z.1 = x.1) (l) (h : KeyAcc a0 b0 l) : KeyAcc a0 b0 (l.both g).1 := by
  obtain ⟨gone, h⟩ := h
  rw [InPlaceMS.both]
  cases hs : l.src with
  | nil => exact ⟨gone, h⟩
  | cons x xs =>
    rw [hs] at h
    simp only
    cases hb : l.b with
    | nil =>
      refine ⟨x.1 :: gone, fun p => ?_⟩
      have := h p
      rw [hb] at this
      simp only [List.map_cons, List.countP_cons] at this ⊢
      omega
    | cons y ys =>
      rw [hb] at h
      simp only
      cases hx : g x y with
      | panic =>
        refine ⟨x.1 :: y.1 :: gone, fun p => ?_⟩
        have := h p
        simp only [List.map_cons, List.countP_cons] at this ⊢
        omega
      | ret o =>
        cases o with
        | none =>
          refine ⟨x.1 :: y.1 :: gone, fun p => ?_⟩
          have := h p
          simp only [List.map_cons, List.countP_cons, Option.toList_none, List.append_nil] at this ⊢
          omega
        | some z =>
          refine ⟨y.1 :: gone, fun p => ?_⟩
          have := h p
          have hz := hg x y z hx
          simp only [List.map_cons, List.countP_cons, Option.toList_some, List.map_append, List.countP_append, List.map_nil,
            List.countP_nil, hz] at this ⊢
          omega

omit [Ord K] in
theorem dropB_keys {a0 : List (K × V)} {b0 : List (K × W)} (n : Nat) (l) (h : KeyAcc a0 b0 l) : KeyAcc a0 b0 (l.dropB n).1 := by
  rw [InPlaceMS.dropB]
  split
  · exact h
  · obtain ⟨gone, h⟩ := h
    refine ⟨(l.b.take n).map (·.1) ++ gone, fun p => ?_⟩
    have h1 := h p
    have h2 := countP_split p n (l.b.map (·.1))
    simp only [List.countP_append, List.map_take, List.map_drop]
    omega

omit [Ord K] in
theorem consume_keys {a0 : List (K × V)} {b0 : List (K × W)} (n : Nat) (l) (h : KeyAcc a0 b0 l) :
    KeyAcc a0 b0 (l.consume n false) := by
  obtain ⟨gone, h⟩ := h
  refine ⟨(l.src.take (min n l.src.length)).map (·.1) ++ gone, fun p => ?_⟩
  have h1 := h p
  have h2 := countP_split p (min n l.src.length) (l.src.map (·.1))
  simp only [InPlaceMS.consume, Bool.false_eq_true, if_false, List.countP_append, List.map_take, List.map_drop]
  omega

/-- the operation preserves `P` -/
def Preserves {σ A B : Type _} (P : σ → Prop) (o : MergeOp σ A B) : Prop :=
  (∀ s, P s → ∀ n, P (o.fromA s n).1) ∧ (∀ s, P s → ∀ n, P (o.fromB s n).1) ∧ (∀ s, P s → P (o.collision s).1)

theorem andThen_pres {σ : Type _} {P : σ → Prop} {r : σ × Flow} {k} (h : P r.1) (hk : ∀ s, P s → P (k s).1) :
    P (andThen r k).1 := by
  obtain ⟨s, f⟩ := r
  unfold andThen
  cases f <;> simp only
  · exact hk s h
  all_goals exact h

theorem run_pres {σ A B : Type _} {P : σ → Prop} {o : MergeOp σ A B} (h : Preserves P o) (evs : List Ev) :
    ∀ s, P s → P (runEvs o s evs).1 := by
  induction evs with
  | nil => intro s hs; exact hs
  | cons e evs ih =>
    intro s hs
    cases e with
    | a n => exact andThen_pres (h.1 s hs n) ih
    | b n => exact andThen_pres (h.2.1 s hs n) ih
    | c => exact andThen_pres (h.2.2 s hs) ih

theorem binaryMerge_pres {σ A B : Type _} [MergeState σ A B] {P : σ → Prop} {o : MergeOp σ A B} (h : Preserves P o) (an bn : Nat) :
    ∀ s, P s → P (binaryMerge o s an bn).1 := by
  induction an using Nat.strongRecOn generalizing bn with
  | ind an ih =>
    intro s hs
    rw [binaryMerge]
    split
    · split
      · exact hs
      · exact h.2.1 s hs bn
    · split
      · exact h.1 s hs an
      · simp only
        split
        · exact hs
        · split
          · exact hs
          · split
            · refine andThen_pres (ih _ (by omega) _ s hs) fun s hs => ?_
              refine andThen_pres (h.2.2 s hs) fun s hs => ?_
              exact ih _ (by omega) _ s hs
            · refine andThen_pres (ih _ (by omega) _ s hs) fun s hs => ?_
              refine andThen_pres (h.1 s hs 1) fun s hs => ?_
              exact ih _ (by omega) _ s hs

theorem outer_keys (a0 : List (K × V)) (b0 : List (K × W)) (f : OuterJoinArg K V W → Call (Option V)) :
    Preserves (KeyAcc a0 b0) (outerJoinWithOp f) :=
  ⟨fun s h n => loopA_keys _ (fun _ _ h => withKey_keeps h) n s h, fun s h n => loopB_keys _ (fun _ _ h => withKey_keeps h) n s h,
   fun s h => both_keys _ (fun _ _ _ h => withKey_keeps h) s h⟩
theorem left_keys (a0 : List (K × V)) (b0 : List (K × W)) (f : K → V → Option W → Call (Option V)) :
    Preserves (KeyAcc a0 b0) (leftJoinWithOp f) :=
  ⟨fun s h n => loopA_keys _ (fun _ _ h => withKey_keeps h) n s h, fun s h n => dropB_keys n s h,
   fun s h => both_keys _ (fun _ _ _ h => withKey_keeps h) s h⟩
theorem right_keys (a0 : List (K × V)) (b0 : List (K × W)) (f : K → Option V → W → Call (Option V)) :
    Preserves (KeyAcc a0 b0) (rightJoinWithOp f) :=
  ⟨fun s h n => consume_keys n s h, fun s h n => loopB_keys _ (fun _ _ h => withKey_keeps h) n s h,
   fun s h => both_keys _ (fun _ _ _ h => withKey_keeps h) s h⟩
theorem inner_keys (a0 : List (K × V)) (b0 : List (K × W)) (f : K → V → W → Call (Option V)) :
    Preserves (KeyAcc a0 b0) (innerJoinWithOp f) :=
  ⟨fun s h n => consume_keys n s h, fun s h n => dropB_keys n s h,
   fun s h => both_keys _ (fun _ _ _ h => withKey_keeps h) s h⟩

omit [Ord K] in
theorem new_keys (a : List (K × V)) (b : List (K × W)) : KeyAcc a b { tgt := [], src := a, b := b } :=
  ⟨[], by intro p; simp⟩

omit [Ord K] in
theorem KeyAcc.perm {a0 : List (K × V)} {b0 : List (K × W)} {l} (h : KeyAcc a0 b0 l) :
    ∃ gone, (l.tgt.map (·.1) ++ gone).Perm (a0.map (·.1) ++ b0.map (·.1)) := by
  obtain ⟨gone, h⟩ := h
  refine ⟨l.src.map (·.1) ++ (l.b.map (·.1) ++ gone), ?_⟩
  classical
  rw [List.perm_iff_count]
  intro x
  have := h (· == x)
  simp only [List.count, List.countP_append]
  omega

end maps
end Verif
