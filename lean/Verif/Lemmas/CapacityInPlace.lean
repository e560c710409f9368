import Verif.Lemmas.Capacity
/-! Lemmas for C92: the buffer of an in-place merge. -/
namespace Verif
open Std

/-! ### Lengths of the buffer -/
namespace Builder
variable {α : Type _}

theorem moveOut_len (b : Builder α) (i : Nat) : (b.moveOut i).2.slots.length = b.slots.length := by
  unfold moveOut; split <;> simp
theorem write_len (b : Builder α) (i : Nat) (x : α) : (b.write i x).slots.length = b.slots.length := by
  unfold write; split <;> simp
theorem dropAt_len (b : Builder α) (i : Nat) : (b.dropAt i).slots.length = b.slots.length := by
  unfold dropAt; split <;> simp
theorem pushUnsafe_len (b : Builder α) (x : α) : (b.pushUnsafe x).slots.length = b.slots.length := by
  unfold pushUnsafe; split
  · exact write_len b _ x
  · rfl
theorem popFront_len (b : Builder α) : b.popFront.2.slots.length = b.slots.length := by
  unfold popFront; split
  · exact moveOut_len b _
  · rfl
theorem takeOne_len (b : Builder α) : b.takeOne.slots.length = b.slots.length := by
  unfold takeOne
  split
  · rfl
  · have h := moveOut_len b b.s0
    split
    · rename_i x b' e
      rw [e] at h
      exact (write_len b' _ x).trans h
    · rename_i b' e
      rw [e] at h
      exact h
theorem dropOne_len (b : Builder α) : b.dropOne.slots.length = b.slots.length := dropAt_len b _
theorem iter_len {f : Builder α → Builder α} (h : ∀ b, (f b).slots.length = b.slots.length) (n : Nat) : ∀ b, (iter f n b).slots.length = b.slots.length := by
  induction n with
  | zero => intro b; rfl
  | succ n ih => intro b; rw [iter, ih, h]
theorem consume_len (b : Builder α) (n : Nat) (take : Bool) : (b.consume n take).slots.length = b.slots.length := by
  unfold consume
  cases take
  · exact iter_len dropOne_len _ b
  · exact iter_len takeOne_len _ b

/-- with a gap of one, `push` does not grow the buffer -/
theorem push_len (pol : Nat → Nat) {b : Builder α} {tgt g src} (h : b.RepG tgt (g + 1) src) (x : α) : (b.push pol x).slots.length = b.slots.length := by
  unfold push
  rw [pushUnsafe_len, reserve, if_neg (by rw [h.t1, h.s0]; omega)]

theorem reserve_len (pol : Nat → Nat) {b : Builder α} {tgt g src} (h : b.RepG tgt g src) (n : Nat) : (b.reserve pol n).slots.length =
    if g < n then b.slots.length + (n + pol (b.slots.length + n)) else b.slots.length := by
  have hl := len_rep h
  have h1 := h.t1
  have h2 := h.s0
  unfold reserve
  by_cases hg : g < n
  · rw [if_pos (by omega), if_pos hg]
    simp
    omega
  · rw [if_neg (by omega), if_neg hg]

end Builder

/-! ### Room -/

/-- `t` elements are in the buffer of `len` slots, at most `p` more are to be added; the left vector had capacity `cap` at the start -/
structure Fits (cap R p t len : Nat) : Prop where
  total : t + p ≤ R
  room : R ≤ cap → len = cap ∨ len + p ≤ cap
  bound : len ≤ max cap (4 * R)

theorem Fits.reserve {α : Type _} {cap R p : Nat} {b : Builder α} {tgt g src} (h : b.RepG tgt g src) {n : Nat} (hn : n ≤ p)
    (f : Fits cap R p (tgt.length + src.length) b.slots.length) : Fits cap R p (tgt.length + src.length) (b.reserve (growTo cap) n).slots.length := by
  have hl := Builder.len_rep h
  obtain ⟨f1, f2, f3⟩ := f
  rw [Builder.reserve_len _ h]
  split
  · rename_i hg
    have e : b.slots.length + (n + growTo cap (b.slots.length + n)) = if b.slots.length + n ≤ cap then cap else nextPow2 (b.slots.length + n) := by
      unfold growTo
      split
      · omega
      · have := le_nextPow2 (b.slots.length + n); omega
    rw [e]
    split
    · exact ⟨f1, fun _ => .inl rfl, by omega⟩
    · have := nextPow2_lt (n := b.slots.length + n) (by omega)
      refine ⟨f1, fun hR => ?_, by omega⟩
      have := f2 hR
      omega
  · exact ⟨f1, f2, f3⟩

section room
variable {A B : Type _}

/-- a slot-level operation and what it does to the room -/
structure RoomOp (Rel : SlotMS A B → InPlaceMS A B → Prop) (cap R : Nat) (o1 : MergeOp (SlotMS A B) A B) (o2 : MergeOp (InPlaceMS A B) A B) : Prop where
  fromA : ∀ s l n p, Rel s l → Fits cap R p (l.tgt.length + l.src.length) s.bld.slots.length →
    Fits cap R p ((o2.fromA l n).1.tgt.length + (o2.fromA l n).1.src.length) (o1.fromA s n).1.bld.slots.length
  fromB : ∀ s l n p, n ≤ p → Rel s l → Fits cap R p (l.tgt.length + l.src.length) s.bld.slots.length →
    Fits cap R (p - n) ((o2.fromB l n).1.tgt.length + (o2.fromB l n).1.src.length) (o1.fromB s n).1.bld.slots.length
  collision : ∀ s l p, Rel s l → Fits cap R p (l.tgt.length + l.src.length) s.bld.slots.length →
    Fits cap R p ((o2.collision l).1.tgt.length + (o2.collision l).1.src.length) (o1.collision s).1.bld.slots.length

/-- how many right elements the schedule hands over -/
def sumB : List Ev → Nat
  | [] => 0
  | .a _ :: evs => sumB evs
  | .b n :: evs => n + sumB evs
  | .c :: evs => sumB evs

theorem Fits.weaken {cap R p p' t t' len : Nat} (h : Fits cap R p t len) (hp : p' ≤ p) (ht : t' + p' ≤ t + p) : Fits cap R p' t' len := by
  obtain ⟨h1, h2, h3⟩ := h
  exact ⟨by omega, fun hR => by have := h2 hR; omega, h3⟩

theorem run_room {Rel : SlotMS A B → InPlaceMS A B → Prop} {cap R : Nat} {o1 o2} (sim : SimOp Rel o1 o2) (h : RoomOp Rel cap R o1 o2) (evs : List Ev) :
    ∀ s l p, sumB evs ≤ p → Rel s l → Fits cap R p (l.tgt.length + l.src.length) s.bld.slots.length →
      ∃ t p', Fits cap R p' t (runEvs o1 s evs).1.bld.slots.length := by
  induction evs with
  | nil => intro s l p _ _ f; exact ⟨_, _, f⟩
  | cons e evs ih =>
    intro s l p hp hr f
    cases e with
    | a n =>
      have f' := h.fromA s l n p hr f
      have hs := sim.2.1 s l hr n
      rw [runEvs]
      rcases hres : o1.fromA s n with ⟨s', fl⟩
      rw [hres] at f' hs
      unfold andThen
      cases fl <;> simp only
      · exact ih s' _ p (by simpa [sumB] using hp) hs.1 f'
      all_goals exact ⟨_, _, f'⟩
    | b n =>
      have f' := h.fromB s l n p (by simp [sumB] at hp; omega) hr f
      have hs := sim.2.2.1 s l hr n
      rw [runEvs]
      rcases hres : o1.fromB s n with ⟨s', fl⟩
      rw [hres] at f' hs
      unfold andThen
      cases fl <;> simp only
      · exact ih s' _ (p - n) (by simp [sumB] at hp; omega) hs.1 f'
      all_goals exact ⟨_, _, f'⟩
    | c =>
      have f' := h.collision s l p hr f
      have hs := sim.2.2.2 s l hr
      rw [runEvs]
      rcases hres : o1.collision s with ⟨s', fl⟩
      rw [hres] at f' hs
      unfold andThen
      cases fl <;> simp only
      · exact ih s' _ p (by simpa [sumB] using hp) hs.1 f'
      all_goals exact ⟨_, _, f'⟩

/-! ### The set operations -/

theorem extendLoop_len (conv : B → Call A) (n : Nat) : ∀ s : SlotMS A B, (s.extendLoop conv n).1.bld.slots.length = s.bld.slots.length := by
  induction n with
  | zero => intro s; rfl
  | succ n ih =>
    intro s
    rw [SlotMS.extendLoop]
    split
    · rfl
    · split
      · rfl
      · rw [ih]; exact Builder.pushUnsafe_len _ _

theorem skipB_len (n : Nat) : ∀ s : SlotMS A B, (s.skipB n).bld.slots.length = s.bld.slots.length := by
  induction n with
  | zero => intro s; rfl
  | succ n ih => intro s; rw [SlotMS.skipB, ih]

theorem list_skipB_len (n : Nat) (l : InPlaceMS A B) : (l.skipB n).tgt.length = l.tgt.length ∧ (l.skipB n).src.length = l.src.length := by
  rw [InPlaceMS.skipB_eq]
  exact ⟨rfl, rfl⟩

theorem list_consume_len (l : InPlaceMS A B) (n : Nat) (take : Bool) : (l.consume n take).tgt.length + (l.consume n take).src.length ≤ l.tgt.length + l.src.length := by
  unfold InPlaceMS.consume
  cases take <;> simp <;> omega

theorem list_extend_len (conv : B → Call A) (n : Nat) : ∀ l : InPlaceMS A B,
    (l.extendFromIter conv n).1.tgt.length + (l.extendFromIter conv n).1.src.length ≤ l.tgt.length + l.src.length + n := by
  induction n with
  | zero => intro l; exact Nat.le_refl _
  | succ n ih =>
    intro l
    rw [InPlaceMS.extendFromIter]
    split
    · simp only; omega
    · split
      · simp only; omega
      · refine Nat.le_trans (ih _) ?_
        simp; omega

theorem advA_fits {cap R p : Nat} {s : SlotMS A B} {l : InPlaceMS A B} (n : Nat) (take : Bool) (f : Fits cap R p (l.tgt.length + l.src.length) s.bld.slots.length) :
    Fits cap R p ((l.consume n take).tgt.length + (l.consume n take).src.length) ({ s with bld := s.bld.consume n take } : SlotMS A B).bld.slots.length := by
  simp only [Builder.consume_len]
  have := list_consume_len l n take
  exact f.weaken (Nat.le_refl _) (by omega)

theorem skip_fits {cap R p : Nat} {s : SlotMS A B} {l : InPlaceMS A B} (n : Nat) (f : Fits cap R p (l.tgt.length + l.src.length) s.bld.slots.length) :
    Fits cap R p ((l.skipB n).tgt.length + (l.skipB n).src.length) (s.skipB n).bld.slots.length := by
  have := list_skipB_len n l
  rw [skipB_len, this.1, this.2]
  exact f

theorem skip_fits' {cap R p : Nat} {s : SlotMS A B} {l : InPlaceMS A B} (n : Nat) (f : Fits cap R p (l.tgt.length + l.src.length) s.bld.slots.length) :
    Fits cap R (p - n) ((l.skipB n).tgt.length + (l.skipB n).src.length) (s.skipB n).bld.slots.length :=
  (skip_fits n f).weaken (by omega) (by omega)

theorem extend_fits {cap R p : Nat} {conv : B → Call A} {s : SlotMS A B} {l : InPlaceMS A B} {n : Nat} (hn : n ≤ p) (hr : Refines s l)
    (f : Fits cap R p (l.tgt.length + l.src.length) s.bld.slots.length) :
    Fits cap R (p - n) ((l.extendFromIter conv n).1.tgt.length + (l.extendFromIter conv n).1.src.length) (s.extendFromIter (growTo cap) conv n).1.bld.slots.length := by
  obtain ⟨⟨g, hg⟩, _⟩ := hr
  have hl := list_extend_len conv n l
  unfold SlotMS.extendFromIter
  split
  · exact f.weaken (by omega) (by omega)
  · rw [extendLoop_len]
    exact (Fits.reserve hg hn f).weaken (by omega) (by omega)

end room

section sets
variable {T : Type _} [Ord T] {a0 b0 : List T}

theorem collision_fits {cap R p : Nat} {conv : T → Call T} (t1 : Bool) {s : SlotMS T T} {l : InPlaceMS T T}
    (f : Fits cap R p (l.tgt.length + l.src.length) s.bld.slots.length) :
    Fits cap R p
      ((andThen ((InPlaceMS.mut conv).advanceA l 1 t1) fun l => (InPlaceMS.mut conv).advanceB l 1 false).1.tgt.length +
        (andThen ((InPlaceMS.mut conv).advanceA l 1 t1) fun l => (InPlaceMS.mut conv).advanceB l 1 false).1.src.length)
      (andThen ((SlotMS.mut (growTo cap) conv).advanceA s 1 t1) fun s => (SlotMS.mut (growTo cap) conv).advanceB s 1 false).1.bld.slots.length :=
  skip_fits (s := { s with bld := s.bld.consume 1 t1 }) (l := l.consume 1 t1) 1 (advA_fits 1 t1 f)

theorem algebra_room (cap R : Nat) (conv : T → Call T) (o : AlgebraOp) :
    RoomOp (Acc a0 b0) cap R (o.op T (SlotMS.mut (growTo cap) conv)) (o.op T (InPlaceMS.mut conv)) := by
  cases o
  · exact ⟨fun s l n p _ f => advA_fits n true f, fun s l n p hn hr f => extend_fits hn hr.ref f, fun s l p _ f => collision_fits true f⟩
  · exact ⟨fun s l n p _ f => advA_fits n false f, fun s l n p hn hr f => skip_fits' n f, fun s l p _ f => collision_fits true f⟩
  · exact ⟨fun s l n p _ f => advA_fits n true f, fun s l n p hn hr f => skip_fits' n f, fun s l p _ f => collision_fits false f⟩
  · exact ⟨fun s l n p _ f => advA_fits n true f, fun s l n p hn hr f => extend_fits hn hr.ref f, fun s l p _ f => collision_fits false f⟩

/-- `&=` and `-=` keep the buffer, whatever the growth policy, the order and the driver -/
theorem shrinking_len (pol : Nat → Nat) (conv : T → Call T) (L : Nat) (o : AlgebraOp) (ho : o = .intersection ∨ o = .difference) :
    Preserves (fun s : SlotMS T T => s.bld.slots.length = L) (o.op T (SlotMS.mut pol conv)) := by
  have hA : ∀ (s : SlotMS T T) n take, s.bld.slots.length = L → ((SlotMS.mut pol conv).advanceA s n take).1.bld.slots.length = L :=
    fun s n take h => (Builder.consume_len _ _ _).trans h
  have hB : ∀ (s : SlotMS T T) n, s.bld.slots.length = L → ((SlotMS.mut pol conv).advanceB s n false).1.bld.slots.length = L :=
    fun s n h => (skipB_len n s).trans h
  rcases ho with rfl | rfl
  · exact ⟨fun s h n => hA s n _ h, fun s h n => hB s n h, fun s h => andThen_pres (hA s 1 _ h) fun s h => hB s 1 h⟩
  · exact ⟨fun s h n => hA s n _ h, fun s h n => hB s n h, fun s h => andThen_pres (hA s 1 _ h) fun s h => hB s 1 h⟩

end sets

/-! ### The joins -/
section joins
variable {A B : Type _}

theorem slot_loopA_len (pol : Nat → Nat) (g : A → Call (Option A)) (n : Nat) : ∀ (s : SlotMS A B) (l : InPlaceMS A B), Refines s l →
    (s.loopA pol g n).1.bld.slots.length = s.bld.slots.length := by
  induction n with
  | zero => intro s l h; rfl
  | succ n ih =>
    intro s l h
    have hlen := Builder.popFront_len s.bld
    obtain ⟨⟨k, hk⟩, hb⟩ := h
    rw [SlotMS.loopA]
    cases hs : l.src with
    | nil =>
      rw [hs] at hk
      rw [Builder.popFront_nil hk]
      exact ih s l ⟨⟨k, by rw [hs]; exact hk⟩, hb⟩
    | cons x xs =>
      rw [hs] at hk
      obtain ⟨b', h1, h2, _⟩ := Builder.popFront_cons hk
      rw [h1] at hlen ⊢
      simp only
      cases hx : g x with
      | panic => exact hlen
      | ret o =>
        cases o with
        | none => exact (ih { s with bld := b' } { l with src := xs } ⟨⟨_, h2⟩, hb⟩).trans hlen
        | some y =>
          exact (ih { s with bld := b'.push pol y } { l with tgt := l.tgt ++ [y], src := xs } ⟨(Builder.push_rep pol h2 y).1, hb⟩).trans
            ((Builder.push_len pol h2 y).trans hlen)

theorem slot_both_len (pol : Nat → Nat) (g : A → B → Call (Option A)) (s : SlotMS A B) (l : InPlaceMS A B) (h : Refines s l) :
    (s.both pol g).1.bld.slots.length = s.bld.slots.length := by
  have hlen := Builder.popFront_len s.bld
  obtain ⟨⟨k, hk⟩, hb⟩ := h
  rw [SlotMS.both]
  cases hs : l.src with
  | nil =>
    rw [hs] at hk
    rw [Builder.popFront_nil hk]
  | cons x xs =>
    rw [hs] at hk
    obtain ⟨b', h1, h2, _⟩ := Builder.popFront_cons hk
    rw [h1] at hlen ⊢
    simp only
    split
    · exact hlen
    · split
      · exact hlen
      · exact hlen
      · exact (Builder.push_len pol h2 _).trans hlen

theorem slot_dropB_len (s : SlotMS A B) (n : Nat) : (s.dropB n).1.bld.slots.length = s.bld.slots.length := by
  rw [SlotMS.dropB]; split <;> rfl

theorem list_loopA_len (g : A → Call (Option A)) (n : Nat) : ∀ l : InPlaceMS A B,
    (l.loopA g n).1.tgt.length + (l.loopA g n).1.src.length ≤ l.tgt.length + l.src.length := by
  induction n with
  | zero => intro l; exact Nat.le_refl _
  | succ n ih =>
    intro l
    rw [InPlaceMS.loopA]
    split
    · exact ih l
    · rename_i x xs e
      split
      · simp [e]
      · rename_i o _
        refine Nat.le_trans (ih _) ?_
        cases o <;> simp [e] <;> omega

theorem list_both_len (g : A → B → Call (Option A)) (l : InPlaceMS A B) :
    (l.both g).1.tgt.length + (l.both g).1.src.length ≤ l.tgt.length + l.src.length := by
  rw [InPlaceMS.both]
  split
  · exact Nat.le_refl _
  · rename_i x xs e
    split
    · simp [e]
    · split
      · simp [e]
      · rename_i o _
        cases o <;> simp [e] <;> omega

theorem list_dropB_len (l : InPlaceMS A B) (n : Nat) : (l.dropB n).1.tgt.length + (l.dropB n).1.src.length = l.tgt.length + l.src.length := by
  rw [InPlaceMS.dropB]; split <;> rfl

theorem loopB_fits {cap R : Nat} (g : B → Call (Option A)) (n : Nat) : ∀ (s : SlotMS A B) (l : InPlaceMS A B) (p : Nat), n ≤ p → Refines s l →
    Fits cap R p (l.tgt.length + l.src.length) s.bld.slots.length →
    Fits cap R (p - n) ((l.loopB g n).1.tgt.length + (l.loopB g n).1.src.length) (s.loopB (growTo cap) g n).1.bld.slots.length := by
  induction n with
  | zero => intro s l p _ _ f; exact f
  | succ n ih =>
    intro s l p hp h f
    have e0 : p - (n + 1) = (p - 1) - n := by omega
    rw [SlotMS.loopB, InPlaceMS.loopB, h.b, e0]
    cases hb : l.b with
    | nil => exact ih s l (p - 1) (by omega) h (f.weaken (by omega) (by omega))
    | cons x xs =>
      simp only
      obtain ⟨k, hk⟩ := h.rep
      cases hx : g x with
      | panic => exact f.weaken (by omega) (by simp only; omega)
      | ret o =>
        cases o with
        | none => exact ih _ _ (p - 1) (by omega) ⟨⟨k, by simpa using hk⟩, rfl⟩ (by simpa using f.weaken (by omega) (by omega))
        | some y =>
          refine ih _ _ (p - 1) (by omega) ⟨(Builder.push_rep _ hk y).1, rfl⟩ ?_
          simp only [Builder.push, Builder.pushUnsafe_len]
          refine (Fits.reserve hk (n := 1) (by omega) f).weaken (by omega) ?_
          simp; omega

variable {K V W : Type _} [Ord K]

theorem join_room (cap R : Nat) (o : JoinOp K V W) : RoomOp Refines cap R (o.slot (growTo cap)) o.list := by
  have hA : ∀ (g : K × V → Call (Option (K × V))) (s : SlotMS (K × V) (K × W)) l n p, Refines s l → Fits cap R p (l.tgt.length + l.src.length) s.bld.slots.length →
      Fits cap R p ((l.loopA g n).1.tgt.length + (l.loopA g n).1.src.length) (s.loopA (growTo cap) g n).1.bld.slots.length := by
    intro g s l n p hr f
    rw [slot_loopA_len _ g n s l hr]
    have := list_loopA_len g n l
    exact f.weaken (Nat.le_refl _) (by omega)
  have hD : ∀ (s : SlotMS (K × V) (K × W)) (l : InPlaceMS (K × V) (K × W)) n p, Refines s l → Fits cap R p (l.tgt.length + l.src.length) s.bld.slots.length →
      Fits cap R (p - n) ((l.dropB n).1.tgt.length + (l.dropB n).1.src.length) (s.dropB n).1.bld.slots.length := by
    intro s l n p hr f
    rw [slot_dropB_len, list_dropB_len]
    exact f.weaken (by omega) (by omega)
  have hC : ∀ (g : K × V → K × W → Call (Option (K × V))) (s : SlotMS (K × V) (K × W)) l p, Refines s l → Fits cap R p (l.tgt.length + l.src.length) s.bld.slots.length →
      Fits cap R p ((l.both g).1.tgt.length + (l.both g).1.src.length) (s.both (growTo cap) g).1.bld.slots.length := by
    intro g s l p hr f
    rw [slot_both_len _ g s l hr]
    have := list_both_len g l
    exact f.weaken (Nat.le_refl _) (by omega)
  cases o
  · exact ⟨fun s l n p hr f => hA _ s l n p hr f, fun s l n p hn hr f => loopB_fits _ n s l p hn hr f, fun s l p hr f => hC _ s l p hr f⟩
  · exact ⟨fun s l n p hr f => hA _ s l n p hr f, fun s l n p hn hr f => hD s l n p hr f, fun s l p hr f => hC _ s l p hr f⟩
  · exact ⟨fun s l n p hr f => advA_fits n false f, fun s l n p hn hr f => loopB_fits _ n s l p hn hr f, fun s l p hr f => hC _ s l p hr f⟩
  · exact ⟨fun s l n p hr f => advA_fits n false f, fun s l n p hn hr f => hD s l n p hr f, fun s l p hr f => hC _ s l p hr f⟩

/-- the left and the inner join keep the buffer -/
theorem shrinking_join_len (pol : Nat → Nat) (L : Nat) :
    (∀ f : K → V → Option W → Call (Option V),
      Preserves (fun s : SlotMS (K × V) (K × W) => (∃ l, Refines s l) ∧ s.bld.slots.length = L) (slotLeftJoinOp pol f)) ∧
    (∀ f : K → V → W → Call (Option V),
      Preserves (fun s : SlotMS (K × V) (K × W) => (∃ l, Refines s l) ∧ s.bld.slots.length = L) (slotInnerJoinOp pol f)) := by
  refine ⟨fun f => ?_, fun f => ?_⟩
  · have sim := left_sim pol f
    refine ⟨?_, ?_, ?_⟩
    · rintro s ⟨⟨l, hr⟩, h⟩ n
      exact ⟨⟨_, (sim.2.1 s l hr n).1⟩, (slot_loopA_len _ _ n s l hr).trans h⟩
    · rintro s ⟨⟨l, hr⟩, h⟩ n
      exact ⟨⟨_, (sim.2.2.1 s l hr n).1⟩, (slot_dropB_len s n).trans h⟩
    · rintro s ⟨⟨l, hr⟩, h⟩
      exact ⟨⟨_, (sim.2.2.2 s l hr).1⟩, (slot_both_len _ _ s l hr).trans h⟩
  · have sim := inner_sim pol f
    refine ⟨?_, ?_, ?_⟩
    · rintro s ⟨⟨l, hr⟩, h⟩ n
      exact ⟨⟨_, (sim.2.1 s l hr n).1⟩, (Builder.consume_len _ _ _).trans h⟩
    · rintro s ⟨⟨l, hr⟩, h⟩ n
      exact ⟨⟨_, (sim.2.2.1 s l hr n).1⟩, (slot_dropB_len s n).trans h⟩
    · rintro s ⟨⟨l, hr⟩, h⟩
      exact ⟨⟨_, (sim.2.2.2 s l hr).1⟩, (slot_both_len _ _ s l hr).trans h⟩

end joins

/-! ### The driver hands over exactly the right elements that have no equal on the left -/
section legal
variable {A B κ : Type _} [Ord κ] [TransOrd κ] {ka : A → κ} {kb : B → κ}

theorem sumB_fresh {cmp : A → B → Ordering} (hcmp : ∀ a b, cmp a b = compare (ka a) (kb b)) {as : List A} {bs : List B} {evs : List Ev}
    (h : Legal cmp as bs evs) (hb : AscendingBy kb bs) :
    sumB evs = (bs.filter fun y => !(as.any fun x => compare (ka x) (kb y) == .eq)).length := by
  induction h with
  | done => rfl
  | @a as bs evs n h1 hn hlt _ ih =>
    rw [sumB, ih hb]
    refine congrArg List.length (List.filter_congr fun y hy => ?_)
    rw [← List.take_append_drop n as, List.any_append]
    have : (as.take n).any (fun x => compare (ka x) (kb y) == .eq) = false := by
      rw [List.any_eq_false]
      intro x hx
      have := hlt x hx y hy
      rw [hcmp] at this
      simp [this]
    simp [this]
  | @b as bs evs n h1 hn hlt _ ih =>
    rw [sumB, ih (List.Pairwise.sublist (List.drop_sublist n bs) hb)]
    have e : (bs.take n).filter (fun y => !(as.any fun x => compare (ka x) (kb y) == .eq)) = bs.take n := by
      rw [List.filter_eq_self]
      intro y hy
      have : as.any (fun x => compare (ka x) (kb y) == .eq) = false := by
        rw [List.any_eq_false]
        intro x hx
        have := hlt y hy x hx
        rw [hcmp] at this
        simp [this]
      simp [this]
    have e2 : bs.filter (fun y => !(as.any fun x => compare (ka x) (kb y) == .eq)) =
        bs.take n ++ (bs.drop n).filter (fun y => !(as.any fun x => compare (ka x) (kb y) == .eq)) := by
      rw (occs := .pos [1]) [← List.take_append_drop n bs]
      rw [List.filter_append, e]
    rw [e2]
    simp
    omega
  | @c x y as bs evs he _ ih =>
    have hb' := ascendingBy_cons.1 hb
    rw [sumB, ih hb'.2]
    rw [hcmp] at he
    rw [List.filter_cons]
    simp only [List.any_cons, he, BEq.rfl, Bool.true_or, Bool.not_true, Bool.false_eq_true, if_false]
    refine congrArg List.length (List.filter_congr fun y' hy' => ?_)
    have := cmp_lt_of_eq_of_lt he (hb'.1 y' hy')
    simp [this]

/-- length of a union -/
theorem union_length {cmp : A → A → Ordering} {as bs : List A} {evs : List Ev} (h : Legal cmp as bs evs) :
    (joinRef cmp (fun x => (([x], .cont) : Emit A)) (fun x => ([x], .cont)) (fun x _ => ([x], .cont)) as bs).1.length = as.length + sumB evs ∧
    (joinRef cmp (fun x => (([x], .cont) : Emit A)) (fun x => ([x], .cont)) (fun x _ => ([x], .cont)) as bs).2 = .cont := by
  have hc : ∀ l : List A, collect (fun x => (([x], .cont) : Emit A)) l = (l, .cont) := by
    intro l
    induction l with
    | nil => rfl
    | cons x l ih => rw [collect, ih]; rfl
  induction h with
  | done => rw [joinRef_nil_left]; exact ⟨rfl, rfl⟩
  | @a as bs evs n h1 hn hlt _ ih =>
    rw [joinRef_a n as bs hlt, hc]
    refine ⟨?_, ih.2⟩
    simp only [Emit.seq, List.length_append, ih.1, sumB]
    simp
    omega
  | @b as bs evs n h1 hn hlt _ ih =>
    rw [joinRef_b n as bs hlt, hc]
    refine ⟨?_, ih.2⟩
    simp only [Emit.seq, List.length_append, ih.1, sumB]
    simp
    omega
  | @c x y as bs evs he _ ih =>
    rw [joinRef, he]
    refine ⟨?_, ih.2⟩
    simp only [Emit.seq, List.length_append, ih.1, sumB]
    simp
    omega

/-- callbacks that consume their input, from their list-level specification -/
theorem SliceOk.ofImpl {σ R : Type _} [MergeState σ A B] {op : MergeOp σ A B} {out : σ → List R} {inv : σ → Prop} {fa fb fc} (h : Implements op out inv fa fb fc) :
    SliceOk op inv :=
  ⟨fun s n hi h1 hn => ⟨(h.fromA s n hi h1 hn).a, (h.fromA s n hi h1 hn).b, (h.fromA s n hi h1 hn).inv⟩,
   fun s n hi h1 hn => ⟨(h.fromB s n hi h1 hn).a, (h.fromB s n hi h1 hn).b, (h.fromB s n hi h1 hn).inv⟩,
   fun s a as b bs hi ha hb => ⟨(h.collision s a as b bs hi ha hb).a, (h.collision s a as b bs hi ha hb).b, (h.collision s a as b bs hi ha hb).inv⟩⟩

theorem SliceOk.ofSim {Rel : SlotMS A B → InPlaceMS A B → Prop} {o1 : MergeOp (SlotMS A B) A B} {o2 : MergeOp (InPlaceMS A B) A B} (sim : SimOp Rel o1 o2)
    (hR : ∀ s l, Rel s l → Refines s l) (h : SliceOk o2 (fun _ => True)) : SliceOk o1 (fun s => ∃ l, Rel s l) := by
  have hs : ∀ s l, Rel s l → (MergeState.aSlice s : List A) = MergeState.aSlice l ∧ (MergeState.bSlice s : List B) = MergeState.bSlice l := by
    intro s l hr
    obtain ⟨⟨g, hg⟩, hb⟩ := hR s l hr
    exact ⟨Builder.sourceSlice_rep hg, hb⟩
  have step : ∀ (r1 : SlotMS A B × Flow) (r2 : InPlaceMS A B × Flow) a' b', Rel r1.1 r2.1 ∧ r1.2 = r2.2 → Leaves (fun _ => True) r2 a' b' →
      Leaves (fun s => ∃ l, Rel s l) r1 a' b' := by
    intro r1 r2 a' b' hr hl
    have := hs _ _ hr.1
    exact ⟨fun hc => this.1.trans (hl.a (hr.2 ▸ hc)), fun hc => this.2.trans (hl.b (hr.2 ▸ hc)), fun _ => ⟨_, hr.1⟩⟩
  refine ⟨?_, ?_, ?_⟩
  · rintro s n ⟨l, hr⟩ h1 hn
    rw [(hs s l hr).1] at hn ⊢
    rw [(hs s l hr).2]
    exact step _ _ _ _ (sim.2.1 s l hr n) (h.fromA l n trivial h1 hn)
  · rintro s n ⟨l, hr⟩ h1 hn
    rw [(hs s l hr).2] at hn ⊢
    rw [(hs s l hr).1]
    exact step _ _ _ _ (sim.2.2.1 s l hr n) (h.fromB l n trivial h1 hn)
  · rintro s a as b bs ⟨l, hr⟩ ha hb
    rw [(hs s l hr).1] at ha
    rw [(hs s l hr).2] at hb
    exact step _ _ _ _ (sim.2.2.2 s l hr) (h.collision l a as b bs trivial ha hb)

/-- the in-place merges: room and growth -/
theorem merged_fits {Rel : SlotMS A B → InPlaceMS A B → Prop} {o1 : MergeOp (SlotMS A B) A B} {o2 : MergeOp (InPlaceMS A B) A B} (sim : SimOp Rel o1 o2)
    (hR : ∀ s l, Rel s l → Refines s l) (h : SliceOk o2 (fun _ => True)) (hcmp : ∀ a b, o2.cmp a b = compare (ka a) (kb b)) {a : List A} {b : List B}
    (ha : AscendingBy ka a) (hb : AscendingBy kb b) (h0 : Rel (SlotMS.new a b) { tgt := [], src := a, b := b }) {cap : Nat} (hcap : a.length ≤ cap)
    (room : ∀ R, RoomOp Rel cap R o1 o2) :
    (a.length + (b.filter fun y => !(a.any fun x => compare (ka x) (kb y) == .eq)).length ≤ cap → mergedCap cap o1 a b = cap) ∧
    mergedCap cap o1 a b ≤ max cap (4 * (a.length + (b.filter fun y => !(a.any fun x => compare (ka x) (kb y) == .eq)).length)) := by
  have ea : (MergeState.aSlice (SlotMS.new a b) : List A) = a := Builder.sourceSlice_rep (Builder.new_rep a)
  have eb : (MergeState.bSlice (SlotMS.new a b) : List B) = b := rfl
  have hcmp1 : ∀ x y, o1.cmp x y = compare (ka x) (kb y) := fun x y => (sim.1 x y).trans (hcmp x y)
  obtain ⟨evs, hl, hrun⟩ := mergeAll_eq_plan (SliceOk.ofSim sim hR h) hcmp1 (SlotMS.new a b) ⟨_, h0⟩ (by rw [ea]; exact ha) (by rw [eb]; exact hb)
  rw [ea, eb] at hl
  have hsum := sumB_fresh hcmp1 hl hb
  rw [← hsum]
  have hlen : (SlotMS.new a b).bld.slots.length = a.length := by simp [SlotMS.new, Builder.new]
  obtain ⟨t, p', f⟩ := run_room sim (room (a.length + sumB evs)) evs _ _ (sumB evs) (Nat.le_refl _) h0
    ⟨by simp, fun hR => .inr (by rw [hlen]; exact hR), by rw [hlen]; omega⟩
  unfold mergedCap
  rw [hrun]
  obtain ⟨_, f2, f3⟩ := f
  exact ⟨fun hc => by have := f2 hc; omega, by omega⟩

end legal
end Verif
