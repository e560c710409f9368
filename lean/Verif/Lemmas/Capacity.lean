import Verif.Model.Capacity
import Verif.Lemmas.MergeRun
import Verif.Lemmas.VecMap
import Verif.Props.Account
/-! Lemmas for C92: capacities. -/
namespace Verif
open Std

/-! ### Numbers -/

theorem le_nextPow2 (n : Nat) : n ≤ nextPow2 n := by
  unfold nextPow2
  split
  · assumption
  · have := @Nat.lt_log2_self (n - 1)
    omega

theorem nextPow2_lt {n : Nat} (h : 1 ≤ n) : nextPow2 n < 2 * n := by
  unfold nextPow2
  split
  · omega
  · have h1 := @Nat.log2_self_le (n - 1) (by omega)
    rw [Nat.pow_succ]
    omega

/-- a capacity `SmallVec` can have, when the longest the vector has been is `len` -/
structure CapInv (N len cap : Nat) : Prop where
  fits : len ≤ cap
  origin : cap = N ∨ ∃ m, N < m ∧ m ≤ len ∧ cap = nextPow2 m

theorem CapInv.le {N len cap : Nat} (h : CapInv N len cap) : N ≤ cap := by
  rcases h.origin with h | ⟨m, h1, _, h2⟩
  · omega
  · have := le_nextPow2 m; omega

theorem CapInv.reserve {N len cap : Nat} (h : CapInv N len cap) (n : Nat) : CapInv N (len + n) (reserveCap cap len n) := by
  have hN := h.le
  unfold reserveCap
  split
  · refine ⟨by omega, ?_⟩
    rcases h.origin with h | ⟨m, h1, h2, h3⟩
    · exact .inl h
    · exact .inr ⟨m, h1, by omega, h3⟩
  · exact ⟨le_nextPow2 _, .inr ⟨len + n, by omega, by omega, rfl⟩⟩

theorem CapInv.pushes {N : Nat} (k : Nat) : ∀ {len cap : Nat}, CapInv N len cap → CapInv N (len + k) (pushesCap cap len k) := by
  induction k with
  | zero => intro len cap h; exact h
  | succ k ih =>
    intro len cap h
    have := ih (h.reserve 1)
    rw [pushesCap]
    have e : len + (k + 1) = len + 1 + k := by omega
    rw [e]; exact this

theorem pushesCap_room (k : Nat) : ∀ {len cap : Nat}, len + k ≤ cap → pushesCap cap len k = cap := by
  induction k with
  | zero => intros; rfl
  | succ k ih =>
    intro len cap h
    rw [pushesCap, reserveCap, if_pos (by omega)]
    exact ih (by omega)

theorem CapInv.reservePushes {N len cap : Nat} (h : CapInv N len cap) (n : Nat) : CapInv N (len + n) (pushesCap (reserveCap cap len n) len n) := by
  have := h.reserve n
  rw [pushesCap_room n this.fits]
  exact this

theorem CapInv.start (N : Nat) : CapInv N 0 N := ⟨Nat.zero_le _, .inl rfl⟩

/-- what a user sees of it -/
theorem CapInv.seen {N len cap : Nat} (h : CapInv N len cap) : (len ≤ N → cap = N) ∧ (N < len → len ≤ cap ∧ cap < 2 * len) := by
  rcases h.origin with e | ⟨m, h1, h2, h3⟩
  · have := h.fits
    exact ⟨fun _ => e, fun h => by omega⟩
  · have := nextPow2_lt (n := m) (by omega)
    have := h.fits
    exact ⟨fun h => by omega, fun _ => by omega⟩

/-! ### The new vector -/
section new
variable {A B R : Type _}

/-- the capacity does not influence the run -/
structure ProjOp (o1 : MergeOp (CapMS A B R) A B) (o2 : MergeOp (SliceMS A B R) A B) : Prop where
  cmp : o1.cmp = o2.cmp
  fromA : ∀ s n, (o1.fromA s n).1.base = (o2.fromA s.base n).1 ∧ (o1.fromA s n).2 = (o2.fromA s.base n).2
  fromB : ∀ s n, (o1.fromB s n).1.base = (o2.fromB s.base n).1 ∧ (o1.fromB s n).2 = (o2.fromB s.base n).2
  collision : ∀ s, (o1.collision s).1.base = (o2.collision s.base).1 ∧ (o1.collision s).2 = (o2.collision s.base).2

theorem proj_andThen {r1 : CapMS A B R × Flow} {r2 : SliceMS A B R × Flow} {k1 k2} (h : r1.1.base = r2.1 ∧ r1.2 = r2.2)
    (hk : ∀ s, (k1 s).1.base = (k2 s.base).1 ∧ (k1 s).2 = (k2 s.base).2) :
    (andThen r1 k1).1.base = (andThen r2 k2).1 ∧ (andThen r1 k1).2 = (andThen r2 k2).2 := by
  obtain ⟨s, f⟩ := r1
  obtain ⟨l, f2⟩ := r2
  obtain ⟨h1, h2⟩ := h
  simp only at h1 h2
  subst h2; subst h1
  unfold andThen
  cases f <;> simp only
  · exact hk s
  all_goals exact ⟨trivial, trivial⟩

theorem binaryMerge_proj {o1 : MergeOp (CapMS A B R) A B} {o2 : MergeOp (SliceMS A B R) A B} (h : ProjOp o1 o2) (an bn : Nat) :
    ∀ s, (binaryMerge o1 s an bn).1.base = (binaryMerge o2 s.base an bn).1 ∧ (binaryMerge o1 s an bn).2 = (binaryMerge o2 s.base an bn).2 := by
  induction an using Nat.strongRecOn generalizing bn with
  | ind an ih =>
    intro s
    rw [binaryMerge, binaryMerge]
    have ha : MergeState.aSlice s.base = s.base.a := rfl
    have hb : MergeState.bSlice s.base = s.base.b := rfl
    have ha' : MergeState.aSlice s = s.base.a := rfl
    have hb' : MergeState.bSlice s = s.base.b := rfl
    rw [ha, hb, ha', hb', h.cmp]
    split
    · split
      · exact ⟨rfl, rfl⟩
      · exact h.fromB s bn
    · split
      · exact h.fromA s an
      · simp only
        cases s.base.a[an / 2]? with
        | none => exact ⟨rfl, rfl⟩
        | some a =>
          simp only
          split
          · exact ⟨rfl, rfl⟩
          · generalize binarySearchBy (fun b => (o2.cmp a b).swap) (List.take bn s.base.b) = q
            cases q
            · refine proj_andThen (ih (an / 2) (by omega) _ s) fun s => ?_
              refine proj_andThen (h.collision s) fun s => ?_
              exact ih _ (by omega) _ s
            · refine proj_andThen (ih (an / 2) (by omega) _ s) fun s => ?_
              refine proj_andThen (h.fromA s 1) fun s => ?_
              exact ih _ (by omega) _ s

/-- callbacks that do not stop preserve `P` -/
structure KeepsCont {σ A B : Type _} (P : σ → Prop) (o : MergeOp σ A B) : Prop where
  fromA : ∀ s n, P s → (o.fromA s n).2 = .cont → P (o.fromA s n).1
  fromB : ∀ s n, P s → (o.fromB s n).2 = .cont → P (o.fromB s n).1
  collision : ∀ s, P s → (o.collision s).2 = .cont → P (o.collision s).1

theorem andThen_keeps {σ : Type _} {P : σ → Prop} {r : σ × Flow} {k} (h : r.2 = .cont → P r.1)
    (hk : ∀ s, P s → (k s).2 = .cont → P (k s).1) : (andThen r k).2 = .cont → P (andThen r k).1 := by
  obtain ⟨s, f⟩ := r
  unfold andThen
  cases f <;> simp only
  · exact hk s (h rfl)
  all_goals (intro e; cases e)

theorem binaryMerge_keeps {σ A B : Type _} [MergeState σ A B] {P : σ → Prop} {o : MergeOp σ A B} (h : KeepsCont P o) (an bn : Nat) :
    ∀ s, P s → (binaryMerge o s an bn).2 = .cont → P (binaryMerge o s an bn).1 := by
  induction an using Nat.strongRecOn generalizing bn with
  | ind an ih =>
    intro s hs
    rw [binaryMerge]
    split
    · split
      · exact fun _ => hs
      · exact h.fromB s bn hs
    · split
      · exact h.fromA s an hs
      · simp only
        split
        · exact fun _ => hs
        · split
          · exact fun _ => hs
          · split
            · refine andThen_keeps (ih _ (by omega) _ s hs) fun s hs => ?_
              refine andThen_keeps (h.collision s hs) fun s hs => ?_
              exact ih _ (by omega) _ s hs
            · refine andThen_keeps (ih _ (by omega) _ s hs) fun s hs => ?_
              refine andThen_keeps (h.fromA s 1 hs) fun s hs => ?_
              exact ih _ (by omega) _ s hs

/-- the invariant of the merge state -/
def CapMS.Ok (N : Nat) (s : CapMS A B R) : Prop := CapInv N s.base.r.length s.cap

theorem pushAll_length (conv : A → Call R) (l : List A) : ∀ r, (pushAll conv r l).2 = .cont → (pushAll conv r l).1.length = r.length + l.length := by
  induction l with
  | nil => intro r _; rfl
  | cons x l ih =>
    intro r h
    rw [pushAll] at h ⊢
    cases hx : conv x with
    | panic => rw [hx] at h; cases h
    | ret y =>
      rw [hx] at h
      simp only at h ⊢
      rw [ih _ h]
      simp; omega

theorem CapMS.advanceA_ok {N : Nat} (ca : A → Call R) (cb : B → Call R) (s : CapMS A B R) (n : Nat) (take : Bool) (h : s.Ok N) :
    ((CapMS.mut ca cb).advanceA s n take).2 = .cont → ((CapMS.mut ca cb).advanceA s n take).1.Ok N := by
  simp only [CapMS.mut, CapMS.pushed, CapMS.Ok, SliceMS.mut]
  cases take with
  | false =>
    simp only [Bool.false_eq_true, ite_false]
    split
    · simp
    · intro _
      simpa [pushesCap, CapMS.Ok] using h
  | true =>
    simp only [ite_true]
    split
    · simp
    · intro hc
      rename_i hl
      have := pushAll_length ca _ _ hc
      rw [List.length_take, Nat.min_eq_left (by omega)] at this
      simp only
      rw [this, Nat.add_sub_cancel_left]
      exact CapInv.reservePushes h n

theorem CapMS.advanceB_ok {N : Nat} (ca : A → Call R) (cb : B → Call R) (s : CapMS A B R) (n : Nat) (take : Bool) (h : s.Ok N) :
    ((CapMS.mut ca cb).advanceB s n take).2 = .cont → ((CapMS.mut ca cb).advanceB s n take).1.Ok N := by
  simp only [CapMS.mut, CapMS.pushed, CapMS.Ok, SliceMS.mut]
  cases take with
  | false =>
    simp only [Bool.false_eq_true, ite_false]
    split
    · simp
    · intro _
      simpa [pushesCap, CapMS.Ok] using h
  | true =>
    simp only [ite_true]
    split
    · simp
    · intro hc
      rename_i hl
      have := pushAll_length cb _ _ hc
      rw [List.length_take, Nat.min_eq_left (by omega)] at this
      simp only
      rw [this, Nat.add_sub_cancel_left]
      exact CapInv.reservePushes h n

theorem CapMS.proj_advanceA (ca : A → Call R) (cb : B → Call R) (s : CapMS A B R) (n : Nat) (take : Bool) :
    ((CapMS.mut ca cb).advanceA s n take).1.base = ((SliceMS.mut ca cb).advanceA s.base n take).1 ∧
      ((CapMS.mut ca cb).advanceA s n take).2 = ((SliceMS.mut ca cb).advanceA s.base n take).2 := ⟨rfl, rfl⟩
theorem CapMS.proj_advanceB (ca : A → Call R) (cb : B → Call R) (s : CapMS A B R) (n : Nat) (take : Bool) :
    ((CapMS.mut ca cb).advanceB s n take).1.base = ((SliceMS.mut ca cb).advanceB s.base n take).1 ∧
      ((CapMS.mut ca cb).advanceB s n take).2 = ((SliceMS.mut ca cb).advanceB s.base n take).2 := ⟨rfl, rfl⟩

variable {T : Type _} [Ord T]

theorem algebra_proj (o : AlgebraOp) (ca cb : T → Call T) : ProjOp (o.op T (CapMS.mut (B := T) ca cb)) (o.op T (SliceMS.mut ca cb)) := by
  cases o
  all_goals
    refine ⟨rfl, fun s n => CapMS.proj_advanceA ca cb s n _, fun s n => CapMS.proj_advanceB ca cb s n _, fun s => ?_⟩
    exact proj_andThen (CapMS.proj_advanceA ca cb s 1 _) fun s => CapMS.proj_advanceB ca cb s 1 _

theorem algebra_keeps (N : Nat) (o : AlgebraOp) (ca cb : T → Call T) : KeepsCont (CapMS.Ok N) (o.op T (CapMS.mut (B := T) ca cb)) := by
  cases o
  all_goals
    refine ⟨fun s n => CapMS.advanceA_ok ca cb s n _, fun s n => CapMS.advanceB_ok ca cb s n _, fun s hs => ?_⟩
    exact andThen_keeps (CapMS.advanceA_ok ca cb s 1 _ hs) fun s => CapMS.advanceB_ok ca cb s 1 _

/-- the operation only appends to the result -/
structure Appends (o : MergeOp (SliceMS A B R) A B) : Prop where
  fromA : ∀ s n, s.r.length ≤ (o.fromA s n).1.r.length
  fromB : ∀ s n, s.r.length ≤ (o.fromB s n).1.r.length
  collision : ∀ s, s.r.length ≤ (o.collision s).1.r.length

theorem tracked_proj (o : MergeOp (SliceMS A B R) A B) : ProjOp (CapMS.tracked o) o :=
  ⟨rfl, fun _ _ => ⟨rfl, rfl⟩, fun _ _ => ⟨rfl, rfl⟩, fun _ => ⟨rfl, rfl⟩⟩

theorem pushed_ok {N : Nat} {s : CapMS A B R} {r : SliceMS A B R × Flow} (h : s.Ok N) (hl : s.base.r.length ≤ r.1.r.length) :
    (CapMS.pushed s.cap s.base r).1.Ok N := by
  have := CapInv.pushes (r.1.r.length - s.base.r.length) h
  rw [Nat.add_sub_cancel' hl] at this
  exact this

theorem tracked_keeps (N : Nat) {o : MergeOp (SliceMS A B R) A B} (h : Appends o) : Preserves (CapMS.Ok N) (CapMS.tracked o) :=
  ⟨fun s hs n => pushed_ok hs (h.fromA _ n), fun s hs n => pushed_ok hs (h.fromB _ n), fun s hs => pushed_ok hs (h.collision _)⟩

theorem loopA_appends (g : A → Call (Option R)) (n : Nat) : ∀ s : SliceMS A B R, s.r.length ≤ (s.loopA g n).1.r.length := by
  induction n with
  | zero => intro s; exact Nat.le_refl _
  | succ n ih =>
    intro s
    rw [SliceMS.loopA]
    split
    · exact ih s
    · split
      · exact Nat.le_refl _
      · refine Nat.le_trans ?_ (ih _)
        simp
theorem loopB_appends (g : B → Call (Option R)) (n : Nat) : ∀ s : SliceMS A B R, s.r.length ≤ (s.loopB g n).1.r.length := by
  induction n with
  | zero => intro s; exact Nat.le_refl _
  | succ n ih =>
    intro s
    rw [SliceMS.loopB]
    split
    · exact ih s
    · split
      · exact Nat.le_refl _
      · refine Nat.le_trans ?_ (ih _)
        simp
theorem both_appends (g : A → B → Call (Option R)) (s : SliceMS A B R) : s.r.length ≤ (s.both g).1.r.length := by
  rw [SliceMS.both]
  split
  · exact Nat.le_refl _
  · split
    · exact Nat.le_refl _
    · split
      · exact Nat.le_refl _
      · simp
theorem dropA_appends (s : SliceMS A B R) (n : Nat) : s.r.length ≤ (s.dropA n).1.r.length := by
  rw [SliceMS.dropA]; split <;> exact Nat.le_refl _
theorem dropB_appends (s : SliceMS A B R) (n : Nat) : s.r.length ≤ (s.dropB n).1.r.length := by
  rw [SliceMS.dropB]; split <;> exact Nat.le_refl _

/-- results of merging into a new vector, for the set operations -/
theorem CapMS.merge_spec {N : Nat} {a : List A} {b : List B} {o1 : MergeOp (CapMS A B R) A B} {o2 : MergeOp (SliceMS A B R) A B} (hp : ProjOp o1 o2)
    (hk : KeepsCont (CapMS.Ok N) o1) {r : List R} (h : SliceMS.merge a b o2 = (r, .cont)) :
    ∃ cap, CapMS.merge N a b o1 = (r, cap, .cont) ∧ CapInv N r.length cap := by
  have h1 := binaryMerge_proj hp a.length b.length { base := { a := a, b := b, r := [] }, cap := N }
  have h2 := binaryMerge_keeps hk a.length b.length { base := { a := a, b := b, r := [] }, cap := N } (CapInv.start N)
  have e1 : mergeAll o1 { base := { a := a, b := b, r := [] }, cap := N } = binaryMerge o1 { base := { a := a, b := b, r := [] }, cap := N } a.length b.length := rfl
  have e2 : mergeAll o2 { a := a, b := b, r := [] } = binaryMerge o2 { a := a, b := b, r := [] } a.length b.length := rfl
  unfold SliceMS.merge at h
  rw [e2] at h
  simp only [Prod.mk.injEq] at h
  rw [h.2] at h1
  refine ⟨(binaryMerge o1 { base := { a := a, b := b, r := [] }, cap := N } a.length b.length).1.cap, ?_, ?_⟩
  · unfold CapMS.merge
    rw [e1]
    simp only
    rw [h1.1, h1.2, h.1]
  · have := h2 h1.2
    unfold CapMS.Ok at this
    rw [h1.1, h.1] at this
    exact this

/-- for the joins, also when the closure panics -/
theorem CapMS.tracked_spec {N : Nat} {a : List A} {b : List B} {o : MergeOp (SliceMS A B R) A B} (hk : Appends o) :
    ∃ cap, CapMS.merge N a b (CapMS.tracked o) = ((SliceMS.merge a b o).1, cap, (SliceMS.merge a b o).2) ∧ CapInv N (SliceMS.merge a b o).1.length cap := by
  have h1 := binaryMerge_proj (tracked_proj o) a.length b.length { base := { a := a, b := b, r := [] }, cap := N }
  have h2 := binaryMerge_pres (tracked_keeps N hk) a.length b.length { base := { a := a, b := b, r := [] }, cap := N } (CapInv.start N)
  refine ⟨(binaryMerge (CapMS.tracked o) { base := { a := a, b := b, r := [] }, cap := N } a.length b.length).1.cap, ?_, ?_⟩
  · have e1 : mergeAll (CapMS.tracked o) { base := { a := a, b := b, r := [] }, cap := N } =
      binaryMerge (CapMS.tracked o) { base := { a := a, b := b, r := [] }, cap := N } a.length b.length := rfl
    unfold CapMS.merge
    rw [e1]
    simp only
    rw [h1.1, h1.2]
    rfl
  · unfold CapMS.Ok at h2
    rw [h1.1] at h2
    exact h2

end new
end Verif
