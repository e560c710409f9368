import Verif.Model.MergeState
import Verif.Lemmas.Join
/-! The merge states' `advance` functions, and closures over them, satisfy the callback laws. -/
namespace Verif
open Std

/-- what a call to a closure/conversion emits -/
def Call.emit {R : Type _} : Call R → Emit R
  | .ret x => ([x], .cont)
  | .panic => ([], .panic)

/-- what a call to a closure returning `Option` emits -/
def Call.emitOpt {R : Type _} : Call (Option R) → Emit R
  | .ret o => (o.toList, .cont)
  | .panic => ([], .panic)

variable {σ A B R : Type _}

@[simp] theorem Call.emit_ret (x : R) : (Call.ret x).emit = ([x], .cont) := rfl
@[simp] theorem Call.emit_panic : (Call.panic : Call R).emit = ([], .panic) := rfl
@[simp] theorem Call.emitOpt_ret (x : Option R) : (Call.ret x).emitOpt = (x.toList, .cont) := rfl
@[simp] theorem Call.emitOpt_panic : (Call.panic : Call (Option R)).emitOpt = ([], .panic) := rfl

/-- specification of `advance_a`/`advance_b` -/
structure AdvSpec [MergeState σ A B] (m : MergeStateMut σ) (out : σ → List R) (inv : σ → Prop)
    (ta : A → Emit R) (tb : B → Emit R) : Prop where
  aTake : ∀ s n, inv s → 1 ≤ n → n ≤ (MergeState.aSlice s : List A).length →
    StepSpec out inv s (m.advanceA s n true) (collect ta ((MergeState.aSlice s).take n))
      ((MergeState.aSlice s).drop n) (MergeState.bSlice s)
  aSkip : ∀ s n, inv s → 1 ≤ n → n ≤ (MergeState.aSlice s : List A).length →
    StepSpec out inv s (m.advanceA s n false) ([], .cont)
      ((MergeState.aSlice s).drop n) (MergeState.bSlice s)
  bTake : ∀ s n, inv s → 1 ≤ n → n ≤ (MergeState.bSlice s : List B).length →
    StepSpec out inv s (m.advanceB s n true) (collect tb ((MergeState.bSlice s).take n))
      (MergeState.aSlice s) ((MergeState.bSlice s).drop n)
  bSkip : ∀ s n, inv s → 1 ≤ n → n ≤ (MergeState.bSlice s : List B).length →
    StepSpec out inv s (m.advanceB s n false) ([], .cont)
      (MergeState.aSlice s) ((MergeState.bSlice s).drop n)

theorem pushAll_spec (conv : A → Call R) (r : List R) (l : List A) :
    pushAll conv r l = (r ++ (collect (fun x => (conv x).emit) l).1,
      (collect (fun x => (conv x).emit) l).2) := by
  induction l generalizing r with
  | nil => simp [pushAll, collect]
  | cons x l ih =>
    simp only [pushAll, collect]
    cases conv x with
    | panic => simp [Call.emit, Emit.seq]
    | ret y => simp [ih, Call.emit, Emit.seq]

theorem SliceMS.advSpec (ca : A → Call R) (cb : B → Call R) :
    AdvSpec (SliceMS.mut ca cb) (fun s => s.r) (fun _ => True) (fun x => (ca x).emit)
      (fun x => (cb x).emit) where
  aTake s n _ h1 hn := by
    have hn : n ≤ s.a.length := hn
    have : ¬ s.a.length < n := by omega
    simp only [SliceMS.mut, this, ↓reduceIte, pushAll_spec, MergeState.aSlice, MergeState.bSlice]
    exact ⟨rfl, rfl, fun _ => rfl, fun _ => rfl, fun _ => trivial⟩
  aSkip s n _ h1 hn := by
    have hn : n ≤ s.a.length := hn
    have : ¬ s.a.length < n := by omega
    simp only [SliceMS.mut, this, ↓reduceIte, MergeState.aSlice, MergeState.bSlice]
    exact ⟨rfl, by simp, fun _ => rfl, fun _ => rfl, fun _ => trivial⟩
  bTake s n _ h1 hn := by
    have hn : n ≤ s.b.length := hn
    have : ¬ s.b.length < n := by omega
    simp only [SliceMS.mut, this, ↓reduceIte, pushAll_spec, MergeState.aSlice, MergeState.bSlice]
    exact ⟨rfl, rfl, fun _ => rfl, fun _ => rfl, fun _ => trivial⟩
  bSkip s n _ h1 hn := by
    have hn : n ≤ s.b.length := hn
    have : ¬ s.b.length < n := by omega
    simp only [SliceMS.mut, this, ↓reduceIte, MergeState.aSlice, MergeState.bSlice]
    exact ⟨rfl, by simp, fun _ => rfl, fun _ => rfl, fun _ => trivial⟩

theorem InPlaceMS.skipB_eq (s : InPlaceMS A B) (n : Nat) :
    s.skipB n = { s with b := s.b.drop n } := by
  induction n generalizing s with
  | zero => rfl
  | succ n ih => simp [skipB, ih]

theorem collect_single (l : List A) : collect (fun x => (Call.ret x).emit) l = (l, .cont) := by
  induction l with
  | nil => rfl
  | cons x l ih => rw [collect, ih]; simp [Emit.seq]

theorem InPlaceMS.extendFromIter_spec (conv : B → Call A) (s : InPlaceMS A B) (n : Nat)
    (hn : n ≤ s.b.length) :
    StepSpec (fun s => s.tgt) (fun _ => True) s (s.extendFromIter conv n)
      (collect (fun x => (conv x).emit) (s.b.take n)) s.src (s.b.drop n) := by
  induction n generalizing s with
  | zero => exact ⟨rfl, by simp [collect, extendFromIter], fun _ => rfl, fun _ => rfl, fun _ => trivial⟩
  | succ n ih =>
    obtain ⟨t, sr, b⟩ := s
    cases b with
    | nil => simp at hn
    | cons x xs =>
      simp only [extendFromIter, List.take_succ_cons, List.drop_succ_cons, collect]
      cases hc : conv x with
      | panic => exact ⟨rfl, by simp [Call.emit, Emit.seq], by simp, by simp, by simp⟩
      | ret y =>
        simp only [Call.emit_ret, Emit.seq]
        have := ih { tgt := t ++ [y], src := sr, b := xs } (by simpa using hn)
        exact ⟨this.flow, by rw [this.out]; simp, this.a, this.b, this.inv⟩

theorem InPlaceMS.advSpec (conv : B → Call A) :
    AdvSpec (InPlaceMS.mut conv) (fun s => s.tgt) (fun _ => True) (fun x => (Call.ret x).emit)
      (fun x => (conv x).emit) where
  aTake s n _ h1 hn := by
    have hn : n ≤ s.src.length := hn
    simp only [InPlaceMS.mut, InPlaceMS.consume, Nat.min_eq_left hn, collect_single, ↓reduceIte]
    exact ⟨rfl, rfl, fun _ => rfl, fun _ => rfl, fun _ => trivial⟩
  aSkip s n _ h1 hn := by
    have hn : n ≤ s.src.length := hn
    simp only [InPlaceMS.mut, InPlaceMS.consume, Nat.min_eq_left hn]
    exact ⟨rfl, by simp, fun _ => rfl, fun _ => rfl, fun _ => trivial⟩
  bTake s n _ h1 hn := InPlaceMS.extendFromIter_spec conv s n hn
  bSkip s n _ h1 hn := by
    simp only [InPlaceMS.mut, InPlaceMS.skipB_eq]
    exact ⟨rfl, by simp, fun _ => rfl, fun _ => rfl, fun _ => trivial⟩

theorem collect_stop (l : List A) (r : R) (h : 1 ≤ l.length) :
    collect (fun _ => (([r], .stop) : Emit R)) l = ([r], .stop) := by
  cases l with
  | nil => simp at h
  | cons x l => rfl

theorem BoolMS.advSpec :
    AdvSpec (BoolMS.mut : MergeStateMut (BoolMS A B)) (fun s => if s.r then [()] else [])
      (fun s => s.r = false) (fun _ => ([()], .stop)) (fun _ => ([()], .stop)) where
  aTake s n hi h1 hn := by
    have hn : n ≤ s.a.length := hn
    rw [collect_stop _ _ (by show 1 ≤ (s.a.take n).length; simp; omega)]
    simp only [BoolMS.mut, ↓reduceIte]
    exact ⟨rfl, by simp [hi], by simp, by simp, by simp⟩
  aSkip s n hi h1 hn := by
    have hn : n ≤ s.a.length := hn
    have : ¬ s.a.length < n := by omega
    simp only [BoolMS.mut, this, ↓reduceIte, MergeState.aSlice, MergeState.bSlice]
    exact ⟨rfl, by simp, fun _ => rfl, fun _ => rfl, fun _ => hi⟩
  bTake s n hi h1 hn := by
    have hn : n ≤ s.b.length := hn
    rw [collect_stop _ _ (by show 1 ≤ (s.b.take n).length; simp; omega)]
    simp only [BoolMS.mut, ↓reduceIte]
    exact ⟨rfl, by simp [hi], by simp, by simp, by simp⟩
  bSkip s n hi h1 hn := by
    have hn : n ≤ s.b.length := hn
    have : ¬ s.b.length < n := by omega
    simp only [BoolMS.mut, this, ↓reduceIte, MergeState.aSlice, MergeState.bSlice]
    exact ⟨rfl, by simp, fun _ => rfl, fun _ => rfl, fun _ => hi⟩

end Verif
