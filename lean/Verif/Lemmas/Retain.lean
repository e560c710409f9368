import Verif.Spec.Retain
/-! `SmallVec::retain` -/
namespace Verif
variable {α P : Type _}

theorem swapAt_split (K D R : List α) (d x : α) :
    swapAt (K ++ d :: D ++ x :: R) K.length (K.length + (D.length + 1))
      = (K ++ [x]) ++ (D ++ [d]) ++ R := by
  have h1 : (K ++ d :: D ++ x :: R)[K.length]? = some d := by simp
  have h2 : (K ++ d :: D ++ x :: R)[K.length + (D.length + 1)]? = some x := by
    rw [List.append_assoc, List.getElem?_append_right (by omega)]
    simp
  unfold swapAt
  rw [h1, h2]
  simp only [List.append_assoc]
  rw [List.set_append_right _ _ (by omega)]
  rw [List.set_append_right _ _ (by omega)]
  simp only [Nat.sub_self, List.cons_append, List.set_cons_zero, List.nil_append,
    Nat.add_sub_cancel_left, List.set_cons_succ]
  rw [List.set_append_right _ _ (by omega)]
  simp

theorem swap_perm (K D R : List α) (d x : α) :
    ((K ++ [x]) ++ (D ++ [d]) ++ R).Perm (K ++ d :: D ++ x :: R) := by
  simp only [List.append_assoc, List.cons_append, List.nil_append]
  apply List.Perm.append_left
  have h1 : (x :: (D ++ d :: R)).Perm (x :: d :: (D ++ R)) :=
    List.Perm.cons _ List.perm_middle
  have h2 : (d :: (D ++ x :: R)).Perm (d :: x :: (D ++ R)) :=
    List.Perm.cons _ List.perm_middle
  exact h1.trans ((List.Perm.swap _ _ _).trans h2.symm)

theorem retainLoop_spec (f : P → α → Call (P × Bool)) (R : List α) : ∀ (K D : List α) (p : P),
    (∀ q l, keepRun f p R = .ret (q, l) →
      retainLoop f R.length (K ++ D ++ R) (K.length + D.length) D.length p = (K ++ l, q, .cont)) ∧
    (keepRun f p R = .panic →
      (retainLoop f R.length (K ++ D ++ R) (K.length + D.length) D.length p).2.2 = .panic ∧
      (retainLoop f R.length (K ++ D ++ R) (K.length + D.length) D.length p).1.Perm (K ++ D ++ R)) := by
  induction R with
  | nil =>
    intro K D p
    refine ⟨?_, by simp [keepRun]⟩
    intro q l h
    simp only [keepRun, Call.ret.injEq, Prod.mk.injEq] at h
    obtain ⟨rfl, rfl⟩ := h
    simp [retainLoop]
  | cons x R ih =>
    intro K D p
    have hx : (K ++ D ++ x :: R)[K.length + D.length]? = some x := by
      rw [List.getElem?_append_right (by simp)]; simp
    simp only [List.length_cons, retainLoop, hx, keepRun]
    cases hf : f p x with
    | panic => simp
    | ret pb =>
      obtain ⟨p', b⟩ := pb
      cases b with
      | false =>
        have e : K ++ D ++ x :: R = K ++ (D ++ [x]) ++ R := by simp
        have := ih K (D ++ [x]) p'
        simp only [List.length_append, List.length_singleton] at this
        rw [e]
        simp only [Nat.add_assoc] at this ⊢
        cases hk : keepRun f p' R with
        | panic => rw [hk] at this; simp only [reduceCtorEq, false_implies, implies_true, true_and]
                   intro _; exact this.2 rfl
        | ret ql =>
          obtain ⟨q, l⟩ := ql
          rw [hk] at this
          simp only [Call.ret.injEq, Prod.mk.injEq, and_imp, Bool.false_eq_true, ↓reduceIte,
            reduceCtorEq, false_implies, and_true]
          rintro q' l' rfl rfl
          exact this.1 q l rfl
      | true =>
        have step : ∃ D' : List α, D'.length = D.length ∧
            (if D.length > 0 then swapAt (K ++ D ++ x :: R) (K.length + D.length - D.length)
              (K.length + D.length) else K ++ D ++ x :: R) = (K ++ [x]) ++ D' ++ R ∧
            ((K ++ [x]) ++ D' ++ R).Perm (K ++ D ++ x :: R) := by
          cases D with
          | nil => exact ⟨[], rfl, by simp, by simp⟩
          | cons d D =>
            refine ⟨D ++ [d], by simp, ?_, swap_perm K D R d x⟩
            have := swapAt_split K D R d x
            simp only [List.length_cons, Nat.zero_lt_succ, ↓reduceIte, Nat.add_sub_cancel]
            exact this
        obtain ⟨D', hD', e, hp⟩ := step
        have := ih (K ++ [x]) D' p'
        simp only [List.length_append, List.length_singleton, hD'] at this
        rw [show K.length + 1 + D.length = K.length + D.length + 1 by omega] at this
        simp only [e]
        cases hk : keepRun f p' R with
        | panic =>
          rw [hk] at this
          simp only [reduceCtorEq, false_implies, implies_true, true_and]
          intro _
          exact ⟨(this.2 rfl).1, (this.2 rfl).2.trans hp⟩
        | ret ql =>
          obtain ⟨q, l⟩ := ql
          rw [hk] at this
          simp only [Call.ret.injEq, Prod.mk.injEq, and_imp, ↓reduceIte, reduceCtorEq, false_implies,
            and_true]
          rintro q' l' rfl rfl
          rw [this.1 q l rfl]; simp

theorem smallVecRetain_ret {f : P → α → Call (P × Bool)} {v : List α} {p q : P} {l : List α}
    (h : keepRun f p v = .ret (q, l)) : smallVecRetain f v p = (l, q, .cont) := by
  have := (retainLoop_spec f v [] [] p).1 q l h
  simpa [smallVecRetain] using this

theorem smallVecRetain_panic {f : P → α → Call (P × Bool)} {v : List α} {p : P}
    (h : keepRun f p v = .panic) :
    (smallVecRetain f v p).2.2 = .panic ∧ (smallVecRetain f v p).1.Perm v := by
  have := (retainLoop_spec f v [] [] p).2 h
  simpa [smallVecRetain] using this

theorem keepRun_sublist {f : P → α → Call (P × Bool)} {v : List α} {p q : P} {l : List α}
    (h : keepRun f p v = .ret (q, l)) : l.Sublist v := by
  induction v generalizing p q l with
  | nil => simp [keepRun] at h; simp [h.2]
  | cons x v ih =>
    simp only [keepRun] at h
    cases hf : f p x with
    | panic => simp [hf] at h
    | ret pb =>
      obtain ⟨p', b⟩ := pb
      rw [hf] at h
      simp only at h
      cases hk : keepRun f p' v with
      | panic => simp [hk] at h
      | ret ql =>
        obtain ⟨q', l'⟩ := ql
        rw [hk] at h
        simp only [Call.ret.injEq, Prod.mk.injEq] at h
        obtain ⟨rfl, rfl⟩ := h
        cases b
        · exact (ih hk).cons _
        · exact (ih hk).cons_cons _

/-- a pure predicate -/
theorem keepRun_pure (f : α → Bool) (v : List α) (p : P) :
    keepRun (fun p x => .ret (p, f x)) p v = .ret (p, v.filter f) := by
  induction v with
  | nil => rfl
  | cons x v ih => simp only [keepRun, ih, List.filter_cons]

end Verif
