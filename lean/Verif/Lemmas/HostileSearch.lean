import Verif.Lemmas.HostileAgree
/-! Arbitrary comparisons: what a search says about the element it found, and one-element updates. -/
namespace Verif
namespace Hostile
variable {W α : Type} {mp : Prop}

/-- the position is in range, and the element at a found position satisfied `Q` -/
def Found (l : List α) (Q : α → Prop) : SearchResult → Prop
  | .found i => ∃ x, l[i]? = some x ∧ Q x
  | .notFound i => i ≤ l.length

theorem getUnchecked_at_ok {l : List α} {i : Nat} (h : i < l.length) : Ok mp (getUnchecked l i : M W α) (fun x => l[i]? = some x) := by
  unfold Hostile.getUnchecked
  rw [List.getElem?_eq_getElem h]
  exact Ok.pure rfl

theorem binarySearchBy_found {f : α → M W Ordering} {l : List α} {Q : α → Prop} (hf : ∀ x, Ok mp (f x) fun o => o = .eq → Q x) :
    Ok mp (binarySearchBy f l) (Found l Q) := by
  unfold binarySearchBy
  split
  · exact Ok.pure (Nat.zero_le _)
  · refine (bsLoop_ok (fun x => (hf x).mono fun _ _ => trivial) l.length 0 (by omega) (by omega)).bind fun base hb => ?_
    refine (getUnchecked_at_ok hb).bind fun x hx => (hf x).bind fun o ho => ?_
    cases o with
    | lt => exact Ok.pure (by show base + 1 ≤ _; omega)
    | eq => exact Ok.pure ⟨x, hx, ho rfl⟩
    | gt => exact Ok.pure (by show base ≤ _; omega)

theorem call_eq {A B : Type} {cmp : Cmp W A B} (a : A) (b : B) :
    Ok (Panics cmp) (call (cmp a b)) (fun o => o = .eq → SaysEqual cmp a b) :=
  Ok.call (fun w h => ⟨a, b, w, h⟩) (fun w _ h e => ⟨w, by rw [h, e]⟩)

/-- the rest of a mutating method runs if the search returns; a panic leaves the value alone -/
theorem afterSearch_cases {S R : Type} {s : S} {search : M W SearchResult} {k : SearchResult → S × Outcome R} {P : SearchResult → Prop}
    (h : Ok mp search P) (w : W) :
    (∃ r, P r ∧ (afterSearch s search k w).1 = k r) ∨ ((afterSearch s search k w).1 = (s, .panic) ∧ mp) := by
  have := h w
  unfold afterSearch
  rcases hs : search w with ⟨o, w'⟩
  rw [hs] at this
  cases o with
  | ret r => exact .inl ⟨r, this.1 r rfl, rfl⟩
  | panic => exact .inr ⟨rfl, this.2.1 rfl⟩
  | fault => exact absurd rfl this.2.2

theorem split_at {l : List α} {i : Nat} {x : α} (h : l[i]? = some x) : l = l.take i ++ x :: l.drop (i + 1) := by
  obtain ⟨h1, h2⟩ := List.getElem?_eq_some_iff.1 h
  rw [← h2]
  exact (List.take_append_drop i l).symm.trans (by rw [List.drop_eq_getElem_cons h1])

theorem set_at {l : List α} {i : Nat} {x y : α} (h : l[i]? = some x) : l.set i y = l.take i ++ y :: l.drop (i + 1) := by
  obtain ⟨h1, -⟩ := List.getElem?_eq_some_iff.1 h
  exact List.set_eq_take_append_cons_drop.trans (by rw [if_pos h1])

theorem erase_at {l : List α} {i : Nat} : l.eraseIdx i = l.take i ++ l.drop (i + 1) := List.eraseIdx_eq_take_drop_succ l i

theorem insert_at {l : List α} {i : Nat} {x : α} (h : i ≤ l.length) : l.insertIdx i x = l.take i ++ x :: l.drop i := by
  induction l generalizing i with
  | nil => simp at h; subst h; rfl
  | cons y l ih =>
    cases i with
    | zero => rfl
    | succ i => simpa using ih (by simpa using h)

/-! ### A completed union holds the whole left input -/
section sup
variable {T : Type}

/-- the left input is a subsequence of what was produced and what remains -/
def SupAcc (a0 : List T) (s : SliceMS T T T) : Prop := a0.Sublist (s.r ++ s.a)

theorem supAcc_takeA {a0 : List T} {s : SliceMS T T T} (h : SupAcc a0 s) (n : Nat) :
    SupAcc a0 ((SliceMS.mut cloneConverter cloneConverter).advanceA s n true).1 := by
  unfold SupAcc at *
  unfold SliceMS.mut
  simp only
  split
  · exact h
  · simp only [if_true, pushAll_clone, List.append_assoc, List.take_append_drop]; exact h

theorem supAcc_advB {a0 : List T} {s : SliceMS T T T} (h : SupAcc a0 s) (n : Nat) (take : Bool) :
    SupAcc a0 ((SliceMS.mut cloneConverter cloneConverter).advanceB s n take).1 := by
  unfold SupAcc at *
  unfold SliceMS.mut
  simp only
  split
  · exact h
  · split
    · simp only [pushAll_clone]
      exact h.trans (List.Sublist.append_right (List.sublist_append_left _ _) _)
    · exact h

variable [Ord T]

theorem union_supAcc (a0 : List T) : Preserves (SupAcc a0) (setUnionOp (T := T) (SliceMS.mut cloneConverter cloneConverter)) :=
  ⟨fun _ h n => supAcc_takeA h n, fun _ h n => supAcc_advB h n _, fun _ h => andThen_pres (supAcc_takeA h 1) fun _ h => supAcc_advB h 1 _⟩

end sup
end Hostile
end Verif
