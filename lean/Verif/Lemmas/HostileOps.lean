import Verif.Lemmas.Hostile
import Verif.Spec.Hostile
import Verif.Lemmas.VecMap
import Verif.Lemmas.Dedup
/-! Arbitrary comparisons: collecting, the slot-level driver, and what results may contain. -/
namespace Verif
namespace Hostile
variable {W α : Type} {mp : Prop}

/-! ### Collecting -/

theorem swapAt_perm {d : List α} {i j : Nat} (hi : i < d.length) (hj : j < d.length) : (swapAt d i j).Perm d := by
  classical
  rw [swapAt_eq hi hj, List.perm_iff_count]
  intro a
  by_cases h : i = j
  · subst h; simp
  · rw [List.count_set (by simpa using hj), List.count_set hi]
    have h1 : (d.set i d[j])[j]'(by simpa using hj) = d[j] := by rw [List.getElem_set]; simp
    rw [h1]
    have c1 : d[i] = a → 0 < d.count a := fun e => List.count_pos_iff.2 (e ▸ List.getElem_mem hi)
    have c2 : d[j] = a → 0 < d.count a := fun e => List.count_pos_iff.2 (e ▸ List.getElem_mem hj)
    by_cases e1 : d[i] = a <;> by_cases e2 : d[j] = a <;> simp [e1, e2] <;> have := c1 <;> have := c2 <;> simp_all <;> omega

theorem Ok.swap {d : List α} {i j : Nat} (hi : i < d.length) (hj : j < d.length) :
    Ok mp (swap d i j : M W (List α)) (fun r => r.Perm d) := by
  unfold Hostile.swap
  rw [if_pos ⟨hi, hj⟩]
  exact Ok.pure (swapAt_perm hi hj)

theorem dedupLoop_ok {same : α → α → M W Bool} (hs : ∀ a b, Ok mp (same a b) fun _ => True) (keep : Keep) :
    ∀ (fuel : Nat) (d : List α) (i j : Nat), i + fuel = d.length → j < i → Ok mp (dedupLoop same keep fuel d i j)
      (fun r => r.1.Perm d ∧ r.2 < d.length) := by
  intro fuel
  induction fuel with
  | zero => intro d i j h1 h2; exact Ok.pure ⟨List.Perm.refl _, by omega⟩
  | succ fuel ih =>
    intro d i j h1 h2
    rw [dedupLoop, List.getElem?_eq_getElem (by omega : i < d.length), List.getElem?_eq_getElem (by omega : j < d.length)]
    simp only
    have sub : ∀ d' i' j', d'.Perm d → i' = i + 1 → (j' = j ∨ j' = j + 1) →
        Ok mp (dedupLoop same keep fuel d' i' j') (fun r => r.1.Perm d ∧ r.2 < d.length) := by
      intro d' i' j' hp hi hj
      have hl := hp.length_eq
      exact (ih d' i' j' (by omega) (by omega)).mono fun r hr => ⟨hr.1.trans hp, by omega⟩
    refine (hs _ _).bind fun b _ => ?_
    split
    · split
      · exact (Ok.swap (by omega) (by omega)).bind fun d' hp => sub _ _ _ hp rfl (.inr rfl)
      · exact sub _ _ _ (List.Perm.refl _) rfl (.inr rfl)
    · split
      · exact (Ok.swap (by omega) (by omega)).bind fun d' hp => sub _ _ _ hp rfl (.inl rfl)
      · exact sub _ _ _ (List.Perm.refl _) rfl (.inl rfl)

theorem dedupBy_ok {same : α → α → M W Bool} (hs : ∀ a b, Ok mp (same a b) fun _ => True) (keep : Keep) (d : List α) :
    Ok mp (dedupBy same keep d) (fun r => r.1.Perm d ∧ r.2 ≤ d.length ∧ (d ≠ [] → r.2 ≠ 0)) := by
  unfold dedupBy
  split
  · rename_i h
    have : d = [] := List.isEmpty_iff.1 h
    subst this
    exact Ok.pure ⟨List.Perm.refl _, Nat.le_refl _, fun h => absurd rfl h⟩
  · rename_i h
    have : d ≠ [] := fun e => h (by rw [e]; rfl)
    have := List.length_pos_iff.2 this
    refine (dedupLoop_ok hs keep (d.length - 1) d 1 0 (by omega) (by omega)).bind fun r hr => ?_
    exact Ok.pure ⟨hr.1, by show r.2 + 1 ≤ _; omega, fun _ => by show r.2 + 1 ≠ 0; omega⟩

theorem Within.refl (l : List α) : Within l l := ⟨[], by simp⟩
theorem Within.trans {r l m : List α} (h1 : Within r l) (h2 : Within l m) : Within r m := by
  obtain ⟨x, hx⟩ := h1
  obtain ⟨y, hy⟩ := h2
  exact ⟨x ++ y, by rw [← List.append_assoc]; exact (hx.append_right y).trans hy⟩
theorem Within.append_right {r l : List α} (h : Within r l) (m : List α) : Within (r ++ m) (l ++ m) := by
  obtain ⟨x, hx⟩ := h
  refine ⟨x, ?_⟩
  have h1 : ((r ++ m) ++ x).Perm ((r ++ x) ++ m) := by
    rw [List.append_assoc, List.append_assoc]
    exact List.Perm.append_left r List.perm_append_comm
  exact h1.trans (hx.append_right m)
theorem Within.left (l m : List α) : Within l (l ++ m) := ⟨m, List.Perm.refl _⟩

/-- the buffer while collecting: part of what was pushed, never empty once something was pushed -/
structure Part (s : SortAndDedup α) (l : List α) : Prop where
  within : Within s.data l
  sorted : s.sorted ≤ s.data.length
  ne : l ≠ [] → s.data ≠ []

theorem Part.trans {s s' : SortAndDedup α} {l : List α} (h : Part s' s.data) (h' : Part s l) : Part s' l :=
  ⟨h.within.trans h'.within, h.sorted, fun hl => h.ne (h'.ne hl)⟩

variable {cmp : Cmp W α α} {sort : List α → W → Call (List α) × W}

theorem sortAndDedup_ok (hc : ∀ a b w, (cmp a b w).1 = .panic → mp) (hsp : ∀ l w, (sort l w).1 = .panic → mp)
    (hsort : ∀ l w r, (sort l w).1 = .ret r → r.Perm l) (keep : Keep) (s : SortAndDedup α) (hle : s.sorted ≤ s.data.length) :
    Ok mp (sortAndDedup cmp sort keep s) (fun r => Part r s.data) := by
  unfold sortAndDedup
  split
  · refine (Ok.call (P := fun r => r.Perm s.data) (hsp _) (hsort _)).bind fun slice hp => ?_
    refine (dedupBy_ok (fun a b => (Ok.call (P := fun _ => True) (hc a b) (fun _ _ _ => trivial)).bind fun _ _ => Ok.pure trivial)
      keep slice).bind fun r hr => Ok.pure ⟨⟨r.1.drop r.2, ?_⟩, Nat.le_refl _, fun hne => ?_⟩
    · show (r.1.take r.2 ++ r.1.drop r.2).Perm s.data
      rw [List.take_append_drop]; exact hr.1.trans hp
    · have h1 := hr.1.length_eq
      have h2 := hp.length_eq
      have h3 := List.length_pos_iff.2 hne
      have h4 := hr.2.2 (List.length_pos_iff.1 (by omega))
      show r.1.take r.2 ≠ []
      apply List.length_pos_iff.1
      rw [List.length_take]; omega
  · exact Ok.pure ⟨Within.refl _, hle, fun h => h⟩

theorem pushElem_ok (hc : ∀ a b w, (cmp a b w).1 = .panic → mp) (keep : Keep) (s : SortAndDedup α) (x : α)
    (hle : s.sorted ≤ s.data.length) : Ok mp (pushElem cmp keep s x) (fun r => Part r (s.data ++ [x])) := by
  have full : ∀ n, n ≤ s.data.length + 1 → Part (⟨s.data ++ [x], n⟩ : SortAndDedup α) (s.data ++ [x]) :=
    fun n hn => ⟨Within.refl _, by simpa using hn, fun h => h⟩
  unfold pushElem
  split
  · rename_i hs
    split
    · rename_i last hlast
      have hne : s.data ≠ [] := by intro h; rw [h] at hlast; cases hlast
      refine (Ok.call (P := fun _ => True) (hc _ _) (fun _ _ _ => trivial)).bind fun o _ => ?_
      cases o with
      | lt => exact Ok.pure (full _ (by omega))
      | eq =>
        simp only
        split
        · refine Ok.pure ⟨⟨[last], ?_⟩, ?_, fun _ => by simp⟩
          · show ((s.data.dropLast ++ [x]) ++ [last]).Perm (s.data ++ [x])
            have e : s.data = s.data.dropLast ++ [last] := by
              obtain ⟨ys, hys⟩ := List.getLast?_eq_some_iff.1 hlast
              rw [hys]; simp
            conv => rhs; rw [e]
            rw [List.append_assoc, List.append_assoc]
            exact List.Perm.append_left _ (List.Perm.swap _ _ _)
          · have := List.length_pos_iff.2 hne
            simp; omega
        · exact Ok.pure ⟨Within.left _ _, hle, fun _ => hne⟩
      | gt => exact Ok.pure (full _ (by omega))
    · exact Ok.pure (full _ (by omega))
  · exact Ok.pure (full _ (by omega))

theorem push_ok (hc : ∀ a b w, (cmp a b w).1 = .panic → mp) (hsp : ∀ l w, (sort l w).1 = .panic → mp)
    (hsort : ∀ l w r, (sort l w).1 = .ret r → r.Perm l) (keep : Keep) (s : SortAndDedup α) (x : α) (hle : s.sorted ≤ s.data.length) :
    Ok mp (push cmp sort keep s x) (fun r => Part r (s.data ++ [x])) := by
  unfold push
  refine (pushElem_ok hc keep s x hle).bind fun r hr => ?_
  split
  · split
    · have := hr.sorted; omega
    · split
      · exact (sortAndDedup_ok hc hsp hsort keep r hr.sorted).mono fun q hq => hq.trans hr
      · exact Ok.pure hr
  · exact Ok.pure hr

theorem pushAll_ok (hc : ∀ a b w, (cmp a b w).1 = .panic → mp) (hsp : ∀ l w, (sort l w).1 = .panic → mp)
    (hsort : ∀ l w r, (sort l w).1 = .ret r → r.Perm l) (keep : Keep) :
    ∀ (xs : List α) (s : SortAndDedup α) (l : List α), Part s l → Ok mp (pushAll cmp sort keep xs s) (fun r => Part r (l ++ xs)) := by
  intro xs
  induction xs with
  | nil => intro s l h; rw [List.append_nil]; exact Ok.pure h
  | cons x xs ih =>
    intro s l h
    rw [pushAll]
    refine (push_ok hc hsp hsort keep s x h.sorted).bind fun r hr => ?_
    have : Part r (l ++ [x]) := ⟨hr.within.trans (h.within.append_right [x]), hr.sorted, fun _ => hr.ne (by simp)⟩
    have := ih r (l ++ [x]) this
    rwa [List.append_assoc] at this

theorem sortDedupBy_ok (hc : ∀ a b w, (cmp a b w).1 = .panic → mp) (hsp : ∀ l w, (sort l w).1 = .panic → mp)
    (hsort : ∀ l w r, (sort l w).1 = .ret r → r.Perm l) (keep : Keep) (items : List α) :
    Ok mp (sortDedupBy cmp sort keep items) (fun r => Within r items ∧ (items ≠ [] → r ≠ [])) := by
  unfold sortDedupBy
  refine (pushAll_ok hc hsp hsort keep items ⟨[], 0⟩ [] ⟨Within.refl _, Nat.le_refl _, fun h => h⟩).bind fun s hs => ?_
  refine (sortAndDedup_ok hc hsp hsort keep s hs.sorted).bind fun r hr => Ok.pure ?_
  have := hr.trans hs
  exact ⟨this.within, this.ne⟩

/-! A lawful comparison that may panic: what is collected, if anything, is the usual result -/
section lawful
variable {c : α → α → Ordering} (hag : ∀ a b w o, (cmp a b w).1 = .ret o → o = c a b)
  (hsag : ∀ l w r, (sort l w).1 = .ret r → r = stableSortBy c l)
include hag

theorem dedupLoop_agrees (keep : Keep) : ∀ (fuel : Nat) (d : List α) (i j : Nat), i + fuel = d.length → j < i →
    Agrees (dedupLoop (fun a b => (do let o ← call (cmp a b); pure (o == .eq) : M W Bool)) keep fuel d i j)
      (Verif.dedupLoop (fun a b => c a b == .eq) keep fuel d i j) := by
  intro fuel
  induction fuel with
  | zero => intro d i j _ _; exact Agrees.pure
  | succ fuel ih =>
    intro d i j h1 h2
    have swp : ∀ k, k < d.length → Agrees (swap d i k : M W (List α)) (swapAt d i k) := by
      intro k hk
      unfold swap
      rw [if_pos ⟨by omega, hk⟩]; exact Agrees.pure
    have sl := fun k => swapAt_length d i k
    rw [dedupLoop, Verif.dedupLoop, List.getElem?_eq_getElem (by omega : i < d.length), List.getElem?_eq_getElem (by omega : j < d.length)]
    simp only
    have hsm : Agrees (do let o ← call (cmp d[i] d[j]); pure (o == .eq) : M W Bool) (c d[i] d[j] == .eq) :=
      (Agrees.call (hag _ _)).bind Agrees.pure
    refine hsm.bind ?_
    split
    · split
      · exact (swp _ (by omega)).bind (ih _ _ _ (by rw [sl]; omega) (by omega))
      · exact ih _ _ _ (by omega) (by omega)
    · split
      · exact (swp _ (by omega)).bind (ih _ _ _ (by rw [sl]; omega) (by omega))
      · exact ih _ _ _ (by omega) (by omega)

include hsag

theorem sortAndDedup_agrees (keep : Keep) (s : SortAndDedup α) :
    Agrees (sortAndDedup cmp sort keep s) (s.sortAndDedup c keep) := by
  unfold sortAndDedup SortAndDedup.sortAndDedup
  split
  · refine (Agrees.call (hsag _)).bind ?_
    have : Agrees (dedupBy (fun a b => (do let o ← call (cmp a b); pure (o == .eq) : M W Bool)) keep (stableSortBy c s.data))
        (Verif.dedupBy (fun a b => c a b == .eq) keep (stableSortBy c s.data)) := by
      unfold dedupBy Verif.dedupBy
      split
      · exact Agrees.pure
      · rename_i h
        have : stableSortBy c s.data ≠ [] := fun e => h (by rw [e]; rfl)
        have := List.length_pos_iff.2 this
        exact (dedupLoop_agrees hag keep _ _ 1 0 (by omega) (by omega)).bind Agrees.pure
    exact this.bind Agrees.pure
  · exact Agrees.pure

theorem push_agrees (keep : Keep) (s : SortAndDedup α) (x : α) (hle : s.sorted ≤ s.data.length) :
    Agrees (push cmp sort keep s x) (s.push c keep x) ∧ (s.push c keep x).sorted ≤ (s.push c keep x).data.length := by
  have h1 : Agrees (pushElem cmp keep s x) (s.pushElem c keep x) := by
    unfold pushElem SortAndDedup.pushElem
    split
    · cases s.data.getLast? with
      | some last =>
        refine (Agrees.call (hag _ _)).bind ?_
        simp only
        cases c last x with
        | lt => exact Agrees.pure
        | eq =>
          simp only
          split
          · exact Agrees.pure
          · exact Agrees.pure
        | gt => exact Agrees.pure
      | none => exact Agrees.pure
    · exact Agrees.pure
  have hle1 : (s.pushElem c keep x).sorted ≤ (s.pushElem c keep x).data.length := by
    unfold SortAndDedup.pushElem
    split
    · split
      · rename_i hl
        have hne : s.data ≠ [] := by intro h; rw [h] at hl; cases hl
        have := List.length_pos_iff.2 hne
        split
        · simp; omega
        · split
          · simp; omega
          · exact hle
        · simp; omega
      · simp; omega
    · simp; omega
  constructor
  · unfold push SortAndDedup.push
    refine h1.bind ?_
    simp only
    split
    · rw [if_neg (by omega)]
      split
      · exact sortAndDedup_agrees hag hsag keep _
      · exact Agrees.pure
    · exact Agrees.pure
  · unfold SortAndDedup.push
    simp only
    split
    · split
      · unfold SortAndDedup.sortAndDedup
        split
        · exact Nat.le_refl _
        · exact hle1
      · exact hle1
    · exact hle1

theorem sortDedupBy_agrees (keep : Keep) (items : List α) : Agrees (sortDedupBy cmp sort keep items) (Verif.sortDedupBy c keep items) := by
  have all : ∀ (xs : List α) (s : SortAndDedup α), s.sorted ≤ s.data.length →
      Agrees (pushAll cmp sort keep xs s) (xs.foldl (SortAndDedup.push c keep) s) := by
    intro xs
    induction xs with
    | nil => intro s _; exact Agrees.pure
    | cons x xs ih =>
      intro s h
      have := push_agrees hag hsag keep s x h
      exact this.1.bind (ih _ this.2)
  unfold sortDedupBy Verif.sortDedupBy SortAndDedup.intoInner
  exact (all items _ (Nat.le_refl _)).bind ((sortAndDedup_agrees hag hsag keep _).bind Agrees.pure)

end lawful

/-! ### The slot-level driver follows the list-level one -/
section sim
variable {A B : Type} {R : SlotMS A B → InPlaceMS A B → Prop}

/-- related results -/
def RelRes (R : SlotMS A B → InPlaceMS A B → Prop) (x : (SlotMS A B × Outcome Bool) × W) (y : (InPlaceMS A B × Outcome Bool) × W) : Prop :=
  R x.1.1 y.1.1 ∧ x.1.2 = y.1.2 ∧ x.2 = y.2

theorem RelRes.andThen {x : (SlotMS A B × Outcome Bool) × W} {y : (InPlaceMS A B × Outcome Bool) × W} {k k'} (h : RelRes R x y)
    (hk : ∀ s l w, R s l → RelRes R (k s w) (k' l w)) : RelRes R (andThen x k) (andThen y k') := by
  obtain ⟨h1, h2, h3⟩ := h
  unfold Hostile.andThen
  rw [← h2, ← h3]
  cases hx : x.1.2 with
  | ret b => cases b with
    | true => exact hk _ _ _ h1
    | false => exact ⟨h1, h2, h3⟩
  | panic => exact ⟨h1, h2, h3⟩
  | fault => exact ⟨h1, h2, h3⟩

theorem step_rel {x : SlotMS A B × Flow} {y : InPlaceMS A B × Flow} (h : R x.1 y.1 ∧ x.2 = y.2) (w : W) :
    RelRes R (step x w) (step y w) := ⟨h.1, by simp only [step]; rw [h.2], rfl⟩

theorem binaryMerge_hsim {o1 o2} (h : SimOp R o1 o2) (hR : ∀ s l, R s l → Refines s l) (cmp : Cmp W A B) (an bn : Nat) :
    ∀ s l w, R s l → RelRes R (binaryMerge cmp o1 s an bn w) (binaryMerge cmp o2 l an bn w) := by
  induction an using Nat.strongRecOn generalizing bn with
  | ind an ih =>
    intro s l w hr
    have hf := hR s l hr
    have ha : MergeState.aSlice s = l.src := by
      obtain ⟨g, hg⟩ := hf.rep
      exact Builder.sourceSlice_rep hg
    have hb : MergeState.bSlice s = l.b := hf.b
    rw [binaryMerge, binaryMerge]
    split
    · split
      · exact ⟨hr, rfl, rfl⟩
      · exact step_rel (h.2.2.1 s l hr bn) w
    · split
      · exact step_rel (h.2.1 s l hr an) w
      · simp only [ha, hb]
        have ha' : MergeState.aSlice l = l.src := rfl
        have hb' : MergeState.bSlice l = l.b := rfl
        rw [ha', hb']
        cases l.src[an / 2]? with
        | none => exact ⟨hr, rfl, rfl⟩
        | some a =>
          simp only
          split
          · exact ⟨hr, rfl, rfl⟩
          · split
            · exact ⟨hr, rfl, rfl⟩
            · exact ⟨hr, rfl, rfl⟩
            · refine (ih _ (by omega) _ s l _ hr).andThen fun s l w hr => ?_
              refine (step_rel (h.2.2.2 s l hr) w).andThen fun s l w hr => ?_
              exact ih _ (by omega) _ s l w hr
            · refine (ih _ (by omega) _ s l _ hr).andThen fun s l w hr => ?_
              refine (step_rel (h.2.1 s l hr 1) w).andThen fun s l w hr => ?_
              exact ih _ (by omega) _ s l w hr

end sim
end Hostile
end Verif
