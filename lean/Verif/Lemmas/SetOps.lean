import Verif.Lemmas.VecSet
import Verif.Lemmas.Retain
import Verif.Spec.SetHistory
/-! Invariants of the set operations. -/
namespace Verif
open Std
variable {T : Type _} [Ord T] [TransOrd T]

theorem Has.congr {l : List T} {x y : T} (e : compare x y = .eq) : Has l x ↔ Has l y := by
  constructor
  · rintro ⟨z, hz, h⟩; exact ⟨z, hz, cmp_eq_trans h e⟩
  · rintro ⟨z, hz, h⟩; exact ⟨z, hz, cmp_eq_trans h (cmp_symm e)⟩

theorem has_of_mem {l : List T} {x : T} (h : x ∈ l) : Has l x := ⟨x, h, cmp_self x⟩

theorem asc_prefix {l m : List T} (h : l <+: m) (hm : Ascending m) : Ascending l :=
  AscendingBy.sublist (key := fun x : T => x) hm h.sublist

theorem asc_pairwise {l : List T} (h : ∀ i, ∀ x y, l[i]? = some x → l[i + 1]? = some y → compare x y = .lt) :
    Ascending l := by
  induction l with
  | nil => exact List.Pairwise.nil
  | cons x l ih =>
    have ih := ih (fun i a b ha hb => h (i + 1) a b (by simpa using ha) (by simpa using hb))
    rw [ascending_iff_id, ascendingBy_cons]
    refine ⟨?_, ih⟩
    cases l with
    | nil => simp
    | cons y l =>
      have hxy := h 0 x y (by simp) (by simp)
      intro z hz
      rcases List.mem_cons.1 hz with rfl | hz
      · exact hxy
      · rw [ascending_iff_id, ascendingBy_cons] at ih
        exact cmp_lt_trans hxy (ih.1 z hz)

theorem zip_adjacent {l : List T} :
    (l.zip (l.drop 1)).all (fun p => compare p.1 p.2 == .lt) = true ↔ Ascending l := by
  constructor
  · intro h
    apply asc_pairwise
    intro i x y hx hy
    have : (l.zip (l.drop 1))[i]? = some (x, y) := by
      rw [List.getElem?_zip_eq_some]
      refine ⟨hx, ?_⟩
      rw [List.getElem?_drop, Nat.add_comm]; exact hy
    have := (List.all_eq_true.1 h) _ (List.mem_of_getElem? this)
    simpa using this
  · intro h
    cases l with
    | nil => rfl
    | cons x l =>
      rw [List.all_eq_true]
      simp only [List.drop_succ_cons, List.drop_zero]
      intro p hp
      induction l generalizing x with
      | nil => simp at hp
      | cons y l ih =>
        rw [ascending_iff_id, ascendingBy_cons] at h
        simp only [List.zip_cons_cons, List.mem_cons] at hp
        rcases hp with rfl | hp
        · simpa using h.1 y (by simp)
        · exact ih y h.2 hp

namespace VecSet

theorem checkBytes_ok {valid : T → Bool} {l : List T} {s : VecSet T} :
    checkBytes valid l = .ok s ↔ (∀ x ∈ l, valid x = true) ∧ Ascending l ∧ s.elems = l := by
  unfold checkBytes
  by_cases h1 : l.all valid = true
  · by_cases h2 : (l.zip (l.drop 1)).all (fun p => compare p.1 p.2 == .lt) = true
    · simp only [h1, h2, Bool.not_true, Bool.false_eq_true, ↓reduceIte, Except.ok.injEq]
      rw [zip_adjacent] at h2
      constructor
      · rintro rfl; exact ⟨by simpa using h1, h2, rfl⟩
      · rintro ⟨_, _, h⟩; cases s; exact congrArg _ h.symm
    · have h3 := h2
      rw [zip_adjacent] at h3
      simp only [h1, h2, Bool.not_true, Bool.not_false, Bool.false_eq_true, ↓reduceIte,
        reduceCtorEq, false_iff, not_and]
      exact fun _ h => absurd h h3
  · simp only [h1, Bool.not_false, ↓reduceIte, reduceCtorEq, false_iff, not_and]
    intro h; exact absurd (List.all_eq_true.2 h) h1

theorem visitSeq_go_ok {E : Type _} (vals l : List T) :
    visitSeq.go (E := E) vals (l.map .ok) = .ok (fromVec (vals ++ l)) := by
  induction l generalizing vals with
  | nil => simp [visitSeq.go, fromVec]
  | cons x l ih => simp [visitSeq.go, ih]

theorem visitSeq_go_err {E : Type _} (vals l : List T) (e : E) (rest : List (Except E T)) :
    visitSeq.go vals (l.map .ok ++ .error e :: rest) = .error e := by
  induction l generalizing vals with
  | nil => simp [visitSeq.go]
  | cons x l ih => simp [visitSeq.go, ih]

theorem seq_cases {E : Type _} (seq : List (Except E T)) :
    (∃ l : List T, seq = l.map .ok) ∨
      (∃ (l : List T) (e : E) (rest : List (Except E T)), seq = l.map .ok ++ .error e :: rest) := by
  induction seq with
  | nil => exact .inl ⟨[], rfl⟩
  | cons x seq ih =>
    cases x with
    | error e => exact .inr ⟨[], e, seq, rfl⟩
    | ok x =>
      rcases ih with ⟨l, rfl⟩ | ⟨l, e, rest, rfl⟩
      · exact .inl ⟨x :: l, rfl⟩
      · exact .inr ⟨x :: l, e, rest, rfl⟩

theorem fromVec_asc (l : List T) : Ascending (fromVec l).elems :=
  (stdSortDedup_spec (key := fun x : T => x) l).1
theorem fromVec_find (l : List T) (x : T) :
    findBy (fun x => x) (fromVec l).elems x = findBy (fun x => x) l x :=
  (stdSortDedup_spec (key := fun x : T => x) l).2 x
theorem fromIter_asc (l : List T) : Ascending (fromIter l).elems := (sortDedup_spec .first l).1
theorem fromIter_find (l : List T) (x : T) :
    findBy (fun x => x) (fromIter l).elems x = findBy (fun x => x) l x :=
  (sortDedup_spec .first l).2 x

theorem fromVec_has (l : List T) (x : T) : Has (fromVec l).elems x ↔ Has l x := by
  rw [has_iff_findBy, has_iff_findBy, fromVec_find]
theorem fromIter_has (l : List T) (x : T) : Has (fromIter l).elems x ↔ Has l x := by
  rw [has_iff_findBy, has_iff_findBy, fromIter_find]

theorem visitSeq_ok_asc {E : Type _} {seq : List (Except E T)} {s : VecSet T}
    (h : visitSeq seq = .ok s) : Ascending s.elems := by
  rcases seq_cases seq with ⟨l, rfl⟩ | ⟨l, e, rest, rfl⟩
  · rw [visitSeq, visitSeq_go_ok] at h
    cases h; exact fromVec_asc _
  · rw [visitSeq, visitSeq_go_err] at h; cases h

theorem unionWith_prefix {a b : VecSet T} (ha : Ascending a.elems) (hb : Ascending b.elems) :
    (a.unionWith b).1.elems <+: unionList a.elems b.elems := by
  rw [unionWith_eq ha hb]
  exact joinRef_prefix _ _ (fun _ _ => .inl rfl) (fun _ _ => .inr ⟨rfl, by simp⟩) (fun _ _ _ _ _ => .inl rfl)

theorem retain_asc {P : Type _} {s : VecSet T} (hs : Ascending s.elems) {f : P → T → Call (P × Bool)} {p : P}
    (hr : (s.retain f p).2.2 ≠ .panic) : Ascending (s.retain f p).1.elems := by
  unfold retain at hr ⊢
  cases hk : keepRun f p s.elems with
  | panic => exact absurd (smallVecRetain_panic hk).1 hr
  | ret ql =>
    obtain ⟨q, l⟩ := ql
    rw [smallVecRetain_ret hk]
    exact AscendingBy.sublist (key := fun x : T => x) hs (keepRun_sublist hk)

end VecSet

open VecSet in
theorem Built.ascending {s : VecSet T} (h : Built s) : Ascending s.elems := by
  induction h with
  | empty => exact List.Pairwise.nil
  | single x => exact List.pairwise_singleton _ _
  | fromVec l => exact fromVec_asc l
  | fromIter l => exact fromIter_asc l
  | fromBTreeSet l h => exact h
  | deserialized seq h => exact visitSeq_ok_asc h
  | validated valid l h => rw [checkBytes_ok] at h; rw [h.2.2]; exact h.2.1
  | insert h x ih => exact (insert_spec ih x).1
  | remove h x ih => exact (remove_spec ih x).1
  | retain h f p hr ih => exact retain_asc ih hr
  | extend h l ih =>
    rw [VecSet.extend, bitorAssign_eq ih (fromIter_asc l)]; exact unionList_asc ih (fromIter_asc l)
  | union _ _ iha ihb => rw [union_eq iha ihb]; exact unionList_asc iha ihb
  | intersection _ _ iha ihb => rw [intersection_eq iha ihb]; exact interList_asc iha ihb
  | difference _ _ iha ihb => rw [difference_eq iha ihb]; exact diffList_asc iha ihb
  | symmetricDifference _ _ iha ihb => rw [symmetricDifference_eq iha ihb]; exact xorList_asc iha ihb
  | bitandAssign _ _ iha ihb => rw [bitandAssign_eq iha ihb]; exact interList_asc iha ihb
  | bitandAssignRef _ _ iha ihb => rw [bitandAssignRef_eq iha ihb]; exact interList_asc iha ihb
  | bitorAssign _ _ iha ihb => rw [bitorAssign_eq iha ihb]; exact unionList_asc iha ihb
  | bitorAssignRef _ _ iha ihb => rw [bitorAssignRef_eq iha ihb]; exact unionList_asc iha ihb
  | bitxorAssign _ _ iha ihb => rw [bitxorAssign_eq iha ihb]; exact xorList_asc iha ihb
  | bitxorAssignRef _ _ iha ihb => rw [bitxorAssignRef_eq iha ihb]; exact xorList_asc iha ihb
  | subAssign _ _ iha ihb => rw [subAssign_eq iha ihb]; exact diffList_asc iha ihb
  | subAssignRef _ _ iha ihb => rw [subAssignRef_eq iha ihb]; exact diffList_asc iha ihb
  | unionWith _ _ iha ihb => exact asc_prefix (unionWith_prefix iha ihb) (unionList_asc iha ihb)
  | intersectionWith _ _ iha ihb => rw [intersectionWith_eq iha ihb]; exact interList_asc iha ihb
  | xorWith _ _ iha ihb => rw [xorWith_eq iha ihb]; exact interList_asc iha ihb
  | differenceWith _ _ iha ihb => rw [differenceWith_eq iha ihb]; exact diffList_asc iha ihb

/-! ### Counting -/

theorem stableSort_asc {l : List T} (h : l.Pairwise (fun x y => compare x y ≠ .eq)) :
    Ascending (stableSortBy compare l) := by
  have hs : (stableSortBy compare l).Pairwise (fun x y => compare x y ≠ .gt) :=
    stableSort_sorted (key := fun x : T => x) l
  have hn : (stableSortBy compare l).Pairwise (fun x y => compare x y ≠ .eq) :=
    ((stableSort_perm compare l).symm.pairwise_iff (fun {x y} h e => h (cmp_symm e))).1 h
  refine (hs.and hn).imp ?_
  intro x y ⟨h1, h2⟩
  cases h : compare x y with
  | lt => rfl
  | eq => exact absurd h h2
  | gt => exact absurd h h1

theorem enumerates_length {l m : List T} {S : T → Prop} (hl : Enumerates l S) (hm : Enumerates m S) :
    l.length = m.length := by
  have key : ∀ {l m : List T}, Enumerates l S → Enumerates m S → l.length ≤ m.length := by
    intro l m hl hm
    have pl := stableSort_perm (compare : T → T → Ordering) l
    have pm := stableSort_perm (compare : T → T → Ordering) m
    rw [← pl.length_eq, ← pm.length_eq]
    refine AscendingBy.length_le (key := fun x : T => x) (kb := fun x : T => x)
      (stableSort_asc hl.1) (stableSort_asc hm.1) ?_
    intro x hx
    obtain ⟨y, hy, e⟩ := (hm.2 x).1 ((hl.2 x).2 (has_of_mem (pl.mem_iff.1 hx)))
    exact ⟨y, pm.mem_iff.2 hy, cmp_symm e⟩
  exact Nat.le_antisymm (key hl hm) (key hm hl)

theorem ascending_enumerates {l : List T} (h : Ascending l) : Enumerates l (Has l) :=
  ⟨h.imp (fun h e => by rw [e] at h; cases h), fun _ => Iff.rfl⟩

/-! ### One step of a history -/

theorem enumerates_congr {l : List T} {S S' : T → Prop} (h : ∀ x, S x ↔ S' x) :
    Enumerates l S ↔ Enumerates l S' := by
  unfold Enumerates
  simp only [h]

open VecSet in
theorem setStep {s : VecSet T} {S : T → Prop} (hs : Ascending s.elems) (hS : ∀ x, Has s.elems x ↔ S x)
    (op : SetOp T) (ok : op.Ok) :
    Ascending (op.exec s).1.elems ∧ (∀ x, Has (op.exec s).1.elems x ↔ op.next S x) ∧
      op.answers S (op.exec s).2 := by
  cases op with
  | insert x =>
    obtain ⟨h1, h2, h3⟩ := insert_spec hs x
    refine ⟨h1, ?_, _, rfl, by rw [h2, hS]⟩
    intro y
    show Has (s.insert x).1.elems y ↔ _
    rw [has_iff_findBy, h3]
    by_cases e : compare x y = .eq
    · simp [e, SetOp.next]
    · simp only [e, ↓reduceIte, SetOp.next, or_false, ← hS, has_iff_findBy]
  | remove x =>
    obtain ⟨h1, h2, h3⟩ := remove_spec hs x
    refine ⟨h1, ?_, _, rfl, by rw [h2, hS]⟩
    intro y
    show Has (s.remove x).1.elems y ↔ _
    rw [has_iff_findBy, h3]
    by_cases e : compare x y = .eq
    · simp [e, SetOp.next]
    · simp only [e, ↓reduceIte, SetOp.next, ← hS, has_iff_findBy, ne_eq, not_false_eq_true, and_true]
  | retain p =>
    have e : s.retain (fun _ x => .ret ((), p x)) () = (⟨s.elems.filter p⟩, (), .cont) := by
      rw [VecSet.retain, smallVecRetain_ret (keepRun_pure p s.elems ())]
    simp only [SetOp.exec, e]
    refine ⟨AscendingBy.sublist (key := fun x : T => x) hs List.filter_sublist, ?_, rfl⟩
    intro y
    simp only [SetOp.next, ← hS, Has, List.mem_filter]
    constructor
    · rintro ⟨z, ⟨hz, hp⟩, e⟩; exact ⟨⟨z, hz, e⟩, by rw [← ok z y e]; exact hp⟩
    · rintro ⟨⟨z, hz, e⟩, hp⟩; exact ⟨z, ⟨hz, by rw [ok z y e]; exact hp⟩, e⟩
  | extend l =>
    have e : s.extend l = (⟨unionList s.elems (fromIter l).elems⟩, .cont) := by
      rw [VecSet.extend, bitorAssign_eq hs (fromIter_asc l)]
    simp only [SetOp.exec, e]
    refine ⟨unionList_asc hs (fromIter_asc l), ?_, rfl⟩
    intro x
    rw [unionList_has hs (fromIter_asc l), fromIter_has, hS]; rfl
  | orAssign o b =>
    have hb := Built.ascending ok
    have e : (SetOp.orAssign o b).exec s = (⟨unionList s.elems b.elems⟩, .unit) := by
      cases o <;> simp only [SetOp.exec, bitorAssign_eq hs hb, bitorAssignRef_eq hs hb, SetOut.ofFlow]
    rw [e]
    exact ⟨unionList_asc hs hb, fun x => by rw [unionList_has hs hb, hS]; rfl, rfl⟩
  | andAssign o b =>
    have hb := Built.ascending ok
    have e : (SetOp.andAssign o b).exec s = (⟨interList s.elems b.elems⟩, .unit) := by
      cases o <;> simp only [SetOp.exec, bitandAssign_eq hs hb, bitandAssignRef_eq hs hb, SetOut.ofFlow]
    rw [e]
    exact ⟨interList_asc hs hb, fun x => by rw [interList_has hs hb, hS]; rfl, rfl⟩
  | xorAssign o b =>
    have hb := Built.ascending ok
    have e : (SetOp.xorAssign o b).exec s = (⟨xorList s.elems b.elems⟩, .unit) := by
      cases o <;> simp only [SetOp.exec, bitxorAssign_eq hs hb, bitxorAssignRef_eq hs hb, SetOut.ofFlow]
    rw [e]
    exact ⟨xorList_asc hs hb, fun x => by rw [xorList_has hs hb, hS]; rfl, rfl⟩
  | subAssign o b =>
    have hb := Built.ascending ok
    have e : (SetOp.subAssign o b).exec s = (⟨diffList s.elems b.elems⟩, .unit) := by
      cases o <;> simp only [SetOp.exec, subAssign_eq hs hb, subAssignRef_eq hs hb, SetOut.ofFlow]
    rw [e]
    exact ⟨diffList_asc hs hb, fun x => by rw [diffList_has hs hb, hS]; rfl, rfl⟩
  | contains x => exact ⟨hs, hS, _, rfl, by rw [contains_iff hs, hS]⟩
  | len =>
    have en : Enumerates s.elems S := (enumerates_congr hS).1 (ascending_enumerates hs)
    exact ⟨hs, hS, _, rfl, ⟨_, en⟩, fun l hl => enumerates_length hl en⟩
  | isEmpty => exact ⟨hs, hS, _, rfl, by simp only [VecSet.isEmpty, isEmpty_iff_has, hS]⟩

theorem setRun_of_exec (ops : List (SetOp T)) : ∀ (s : VecSet T) (S : T → Prop), Ascending s.elems →
    (∀ x, Has s.elems x ↔ S x) → (∀ op ∈ ops, op.Ok) →
    ∃ S', SetRun S ops (execSet s ops).2 S' ∧ Ascending (execSet s ops).1.elems ∧
      ∀ x, Has (execSet s ops).1.elems x ↔ S' x := by
  induction ops with
  | nil => intro s S hs hS _; exact ⟨S, .nil, hs, hS⟩
  | cons op ops ih =>
    intro s S hs hS ok
    obtain ⟨h1, h2, h3⟩ := setStep hs hS op (ok op (by simp))
    obtain ⟨S', r1, r2, r3⟩ := ih _ _ h1 h2 (fun o ho => ok o (by simp [ho]))
    exact ⟨S', .cons h3 r1, r2, r3⟩

/-! ### Equality and order -/

theorem eqList_iff {l m : List T} (hl : Ascending l) (hm : Ascending m) :
    (l.length = m.length ∧ ∀ p ∈ l.zip m, compare p.1 p.2 = .eq) ↔ ∀ x, Has l x ↔ Has m x := by
  induction l generalizing m with
  | nil =>
    cases m with
    | nil => simp
    | cons y m =>
      simp only [List.length_nil, List.length_cons, List.zip_nil_left, List.not_mem_nil, false_implies,
        implies_true, and_true]
      constructor
      · intro h; omega
      · intro h; have := (h y).2 (has_of_mem (by simp)); simp [Has] at this
  | cons x l ih =>
    cases m with
    | nil =>
      simp only [List.length_nil, List.length_cons, List.zip_nil_right, List.not_mem_nil, false_implies,
        implies_true, and_true]
      constructor
      · intro h; omega
      · intro h; have := (h x).1 (has_of_mem (by simp)); simp [Has] at this
    | cons y m =>
      rw [ascending_iff_id, ascendingBy_cons] at hl hm
      simp only [List.length_cons, List.zip_cons_cons, List.mem_cons, forall_eq_or_imp, Nat.add_right_cancel_iff]
      have hx : ¬ Has l x := fun ⟨z, hz, e⟩ => by
        have := hl.1 z hz; rw [cmp_symm e] at this; cases this
      have hy : ¬ Has m y := fun ⟨z, hz, e⟩ => by
        have := hm.1 z hz; rw [cmp_symm e] at this; cases this
      have hcons : ∀ (a : T) (l : List T) (w : T), Has (a :: l) w ↔ compare a w = .eq ∨ Has l w := by
        intro a l w; simp [Has]
      constructor
      · rintro ⟨h1, h2, h3⟩ w
        rw [hcons, hcons, (ih hl.2 hm.2).1 ⟨h1, h3⟩ w, cmp_congr_left h2]
      · intro h
        have exy : compare x y = .eq := by
          have h1 := (h x).1 (has_of_mem (by simp))
          have h2 := (h y).2 (has_of_mem (by simp))
          rw [hcons] at h1 h2
          rcases h1 with h1 | ⟨z, hz, e⟩
          · exact cmp_symm h1
          · rcases h2 with h2 | ⟨w, hw, e'⟩
            · exact h2
            · have l1 := hm.1 z hz
              have l2 := hl.1 w hw
              have l3 := cmp_lt_of_lt_of_eq l1 e
              have l4 := cmp_lt_of_lt_of_eq l2 e'
              have := cmp_lt_trans l3 l4
              simp only [cmp_self] at this; cases this
        have := (ih hl.2 hm.2).2 (fun w => by
          have hw := h w
          rw [hcons, hcons, cmp_congr_left exy] at hw
          by_cases e : compare y w = .eq
          · constructor
            · intro hh; exact absurd ((Has.congr (cmp_eq_trans exy e)).2 hh) hx
            · intro hh; exact absurd ((Has.congr e).2 hh) hy
          · simpa [e] using hw)
        exact ⟨this.1, exy, this.2⟩

theorem VecSet.eq_iff {a b : VecSet T} (ha : Ascending a.elems) (hb : Ascending b.elems) :
    a.eq b = true ↔ ∀ x, Has a.elems x ↔ Has b.elems x := by
  rw [← eqList_iff ha hb, VecSet.eq]
  simp

omit [TransOrd T] in
theorem lexCompare_eq_iff {l m : List T} : VecSet.lexCompare l m = .eq ↔
    l.length = m.length ∧ ∀ p ∈ l.zip m, compare p.1 p.2 = .eq := by
  induction l generalizing m with
  | nil => cases m <;> simp [VecSet.lexCompare]
  | cons x l ih =>
    cases m with
    | nil => simp [VecSet.lexCompare]
    | cons y m =>
      simp only [VecSet.lexCompare, Ordering.then_eq_eq, ih, List.length_cons, Nat.add_right_cancel_iff,
        List.zip_cons_cons, List.mem_cons, forall_eq_or_imp]
      constructor
      · rintro ⟨h1, h2, h3⟩; exact ⟨h2, h1, h3⟩
      · rintro ⟨h1, h2, h3⟩; exact ⟨h2, h1, h3⟩

theorem lexCompare_swap (l m : List T) : VecSet.lexCompare l m = (VecSet.lexCompare m l).swap := by
  induction l generalizing m with
  | nil => cases m <;> rfl
  | cons x l ih =>
    cases m with
    | nil => rfl
    | cons y m =>
      simp only [VecSet.lexCompare, Ordering.swap_then]
      rw [ih, OrientedCmp.eq_swap (cmp := compare) (a := x)]

theorem lexCompare_trans_ne_gt {l m n : List T} (h1 : VecSet.lexCompare l m ≠ .gt)
    (h2 : VecSet.lexCompare m n ≠ .gt) : VecSet.lexCompare l n ≠ .gt := by
  induction l generalizing m n with
  | nil => cases n <;> simp [VecSet.lexCompare]
  | cons x l ih =>
    cases m with
    | nil => simp [VecSet.lexCompare] at h1
    | cons y m =>
      cases n with
      | nil => simp [VecSet.lexCompare] at h2
      | cons z n =>
        simp only [VecSet.lexCompare] at h1 h2 ⊢
        cases hxy : compare x y with
        | gt => simp [hxy] at h1
        | lt =>
          cases hyz : compare y z with
          | gt => simp [hyz] at h2
          | lt => simp [cmp_lt_trans hxy hyz]
          | eq => simp [cmp_lt_of_lt_of_eq hxy hyz]
        | eq =>
          rw [cmp_congr_left hxy]
          cases hyz : compare y z with
          | gt => simp [hyz] at h2
          | lt => simp
          | eq =>
            simp only [hxy, hyz, Ordering.then] at h1 h2 ⊢
            exact ih h1 h2

/-! ### `union_with` -/

theorem unionWith_join_of_subset {a b : VecSet T} (ha : Ascending a.elems) (hb : Ascending b.elems)
    (h : ∀ x, Has b.elems x → Has a.elems x) :
    joinRef compare (fun x : T => Emit.ret (some x)) (fun _ => (([], .panic) : Emit T))
      (fun x _ => Emit.ret (some x)) a.elems b.elems = (VecSet.unionList a.elems b.elems, .cont) := by
  revert ha hb h
  generalize a.elems = l; generalize b.elems = m
  intro hl hm h
  rw [VecSet.unionList]
  fun_induction joinRef compare (fun x : T => Emit.ret (some x)) (fun _ => (([], .panic) : Emit T))
      (fun x _ => Emit.ret (some x)) l m with
  | case1 bs =>
    cases bs with
    | nil => simp [collect, joinList_nil_left]
    | cons y bs => have := h y (has_of_mem (by simp)); simp [Has] at this
  | case2 x as => rw [joinList_nil_right, collect_ret]
  | case3 x as y bs hc ih =>
    rw [ascending_iff_id, ascendingBy_cons] at hl
    rw [joinList_cons, hc, seq_ret, ih hl.2 hm ?_]
    · intro w hw
      rcases h w hw with ⟨z, hz, e⟩
      rcases List.mem_cons.1 hz with rfl | hz
      · exfalso
        obtain ⟨u, hu, e'⟩ := hw
        rw [ascending_iff_id, ascendingBy_cons] at hm
        rcases List.mem_cons.1 hu with rfl | hu
        · rw [cmp_eq_trans e (cmp_symm e')] at hc; cases hc
        · have := cmp_lt_trans hc (hm.1 u hu)
          rw [cmp_eq_trans e (cmp_symm e')] at this; cases this
      · exact ⟨z, hz, e⟩
  | case4 x as y bs hc ih =>
    exfalso
    rcases h y (has_of_mem (by simp)) with ⟨z, hz, e⟩
    rw [ascending_iff_id, ascendingBy_cons] at hl
    rcases List.mem_cons.1 hz with rfl | hz
    · rw [e] at hc; cases hc
    · have := cmp_lt_of_lt_of_eq (hl.1 z hz) e
      rw [this] at hc; cases hc
  | case5 x as y bs hc ih =>
    rw [ascending_iff_id, ascendingBy_cons] at hl hm
    rw [joinList_cons, hc, seq_ret, ih hl.2 hm.2 ?_]
    intro w hw
    rcases h w (by obtain ⟨u, hu, e⟩ := hw; exact ⟨u, by simp [hu], e⟩) with ⟨z, hz, e⟩
    rcases List.mem_cons.1 hz with rfl | hz
    · exfalso
      obtain ⟨u, hu, e'⟩ := hw
      have := cmp_lt_of_eq_of_lt hc (hm.1 u hu)
      rw [cmp_eq_trans e (cmp_symm e')] at this; cases this
    · exact ⟨z, hz, e⟩

theorem unionWith_join_panic {a b : VecSet T} (ha : Ascending a.elems) (hb : Ascending b.elems) {w : T}
    (h1 : Has b.elems w) (h2 : ¬ Has a.elems w) :
    (joinRef compare (fun x : T => Emit.ret (some x)) (fun _ => (([], .panic) : Emit T))
      (fun x _ => Emit.ret (some x)) a.elems b.elems).2 = .panic := by
  revert ha hb h1 h2
  generalize a.elems = l; generalize b.elems = m
  intro hl hm h1 h2
  fun_induction joinRef compare (fun x : T => Emit.ret (some x)) (fun _ => (([], .panic) : Emit T))
      (fun x _ => Emit.ret (some x)) l m with
  | case1 bs =>
    cases bs with
    | nil => simp [Has] at h1
    | cons y bs => simp [collect, Emit.seq]
  | case2 x as => simp [Has] at h1
  | case3 x as y bs hc ih =>
    rw [ascending_iff_id, ascendingBy_cons] at hl
    rw [Emit.seq]
    exact ih hl.2 hm h1 (fun ⟨z, hz, e⟩ => h2 ⟨z, by simp [hz], e⟩)
  | case4 x as y bs hc ih => rfl
  | case5 x as y bs hc ih =>
    rw [ascending_iff_id, ascendingBy_cons] at hl hm
    rw [Emit.seq]
    refine ih hl.2 hm.2 ?_ (fun ⟨z, hz, e⟩ => h2 ⟨z, by simp [hz], e⟩)
    obtain ⟨z, hz, e⟩ := h1
    rcases List.mem_cons.1 hz with rfl | hz
    · exact absurd ⟨x, by simp, cmp_eq_trans hc e⟩ h2
    · exact ⟨z, hz, e⟩

/-! ### Bounded buffer -/

/-- after every push the buffer is short or at least half sorted -/
theorem push_half {cmp : T → T → Ordering} {keep : Keep} (s : SortAndDedup T) (x : T)
    (hs : s.sorted ≤ s.data.length) :
    (s.push cmp keep x).data.length < 16 ∨
      (s.push cmp keep x).data.length ≤ 2 * (s.push cmp keep x).sorted := by
  unfold SortAndDedup.push
  simp only
  generalize SortAndDedup.pushElem cmp keep s x = t
  split
  · split
    · rename_i h1 h2
      unfold SortAndDedup.sortAndDedup
      split
      · right; simp; omega
      · omega
    · omega
  · omega

theorem pushElem_length {cmp : T → T → Ordering} {keep : Keep} (s : SortAndDedup T) (x : T) :
    (s.pushElem cmp keep x).data.length ≤ s.data.length + 1 := by
  unfold SortAndDedup.pushElem
  split
  · split
    · rename_i h
      split
      · simp
      · split
        · simp
        · omega
      · simp
    · simp
  · simp

theorem agg_half (l : List T) :
    (l.foldl (SortAndDedup.push compare .first) { data := [], sorted := 0 }).data.length < 16 ∨
    (l.foldl (SortAndDedup.push compare .first) { data := [], sorted := 0 }).data.length
      ≤ 2 * (l.foldl (SortAndDedup.push compare .first) { data := [], sorted := 0 }).sorted := by
  rcases List.eq_nil_or_concat l with rfl | ⟨l, x, rfl⟩
  · simp
  · simp only [List.concat_eq_append, List.foldl_append, List.foldl_cons, List.foldl_nil]
    exact push_half _ _ (foldl_push_inv (key := fun x : T => x) .first l _ _ (aggInv_init .first)).le

theorem agg_sorted_le (l m : List T) :
    (l.foldl (SortAndDedup.push compare .first) { data := [], sorted := 0 }).sorted
      ≤ (VecSet.fromIter (l ++ m)).elems.length := by
  have h := foldl_push_inv (key := fun x : T => x) .first l _ _ (aggInv_init .first)
  rw [List.nil_append] at h
  generalize hs : l.foldl (SortAndDedup.push compare .first) { data := [], sorted := 0 } = s
  change AggInv _ _ (l.foldl (SortAndDedup.push compare .first) _) _ at h
  rw [hs] at h
  have h1 : (s.data.take s.sorted).length = s.sorted := by have := h.le; simp; omega
  rw [← h1]
  refine AscendingBy.length_le (key := fun x : T => x) (kb := fun x : T => x) h.asc (VecSet.fromIter_asc _) ?_
  intro x hx
  have hx' : x ∈ s.data := List.mem_of_mem_take hx
  have hl : Has l x := by
    rw [has_iff_findBy]
    have := h.pick x
    simp only [pick] at this
    rw [← this, ← has_iff_findBy]; exact has_of_mem hx'
  have : Has (l ++ m) x := by
    obtain ⟨y, hy, e⟩ := hl; exact ⟨y, by simp [hy], e⟩
  rw [← VecSet.fromIter_has] at this
  obtain ⟨y, hy, e⟩ := this
  exact ⟨y, hy, cmp_symm e⟩

theorem collect_bound (before after : List T) (x : T) :
    let buf := before.foldl (SortAndDedup.push compare .first) { data := [], sorted := 0 }
    (buf.pushElem compare .first x).data.length
      ≤ max 16 (2 * (VecSet.fromIter (before ++ x :: after)).len + 1) ∧
    (buf.push compare .first x).data.length
      ≤ max 16 (2 * (VecSet.fromIter (before ++ x :: after)).len + 1) := by
  intro buf
  have h1 := agg_half before
  have h2 := agg_sorted_le before (x :: after)
  have h3 := agg_half (before ++ [x])
  have h4 := agg_sorted_le (before ++ [x]) after
  rw [List.append_assoc, List.singleton_append] at h4
  have h5 := pushElem_length (cmp := compare) (keep := .first) buf x
  have e : buf.push compare .first x
      = (before ++ [x]).foldl (SortAndDedup.push compare .first) { data := [], sorted := 0 } := by
    simp [buf]
  rw [e]
  change buf.data.length < 16 ∨ buf.data.length ≤ 2 * buf.sorted at h1
  change buf.sorted ≤ _ at h2
  unfold VecSet.len
  omega

end Verif
