import Verif.Lemmas.HostileSearch
import Verif.Props.Account
import Verif.Props.Schedule
/-!
# C75: comparison functions that obey no law

`Ord` is implemented by users. The theorems of the first half assume nothing at all about the comparison: it may answer at random, remember
earlier calls, and panic. There is never undefined behaviour, a panic always comes from the user's code (or from std's sort, which may detect an
inconsistent order), elements are neither invented nor duplicated, and the in-place operators agree with those that build a new set. In the
second half the comparison gives the answers of a total order whenever it answers, but may panic at any time; then whatever
survives is a valid set.
-/
namespace Verif
namespace Hostile
open Std

/-! ## Anything goes -/
section lookup
variable {W T : Type}

/-- **C75 (contains).** no undefined behaviour; a panic is a panic of the comparison; `true` means that the comparison called
some element equal to `x` -/
theorem C75_contains (cmp : Cmp W T T) (s : VecSet T) (x : T) (w : W) :
    (contains cmp s x w).1 ≠ .fault ∧ ((contains cmp s x w).1 = .panic → Panics cmp) ∧
    ((contains cmp s x w).1 = .ret true → ∃ e ∈ s.elems, SaysEqual cmp e x) := by
  have h : Ok (Panics cmp) (contains cmp s x) (fun b => b = true → ∃ e ∈ s.elems, SaysEqual cmp e x) := by
    unfold contains
    refine (binarySearchBy_found (Q := fun e => SaysEqual cmp e x) fun e => call_eq e x).bind fun r hr => ?_
    cases r with
    | found i => obtain ⟨e, h1, h2⟩ := hr; exact Ok.pure fun _ => ⟨e, List.mem_of_getElem? h1, h2⟩
    | notFound i => exact Ok.pure fun h => by cases h
  obtain ⟨h1, h2, h3⟩ := h w
  exact ⟨h3, h2, fun h => h1 _ h rfl⟩

/-- **C75 (insert).** Either nothing happened because the comparison panicked, or the element was put in front of some suffix, or it replaced
an element that the comparison called equal. -/
theorem C75_insert (cmp : Cmp W T T) (s : VecSet T) (x : T) (w : W) (s' : VecSet T) (res : Outcome Bool)
    (h : (insert cmp s x w).1 = (s', res)) :
    (res = .panic ∧ Panics cmp ∧ s' = s) ∨
    (res = .ret true ∧ ∃ lo hi, s.elems = lo ++ hi ∧ s'.elems = lo ++ x :: hi) ∨
    (res = .ret false ∧ ∃ lo y hi, s.elems = lo ++ y :: hi ∧ s'.elems = lo ++ x :: hi ∧ SaysEqual cmp y x) := by
  unfold insert at h
  rcases afterSearch_cases (binarySearchBy_found (l := s.elems) (Q := fun e => SaysEqual cmp e x) fun e => call_eq e x) w with
    ⟨r, hr, e⟩ | ⟨e, hp⟩
  · rw [e] at h
    cases r with
    | found i =>
      obtain ⟨y, h1, h2⟩ := hr
      have hi := (List.getElem?_eq_some_iff.1 h1).1
      simp only [hi, if_true] at h
      cases h
      exact .inr (.inr ⟨rfl, _, y, _, split_at h1, set_at h1, h2⟩)
    | notFound i =>
      have hi : i ≤ s.elems.length := hr
      simp only [hi, if_true] at h
      cases h
      exact .inr (.inl ⟨rfl, _, _, (List.take_append_drop i _).symm, insert_at hi⟩)
  · rw [e] at h; cases h; exact .inl ⟨rfl, hp, rfl⟩

/-- **C75 (remove).** Either nothing changed, or one element that the comparison called equal was taken out. -/
theorem C75_remove (cmp : Cmp W T T) (s : VecSet T) (x : T) (w : W) (s' : VecSet T) (res : Outcome Bool)
    (h : (remove cmp s x w).1 = (s', res)) :
    (res = .panic ∧ Panics cmp ∧ s' = s) ∨ (res = .ret false ∧ s' = s) ∨
    (res = .ret true ∧ ∃ lo y hi, s.elems = lo ++ y :: hi ∧ s'.elems = lo ++ hi ∧ SaysEqual cmp y x) := by
  unfold remove at h
  rcases afterSearch_cases (binarySearchBy_found (l := s.elems) (Q := fun e => SaysEqual cmp e x) fun e => call_eq e x) w with
    ⟨r, hr, e⟩ | ⟨e, hp⟩
  · rw [e] at h
    cases r with
    | found i =>
      obtain ⟨y, h1, h2⟩ := hr
      have hi := (List.getElem?_eq_some_iff.1 h1).1
      simp only [hi, if_true] at h
      cases h
      exact .inr (.inr ⟨rfl, _, y, _, split_at h1, erase_at, h2⟩)
    | notFound i => cases h; exact .inr (.inl ⟨rfl, rfl⟩)
  · rw [e] at h; cases h; exact .inl ⟨rfl, hp, rfl⟩

end lookup

section maplookup
variable {W K V : Type}

/-- **C75 (get).** no undefined behaviour; a value is only returned for a key that the comparison called equal -/
theorem C75_map_get (cmp : Cmp W K K) (m : VecMap K V) (key : K) (w : W) :
    (get cmp m key w).1 ≠ .fault ∧ ((get cmp m key w).1 = .panic → Panics cmp) ∧
    ∀ v, (get cmp m key w).1 = .ret (some v) → ∃ k, (k, v) ∈ m.entries ∧ SaysEqual cmp k key := by
  have h : Ok (Panics cmp) (get cmp m key) (fun r => ∀ v, r = some v → ∃ k, (k, v) ∈ m.entries ∧ SaysEqual cmp k key) := by
    unfold get
    refine (binarySearchBy_found (Q := fun e : K × V => SaysEqual cmp e.1 key) fun e => call_eq e.1 key).bind fun r hr => ?_
    cases r with
    | found i =>
      obtain ⟨e, h1, h2⟩ := hr
      simp only [h1]
      exact Ok.pure fun v hv => by cases hv; exact ⟨e.1, List.mem_of_getElem? h1, h2⟩
    | notFound i => exact Ok.pure fun v h => by cases h
  obtain ⟨h1, h2, h3⟩ := h w
  exact ⟨h3, h2, fun v h => h1 _ h v rfl⟩

/-- **C75 (map insert).** as for sets; the old value is returned -/
theorem C75_map_insert (cmp : Cmp W K K) (m : VecMap K V) (key : K) (value : V) (w : W) (m' : VecMap K V) (res : Outcome (Option V))
    (h : (mapInsert cmp m key value w).1 = (m', res)) :
    (res = .panic ∧ Panics cmp ∧ m' = m) ∨
    (res = .ret none ∧ ∃ lo hi, m.entries = lo ++ hi ∧ m'.entries = lo ++ (key, value) :: hi) ∨
    (∃ k v lo hi, res = .ret (some v) ∧ m.entries = lo ++ (k, v) :: hi ∧ m'.entries = lo ++ (key, value) :: hi ∧ SaysEqual cmp k key) := by
  unfold mapInsert at h
  rcases afterSearch_cases (binarySearchBy_found (l := m.entries) (Q := fun e : K × V => SaysEqual cmp e.1 key) fun e => call_eq e.1 key) w with
    ⟨r, hr, e⟩ | ⟨e, hp⟩
  · rw [e] at h
    cases r with
    | found i =>
      obtain ⟨y, h1, h2⟩ := hr
      simp only [h1] at h
      cases h
      exact .inr (.inr ⟨y.1, y.2, _, _, rfl, split_at h1, set_at h1, h2⟩)
    | notFound i =>
      have hi : i ≤ m.entries.length := hr
      simp only [hi, if_true] at h
      cases h
      exact .inr (.inl ⟨rfl, _, _, (List.take_append_drop i _).symm, insert_at hi⟩)
  · rw [e] at h; cases h; exact .inl ⟨rfl, hp, rfl⟩

/-- **C75 (get_mut).** a write through `get_mut` changes at most the value of one entry whose key the comparison called equal -/
theorem C75_map_get_mut (cmp : Cmp W K K) (m : VecMap K V) (key : K) (g : V → V) (w : W) (m' : VecMap K V) (res : Outcome Bool)
    (h : (updateMut cmp m key g w).1 = (m', res)) :
    (res = .panic ∧ Panics cmp ∧ m' = m) ∨ (res = .ret false ∧ m' = m) ∨
    (∃ k v lo hi, res = .ret true ∧ m.entries = lo ++ (k, v) :: hi ∧ m'.entries = lo ++ (k, g v) :: hi ∧ SaysEqual cmp k key) := by
  unfold updateMut at h
  rcases afterSearch_cases (binarySearchBy_found (l := m.entries) (Q := fun e : K × V => SaysEqual cmp e.1 key) fun e => call_eq e.1 key) w with
    ⟨r, hr, e⟩ | ⟨e, hp⟩
  · rw [e] at h
    cases r with
    | found i =>
      obtain ⟨y, h1, h2⟩ := hr
      simp only [h1] at h
      cases h
      exact .inr (.inr ⟨y.1, y.2, _, _, rfl, split_at h1, set_at h1, h2⟩)
    | notFound i => cases h; exact .inr (.inl ⟨rfl, rfl⟩)
  · rw [e] at h; cases h; exact .inl ⟨rfl, hp, rfl⟩

end maplookup

section collecting
variable {W T : Type}

/-- **C75 (collect).** Collecting items with any comparison: no undefined behaviour, what comes out is part of the items, and it is not
empty unless there were none. -/
theorem C75_collect (cmp : Cmp W T T) (sort : List T → W → Call (List T) × W) (hsort : Permutes sort) (keep : Keep) (items : List T) (w : W) :
    (sortDedupBy cmp sort keep items w).1 ≠ .fault ∧
    ((sortDedupBy cmp sort keep items w).1 = .panic → Panics cmp ∨ SortPanics sort) ∧
    ∀ r, (sortDedupBy cmp sort keep items w).1 = .ret r → Within r items ∧ (items ≠ [] → r ≠ []) := by
  obtain ⟨h1, h2, h3⟩ := sortDedupBy_ok (mp := Panics cmp ∨ SortPanics sort) (fun a b w h => .inl ⟨a, b, w, h⟩)
    (fun l w h => .inr ⟨l, w, h⟩) hsort keep items w
  exact ⟨h3, h2, h1⟩

end collecting

/-! ### Set algebra -/
section sets
variable {W T : Type} [Ord T]

theorem AlgebraOp.newAcc (o : AlgebraOp) (a b : List T) : Preserves (NewAcc a b) (o.op T (SliceMS.mut cloneConverter cloneConverter)) := by
  cases o
  · exact union_newAcc a b
  · exact intersection_newAcc a b
  · exact diff_newAcc a b
  · exact xor_newAcc a b

theorem AlgebraOp.noStop (o : AlgebraOp) (ca cb : T → Call T) : NoStop (o.op T (SliceMS.mut ca cb)) := by
  cases o
  · exact slice_union_noStop ca cb
  · exact slice_intersection_noStop ca cb
  · exact slice_diff_noStop ca cb
  · exact slice_xor_noStop ca cb

/-- the four operations do the same with the elements over every merge state -/
theorem AlgebraOp.impl (o : AlgebraOp) (ta tb : T → Emit T) :
    ∃ fa fb fc, (CbPanics fa fb fc → (∃ x, (ta x).2 = .panic) ∨ ∃ x, (tb x).2 = .panic) ∧
      ∀ {σ : Type} [MergeState σ T T] {m : MergeStateMut σ} {out : σ → List T} {inv : σ → Prop}, AdvSpec m out inv ta tb →
        Implements (o.op T m) out inv fa fb fc := by
  cases o
  · refine ⟨_, _, _, fun h => ?_, fun h => setUnionOp_impl h⟩
    rcases h with h | h | ⟨x, _, h⟩
    · exact .inl h
    · exact .inr h
    · exact .inl ⟨x, h⟩
  · refine ⟨_, _, _, fun h => ?_, fun h => setIntersectionOp_impl h⟩
    rcases h with ⟨_, h⟩ | ⟨_, h⟩ | ⟨x, _, h⟩
    · cases h
    · cases h
    · exact .inl ⟨x, h⟩
  · refine ⟨_, _, _, fun h => ?_, fun h => setDiffOp_impl h⟩
    rcases h with h | ⟨_, h⟩ | ⟨x, _, h⟩
    · exact .inl h
    · cases h
    · cases h
  · refine ⟨_, _, _, fun h => ?_, fun h => setXorOp_impl h⟩
    rcases h with h | h | ⟨x, _, h⟩
    · exact .inl h
    · exact .inr h
    · cases h

theorem new_run (cmp : Cmp W T T) (o : AlgebraOp) (cb : T → Call T) (a b : List T) (w : W) :
    IsRun (Panics cmp ∨ ∃ x, cb x = .panic) (o.op T (SliceMS.mut cloneConverter cb)) { a := a, b := b, r := [] }
      (mergeAll cmp (o.op T (SliceMS.mut cloneConverter cb)) { a := a, b := b, r := [] } w).1 ∧
    ((mergeAll cmp (o.op T (SliceMS.mut cloneConverter cb)) { a := a, b := b, r := [] } w).1.2 = .ret true →
      (mergeAll cmp (o.op T (SliceMS.mut cloneConverter cb)) { a := a, b := b, r := [] } w).1.1.a = []) ∧
    ((mergeAll cmp (o.op T (SliceMS.mut cloneConverter cb)) { a := a, b := b, r := [] } w).1.2 = .panic → Panics cmp ∨ ∃ x, cb x = .panic) := by
  obtain ⟨fa, fb, fc, h, impl⟩ := AlgebraOp.impl o (fun x : T => (cloneConverter x).emit) (fun x => (cb x).emit)
  have := binaryMerge_run (mp := Panics cmp ∨ ∃ x, cb x = .panic) (impl (SliceMS.advSpec cloneConverter cb)) (cmp := cmp)
    (fun a b w h => .inl ⟨a, b, w, h⟩)
    (fun hp => by
      rcases h hp with ⟨x, h⟩ | ⟨x, h⟩
      · cases h
      · refine .inr ⟨x, ?_⟩
        cases hx : cb x with
        | panic => rfl
        | ret y => rw [hx] at h; cases h)
    a.length b.length { a := a, b := b, r := [] } w trivial (Nat.le_refl _) (Nat.le_refl _)
  refine ⟨this.1, fun hc => ?_, this.2.2⟩
  have := (this.2.1 hc).a
  exact this.trans (List.drop_length)

/-- **C75 (set algebra into a new set).** With any comparison the operation ends, by a result or by a panic of the comparison; it only
uses elements of the operands, each at most as often as it occurs there; intersection and difference yield a
subsequence of the left operand, and a completed union contains the left operand. -/
theorem C75_set_algebra (cmp : Cmp W T T) (o : AlgebraOp) (a b : VecSet T) (w : W) (r : List T) (res : Outcome Bool)
    (h : (mergeNew cmp a.elems b.elems (o.op T (SliceMS.mut cloneConverter cloneConverter)) w).1 = (r, res)) :
    (res = .ret true ∨ (res = .panic ∧ Panics cmp)) ∧ Within r (a.elems ++ b.elems) ∧
    (o = .intersection ∨ o = .difference → r.Sublist a.elems) ∧ (o = .union → res = .ret true → a.elems.Sublist r) := by
  have hr := congrArg Prod.fst h
  have hres := congrArg Prod.snd h
  simp only [mergeNew] at hr hres
  obtain ⟨h1, h2, h3⟩ := new_run cmp o cloneConverter a.elems b.elems w
  have hp : (Panics cmp ∨ ∃ x : T, (cloneConverter x : Call T) = .panic) → Panics cmp := by
    rintro (h | ⟨x, h⟩)
    · exact h
    · cases h
  subst hr
  subst hres
  obtain ⟨evs, e1, -⟩ := id h1
  refine ⟨?_, ?_, fun ho => ?_, fun ho hc => ?_⟩
  · rcases h1.noStop (AlgebraOp.noStop o _ _) with h | h
    · exact .inl h
    · exact .inr ⟨h, hp (h3 h)⟩
  · rw [e1]
    exact (run_pres (AlgebraOp.newAcc o a.elems b.elems) evs _ ⟨[], fun p => by simp⟩).within
  · rw [e1]
    have : Preserves (SubAcc a.elems) (o.op T (SliceMS.mut cloneConverter cloneConverter)) := by
      rcases ho with rfl | rfl
      · exact intersection_subAcc a.elems
      · exact diff_subAcc a.elems
    have := run_pres this evs { a := a.elems, b := b.elems, r := [] } (by simp [SubAcc])
    exact (List.sublist_append_left _ _).trans this
  · subst ho
    have h2 := h2 hc
    have := run_pres (union_supAcc a.elems) evs { a := a.elems, b := b.elems, r := [] } (by simp [SupAcc])
    unfold SupAcc at this
    rw [e1] at h2 ⊢
    have h2' : (runEvs (setUnionOp (SliceMS.mut cloneConverter cloneConverter)) { a := a.elems, b := b.elems, r := [] } evs).1.a = [] := h2
    rw [h2', List.append_nil] at this
    exact this

/-- **C75 (relations).** `is_disjoint`, `is_subset` and `is_superset` are negated boolean merges: they answer or the comparison panics. -/
theorem C75_relations (cmp : Cmp W T T) (o : AlgebraOp) (a b : VecSet T) (w : W) :
    (∃ done, (mergeBool cmp a.elems b.elems (o.op T BoolMS.mut) w).1.2 = .ret done) ∨
    ((mergeBool cmp a.elems b.elems (o.op T BoolMS.mut) w).1.2 = .panic ∧ Panics cmp) := by
  have main : ∀ {fa fb fc}, Implements (o.op T (BoolMS.mut : MergeStateMut (BoolMS T T))) (fun s => if s.r then [()] else [])
      (fun s => s.r = false) fa fb fc → ¬ CbPanics fa fb fc →
      (∃ done, (mergeBool cmp a.elems b.elems (o.op T BoolMS.mut) w).1.2 = .ret done) ∨
      ((mergeBool cmp a.elems b.elems (o.op T BoolMS.mut) w).1.2 = .panic ∧ Panics cmp) := by
    intro fa fb fc impl hn
    obtain ⟨⟨evs, -, h⟩, -, h3⟩ := binaryMerge_run (mp := Panics cmp) impl (cmp := cmp) (fun a b w h => ⟨a, b, w, h⟩) (fun h => absurd h hn)
      a.elems.length b.elems.length { a := a.elems, b := b.elems, r := false } w rfl (Nat.le_refl _) (Nat.le_refl _)
    show (∃ done, (binaryMerge cmp (o.op T BoolMS.mut) { a := a.elems, b := b.elems, r := false } a.elems.length b.elems.length w).1.2 = .ret done) ∨
      ((binaryMerge cmp (o.op T BoolMS.mut) { a := a.elems, b := b.elems, r := false } a.elems.length b.elems.length w).1.2 = .panic ∧ Panics cmp)
    rcases h with h | h
    · cases hf : (runEvs (o.op T BoolMS.mut) { a := a.elems, b := b.elems, r := false } evs).2 with
      | cont => rw [h, hf]; exact .inl ⟨true, rfl⟩
      | stop => rw [h, hf]; exact .inl ⟨false, rfl⟩
      | panic => exact .inr ⟨by rw [h, hf]; rfl, h3 (by rw [h, hf]; rfl)⟩
    · exact .inr ⟨h.1, h.2.2⟩
  cases o
  · exact main (setUnionOp_impl BoolMS.advSpec) (by rintro (⟨_, h⟩ | ⟨_, h⟩ | ⟨_, _, h⟩) <;> cases h)
  · exact main (setIntersectionOp_impl BoolMS.advSpec) (by rintro (⟨_, h⟩ | ⟨_, h⟩ | ⟨_, _, h⟩) <;> cases h)
  · exact main (setDiffOp_impl BoolMS.advSpec) (by rintro (⟨_, h⟩ | ⟨_, h⟩ | ⟨_, _, h⟩) <;> cases h)
  · exact main (setXorOp_impl BoolMS.advSpec) (by rintro (⟨_, h⟩ | ⟨_, h⟩ | ⟨_, _, h⟩) <;> cases h)

/-- the slot level, the list level and the merge into a new vector, with the same comparison -/
theorem slot_eq_new {A B : Type} {R : SlotMS A B → InPlaceMS A B → Prop} {o1 : MergeOp (SlotMS A B) A B} {o2 : MergeOp (InPlaceMS A B) A B}
    {o3 : MergeOp (SliceMS A B A) A B} {fa fb fc} (h : SimOp R o1 o2) (hR : ∀ s l, R s l → Refines s l) (a : List A) (b : List B)
    (hnew : R (SlotMS.new a b) { tgt := [], src := a, b := b }) (i2 : Implements o2 (fun s => s.tgt) (fun _ => True) fa fb fc)
    (i3 : Implements o3 (fun s => s.r) (fun _ => True) fa fb fc) (cmp : Cmp W A B) (w : W) :
    R (mergeAll cmp o1 (SlotMS.new a b) w).1.1 (mergeAll cmp o2 { tgt := [], src := a, b := b } w).1.1 ∧
    (mergeInPlace cmp a b o1 w).1.1.result = (mergeNew cmp a b o3 w).1.1 ∧
    (mergeInPlace cmp a b o1 w).1.2 = (mergeNew cmp a b o3 w).1.2 ∧
    (mergeInPlace cmp a b o1 w).2 = (mergeNew cmp a b o3 w).2 := by
  have hs : MergeState.aSlice (SlotMS.new a b) = a := Builder.sourceSlice_rep (Builder.new_rep a)
  have e1 : mergeAll cmp o1 (SlotMS.new a b) w = binaryMerge cmp o1 (SlotMS.new a b) a.length b.length w := by
    unfold mergeAll; rw [hs]; rfl
  have h1 := binaryMerge_hsim h hR cmp a.length b.length _ _ w hnew
  have h2 := binaryMerge_agree i2 i3 cmp a.length b.length { tgt := [], src := a, b := b } { a := a, b := b, r := [] } w trivial trivial
    rfl rfl (Nat.le_refl _) (Nat.le_refl _)
  obtain ⟨⟨e, h3, h4⟩, h5, h6⟩ := h2
  simp only [List.nil_append] at h3 h4
  refine ⟨by rw [e1]; exact h1.1, ?_, ?_, ?_⟩
  · have hf := (hR _ _ h1.1).finish.2
    show SlotMS.result (mergeAll cmp o1 (SlotMS.new a b) w).1.1.finish = (binaryMerge cmp o3 { a := a, b := b, r := [] } a.length b.length w).1.1.r
    rw [e1]
    unfold SlotMS.result
    rw [hf, h4, h3]
    simp
  · show (mergeAll cmp o1 (SlotMS.new a b) w).1.2 = (binaryMerge cmp o3 { a := a, b := b, r := [] } a.length b.length w).1.2
    rw [e1, h1.2.1, h5]
  · show (mergeAll cmp o1 (SlotMS.new a b) w).2 = (binaryMerge cmp o3 { a := a, b := b, r := [] } a.length b.length w).2
    rw [e1, h1.2.2, h6]

/-- **C75 (set algebra in place).** The assigning operators, over the slots of the buffer: no unsafe primitive is misused, every slot left
owns a value, the elements left and the destructor calls account for all elements of both operands, and a panic comes
from the comparison or from the converter. -/
theorem C75_set_in_place (cmp : Cmp W T T) (pol : Nat → Nat) (conv : T → Call T) (hconv : ∀ x y, conv x = .ret y → y = x) (o : AlgebraOp)
    (a b : VecSet T) (w : W) (s : SlotMS T T) (res : Outcome Bool)
    (h : (mergeInPlace cmp a.elems b.elems (o.op T (SlotMS.mut pol conv)) w).1 = (s, res)) :
    s.bld.fault = false ∧ (∀ e ∈ s.bld.slots, e ≠ none) ∧
    (s.result ++ (s.bld.drops ++ s.bdrops)).Perm (a.elems ++ b.elems) ∧
    (res = .ret true ∨ (res = .panic ∧ (Panics cmp ∨ ∃ x, conv x = .panic))) := by
  obtain ⟨fa, fb, fc, -, impl⟩ := AlgebraOp.impl o (fun x : T => (cloneConverter x).emit) (fun x => (conv x).emit)
  obtain ⟨h1, h2, h3, -⟩ := slot_eq_new (AlgebraOp.sim (a0 := a.elems) (b0 := b.elems) pol hconv o) (fun _ _ h => h.ref) _ _ (new_acc _ _)
    (impl (InPlaceMS.advSpec conv)) (impl (SliceMS.advSpec cloneConverter conv)) cmp w
  have acc := acc_perm h1
  obtain ⟨h4, -, h5⟩ := new_run cmp o conv a.elems b.elems w
  have hs := congrArg Prod.fst h
  have hres := congrArg Prod.snd h
  rw [h3] at hres
  simp only [mergeInPlace, mergeNew] at hs hres
  subst hs
  subst hres
  refine ⟨acc.1, fun e he => ?_, ?_, ?_⟩
  · rw [acc.2.1] at he
    obtain ⟨x, -, rfl⟩ := List.mem_map.1 he
    simp
  · have e : SlotMS.result (SlotMS.finish (mergeAll cmp (o.op T (SlotMS.mut pol conv)) (SlotMS.new a.elems b.elems) w).1.1) =
        (mergeAll cmp (o.op T (InPlaceMS.mut conv)) { tgt := [], src := a.elems, b := b.elems } w).1.1.tgt := by
      unfold SlotMS.result; rw [acc.2.1]; simp
    rw [e]; exact acc.2.2
  · rcases h4.noStop (AlgebraOp.noStop o _ _) with h | h
    · exact .inl h
    · exact .inr ⟨h, h5 h⟩

/-- **C75 (in place = new).** With the same comparison in the same state, the assigning operator leaves exactly the set that the by-reference
operator returns, ends in the same way, and has asked the same questions. -/
theorem C75_in_place_agrees (cmp : Cmp W T T) (pol : Nat → Nat) (conv : T → Call T) (hconv : ∀ x y, conv x = .ret y → y = x) (o : AlgebraOp)
    (a b : VecSet T) (w : W) :
    (mergeInPlace cmp a.elems b.elems (o.op T (SlotMS.mut pol conv)) w).1.1.result =
      (mergeNew cmp a.elems b.elems (o.op T (SliceMS.mut cloneConverter conv)) w).1.1 ∧
    (mergeInPlace cmp a.elems b.elems (o.op T (SlotMS.mut pol conv)) w).1.2 =
      (mergeNew cmp a.elems b.elems (o.op T (SliceMS.mut cloneConverter conv)) w).1.2 ∧
    (mergeInPlace cmp a.elems b.elems (o.op T (SlotMS.mut pol conv)) w).2 =
      (mergeNew cmp a.elems b.elems (o.op T (SliceMS.mut cloneConverter conv)) w).2 := by
  obtain ⟨fa, fb, fc, -, impl⟩ := AlgebraOp.impl o (fun x : T => (cloneConverter x).emit) (fun x => (conv x).emit)
  exact (slot_eq_new (AlgebraOp.sim (a0 := a.elems) (b0 := b.elems) pol hconv o) (fun _ _ h => h.ref) _ _ (new_acc _ _)
    (impl (InPlaceMS.advSpec conv)) (impl (SliceMS.advSpec cloneConverter conv)) cmp w).2

end sets

/-! ### Joins of maps -/
section maps
variable {W K V X R : Type} [Ord K]

/-- the four joins that build a new map -/
inductive NewJoin (K V X R : Type) where
  | outer (f : OuterJoinArg K V X → Call (Option R))
  | left (f : K → V → Option X → Call (Option R))
  | right (f : K → Option V → X → Call (Option R))
  | inner (f : K → V → X → Call (Option R))

/-- the crate's implementation -/
def NewJoin.op : NewJoin K V X R → MergeOp (SliceMS (K × V) (K × X) (K × R)) (K × V) (K × X)
  | .outer f => outerJoinOp f
  | .left f => leftJoinOp f
  | .right f => rightJoinOp f
  | .inner f => innerJoinOp f

/-- the closure panics for some arguments -/
def NewJoin.ClosurePanics : NewJoin K V X R → Prop
  | .outer f => ∃ arg, f arg = .panic
  | .left f => ∃ k v x, f k v x = .panic
  | .right f => ∃ k v x, f k v x = .panic
  | .inner f => ∃ k v x, f k v x = .panic

/-- the join with the same closure that builds a new map -/
def JoinOp.toNew : JoinOp K V X → NewJoin K V X V
  | .outer f => .outer f
  | .left f => .left f
  | .right f => .right f
  | .inner f => .inner f

/-- the closure on join arguments -/
def NewJoin.arg : NewJoin K V X R → OuterJoinArg K V X → Call (Option R)
  | .outer f => f
  | .left f => leftArg f
  | .right f => rightArg f
  | .inner f => innerArg f

theorem NewJoin.impl (j : NewJoin K V X R) : ArgImpl j.op (fun s => s.r) j.arg := by
  cases j
  · exact outerJoinOp_impl _
  · exact leftJoinOp_impl _
  · exact rightJoinOp_impl _
  · exact innerJoinOp_impl _

theorem JoinOp.impl (j : JoinOp K V X) : ArgImpl j.list (fun s => s.tgt) (JoinOp.toNew j).arg := by
  cases j
  · exact outerJoinWithOp_impl _
  · exact leftJoinWithOp_impl _
  · exact rightJoinWithOp_impl _
  · exact innerJoinWithOp_impl _

theorem NewJoin.keys (j : NewJoin K V X R) (a : List (K × V)) (b : List (K × X)) : Preserves (NewKeys a b) j.op := by
  cases j
  · exact outer_newKeys _
  · exact left_newKeys _
  · exact right_newKeys _
  · exact inner_newKeys _

theorem NewJoin.noStop (j : NewJoin K V X R) : NoStop j.op := by
  cases j
  · exact ⟨fun s n => slice_loopA_noStop _ n s, fun s n => slice_loopB_noStop _ n s, fun s => slice_both_noStop _ s⟩
  · exact ⟨fun s n => slice_loopA_noStop _ n s, fun s n => slice_dropB_noStop s n, fun s => slice_both_noStop _ s⟩
  · exact ⟨fun s n => slice_dropA_noStop s n, fun s n => slice_loopB_noStop _ n s, fun s => slice_both_noStop _ s⟩
  · exact ⟨fun s n => slice_dropA_noStop s n, fun s n => slice_dropB_noStop s n, fun s => slice_both_noStop _ s⟩

theorem argEmit_panic {f : OuterJoinArg K V X → Call (Option R)} {x : OuterJoinArg K V X} (h : (argEmit f x).2 = .panic) : f x = .panic := by
  unfold argEmit at h
  cases hf : f x with
  | panic => rfl
  | ret o => rw [hf] at h; cases o <;> cases h

theorem NewJoin.arg_panic {j : NewJoin K V X R} {x : OuterJoinArg K V X} (h : j.arg x = .panic) : j.ClosurePanics := by
  cases j
  · exact ⟨_, h⟩
  · cases x
    · exact ⟨_, _, _, h⟩
    · cases h
    · exact ⟨_, _, _, h⟩
  · cases x
    · cases h
    · exact ⟨_, _, _, h⟩
    · exact ⟨_, _, _, h⟩
  · cases x
    · cases h
    · cases h
    · exact ⟨_, _, _, h⟩

theorem join_run (cmp : Cmp W (K × V) (K × X)) (j : NewJoin K V X R) (a : List (K × V)) (b : List (K × X)) (w : W) :
    IsRun (Panics cmp ∨ j.ClosurePanics) j.op { a := a, b := b, r := [] } (mergeAll cmp j.op { a := a, b := b, r := [] } w).1 ∧
    ((mergeAll cmp j.op { a := a, b := b, r := [] } w).1.2 = .panic → Panics cmp ∨ j.ClosurePanics) := by
  have := binaryMerge_run (mp := Panics cmp ∨ j.ClosurePanics) j.impl (cmp := cmp) (fun a b w h => .inl ⟨a, b, w, h⟩)
    (fun hp => by
      rcases hp with ⟨x, h⟩ | ⟨x, h⟩ | ⟨x, y, h⟩
      · exact .inr (NewJoin.arg_panic (argEmit_panic h))
      · exact .inr (NewJoin.arg_panic (argEmit_panic h))
      · exact .inr (NewJoin.arg_panic (argEmit_panic h)))
    a.length b.length { a := a, b := b, r := [] } w trivial (Nat.le_refl _) (Nat.le_refl _)
  exact ⟨this.1, this.2.2⟩

/-- **C75 (joins into a new map).** With any comparison of the keys and any closure the join ends, by a result or by a panic of the comparison or
of the closure, and the keys it produced are keys of the operands, each at most as often as it occurs there. -/
theorem C75_map_joins (cmp : Cmp W (K × V) (K × X)) (j : NewJoin K V X R) (a : VecMap K V) (b : VecMap K X) (w : W) (r : List (K × R))
    (res : Outcome Bool) (h : (mergeNew cmp a.entries b.entries j.op w).1 = (r, res)) :
    (res = .ret true ∨ (res = .panic ∧ (Panics cmp ∨ j.ClosurePanics))) ∧
    Within (r.map (·.1)) (a.entries.map (·.1) ++ b.entries.map (·.1)) := by
  have hr := congrArg Prod.fst h
  have hres := congrArg Prod.snd h
  simp only [mergeNew] at hr hres
  obtain ⟨h1, h3⟩ := join_run cmp j a.entries b.entries w
  subst hr
  subst hres
  obtain ⟨evs, e1, -⟩ := id h1
  refine ⟨?_, ?_⟩
  · rcases h1.noStop j.noStop with h | h
    · exact .inl h
    · exact .inr ⟨h, h3 h⟩
  · rw [e1]
    exact (run_pres (j.keys a.entries b.entries) evs { a := a.entries, b := b.entries, r := [] } ⟨[], fun p => by simp⟩).within

/-- **C75 (joins in place).** The same for the `_with` joins over the slots of the buffer: no unsafe primitive is misused, every slot left owns
a value, and the map left behind, the outcome and the questions asked are those of the join into a new map. -/
theorem C75_map_joins_in_place (cmp : Cmp W (K × V) (K × X)) (pol : Nat → Nat) (j : JoinOp K V X) (a : VecMap K V) (b : VecMap K X) (w : W)
    (s : SlotMS (K × V) (K × X)) (res : Outcome Bool) (h : (mergeInPlace cmp a.entries b.entries (j.slot pol) w).1 = (s, res)) :
    s.bld.fault = false ∧ (∀ e ∈ s.bld.slots, e ≠ none) ∧
    (s.result, res) = (mergeNew cmp a.entries b.entries (JoinOp.toNew j).op w).1 ∧
    (mergeInPlace cmp a.entries b.entries (j.slot pol) w).2 = (mergeNew cmp a.entries b.entries (JoinOp.toNew j).op w).2 := by
  obtain ⟨h1, h2, h3, h4⟩ := slot_eq_new (j.sim pol) (fun _ _ h => h) _ _ (new_refines a.entries b.entries)
    (JoinOp.impl j) (NewJoin.impl (JoinOp.toNew j)) cmp w
  have hs := congrArg Prod.fst h
  have hres := congrArg Prod.snd h
  subst hs
  subst hres
  refine ⟨h1.finish.1, fun e he => ?_, Prod.ext h2 h3, h4⟩
  have he : e ∈ (mergeAll cmp (j.slot pol) (SlotMS.new a.entries b.entries) w).1.1.finish.bld.slots := he
  rw [h1.finish.2] at he
  obtain ⟨x, -, rfl⟩ := List.mem_map.1 he
  simp

end maps
/-! ## A total order that may panic -/
section lawful
variable {W T : Type} [Ord T]

/-- **C75 (panicking order, one element).** If the comparison answers like the order whenever it answers, then every call that returns
does what it does with a comparison that never panics. (When it panics nothing has changed: `C75_insert`, `C75_remove`.) -/
theorem C75_panicking_order_elements (cmp : Cmp W T T) (hcmp : Answers cmp compare) (s : VecSet T) (x : T) (w : W) :
    (∀ r, (contains cmp s x w).1 = .ret r → r = s.contains x) ∧
    (∀ s' r, (insert cmp s x w).1 = (s', .ret r) → (s', r) = s.insert x) ∧
    (∀ s' r, (remove cmp s x w).1 = (s', .ret r) → (s', r) = s.remove x) := by
  have hs' : Agrees (binarySearchBy (fun e => call (cmp e x)) s.elems) (Verif.binarySearchBy (fun e => compare e x) s.elems) :=
    binarySearchBy_agrees fun e => Agrees.call fun w o h => hcmp e x w o h
  have hin := binarySearchBy_ok (mp := True) (l := s.elems) (fun e => Ok.call (c := cmp e x) (P := fun _ => True) (fun _ _ => trivial) (fun _ _ _ => trivial)) w
  have hs := hs' w
  refine ⟨fun r h => ?_, fun s' r h => ?_, fun s' r h => ?_⟩
  · refine (Agrees.bind (x := binarySearchBy (fun e => call (cmp e x)) s.elems) hs' ?_ : Agrees (contains cmp s x) (s.contains x)) w r h
    unfold VecSet.contains
    cases Verif.binarySearchBy (fun e => compare e x) s.elems with
    | found i => exact Agrees.pure
    | notFound i => exact Agrees.pure
  · unfold insert afterSearch at h
    unfold VecSet.insert
    rcases hb : binarySearchBy (fun e => call (cmp e x)) s.elems w with ⟨o, w'⟩
    rw [hb] at h hs hin
    cases o with
    | panic => cases h
    | fault => cases h
    | ret q =>
      rw [← hs q rfl]
      have := hin.1 q rfl
      cases q with
      | found i =>
        have hi : i < s.elems.length := this
        simp only [hi, if_true] at h
        cases h; rfl
      | notFound i =>
        have hi : i ≤ s.elems.length := this
        simp only [hi, if_true] at h
        cases h; rfl
  · unfold remove afterSearch at h
    unfold VecSet.remove
    rcases hb : binarySearchBy (fun e => call (cmp e x)) s.elems w with ⟨o, w'⟩
    rw [hb] at h hs hin
    cases o with
    | panic => cases h
    | fault => cases h
    | ret q =>
      rw [← hs q rfl]
      have := hin.1 q rfl
      cases q with
      | found i =>
        have hi : i < s.elems.length := this
        simp only [hi, if_true] at h
        cases h; rfl
      | notFound i => cases h; rfl

omit [Ord T] in
/-- **C75 (panicking order, collecting).** If collecting returns, it returns the usual result (`keep` is `First` for sets and `Last` for maps,
`c` is the order of the elements or of the keys). -/
theorem C75_panicking_order_collect (c : T → T → Ordering) (cmp : Cmp W T T) (hcmp : Answers cmp c) (sort : List T → W → Call (List T) × W)
    (hsort : ∀ l w r, (sort l w).1 = .ret r → r = stableSortBy c l) (keep : Keep) (items : List T) (w : W) (r : List T)
    (h : (sortDedupBy cmp sort keep items w).1 = .ret r) : r = Verif.sortDedupBy c keep items :=
  sortDedupBy_agrees hcmp hsort keep items w r h

variable [TransOrd T]

theorem lawful_prefix {A B κ : Type} [Ord κ] [TransOrd κ] {ka : A → κ} {kb : B → κ} {op : MergeOp (InPlaceMS A B) A B} {fa fb fc}
    (impl : Implements op (fun s => s.tgt) (fun _ => True) fa fb fc) (hop : ∀ a b, op.cmp a b = compare (ka a) (kb b))
    {cmp : Cmp W A B} (hcmp : Answers cmp op.cmp) {a : List A} {b : List B} (ha : AscendingBy ka a) (hb : AscendingBy kb b) (w : W) :
    (mergeAll cmp op { tgt := [], src := a, b := b } w).1.1.tgt <+: (InPlaceMS.merge a b op).1 ∧
    ((mergeAll cmp op { tgt := [], src := a, b := b } w).1.2 ≠ .panic →
      (mergeAll cmp op { tgt := [], src := a, b := b } w).1.1.tgt = (InPlaceMS.merge a b op).1 ∧
      (mergeAll cmp op { tgt := [], src := a, b := b } w).1.2 = ofFlow (InPlaceMS.merge a b op).2) := by
  obtain ⟨evs, h1, h2, h3⟩ := binaryMerge_lawful (ka := ka) (kb := kb) impl hop hcmp a b [] [] { tgt := [], src := a, b := b } w trivial ha hb
    (by simp [MergeState.aSlice]) (by simp [MergeState.bSlice])
  have legal : Legal op.cmp a b (planBin op.cmp a b) := planBin_legal hop a b ha hb
  have si := schedule_indep (ka := ka) (kb := kb) impl hop { tgt := [], src := a, b := b } trivial ha hb legal
  have pre := legal_prefix impl legal { tgt := [], src := a, b := b } evs trivial rfl rfl h1
  refine ⟨?_, fun hn => ?_⟩
  · show (binaryMerge cmp op { tgt := [], src := a, b := b } a.length b.length w).1.1.tgt <+: (Verif.mergeAll op { tgt := [], src := a, b := b }).1.tgt
    rw [h2, ← si.1]; exact pre
  · rcases h3 with ⟨rfl, h3⟩ | ⟨h3, -⟩
    · refine ⟨?_, ?_⟩
      · show (binaryMerge cmp op { tgt := [], src := a, b := b } a.length b.length w).1.1.tgt = (Verif.mergeAll op { tgt := [], src := a, b := b }).1.tgt
        rw [h2, ← si.1]
      · show (binaryMerge cmp op { tgt := [], src := a, b := b } a.length b.length w).1.2 = ofFlow (Verif.mergeAll op { tgt := [], src := a, b := b }).2
        rw [h3, si.2]
    · exact absurd h3 hn

/-- a merge that the comparison lets finish computes what it computes with a comparison that never panics -/
theorem lawful_result {σ α A B κ : Type} [MergeState σ A B] [Ord κ] [TransOrd κ] {ka : A → κ} {kb : B → κ} {op : MergeOp σ A B} {out : σ → List α}
    {inv : σ → Prop} {fa fb fc} (impl : Implements op out inv fa fb fc) (hop : ∀ a b, op.cmp a b = compare (ka a) (kb b)) {cmp : Cmp W A B}
    (hcmp : Answers cmp op.cmp) (s : σ) (hi : inv s) (ha : AscendingBy ka (MergeState.aSlice s : List A)) (hb : AscendingBy kb (MergeState.bSlice s : List B))
    (w : W) (hn : (mergeAll cmp op s w).1.2 ≠ .panic) :
    out (mergeAll cmp op s w).1.1 = out (Verif.mergeAll op s).1 ∧ (mergeAll cmp op s w).1.2 = ofFlow (Verif.mergeAll op s).2 := by
  obtain ⟨evs, h1, h2, h3⟩ := binaryMerge_lawful (ka := ka) (kb := kb) impl hop hcmp (MergeState.aSlice s) (MergeState.bSlice s) [] [] s w hi ha hb
    (by simp) (by simp)
  have legal : Legal op.cmp (MergeState.aSlice s) (MergeState.bSlice s) (planBin op.cmp (MergeState.aSlice s) (MergeState.bSlice s)) := planBin_legal hop _ _ ha hb
  have si := schedule_indep (ka := ka) (kb := kb) impl hop s hi ha hb legal
  rcases h3 with ⟨rfl, h3⟩ | ⟨h3, -⟩
  · refine ⟨?_, ?_⟩
    · show out (binaryMerge cmp op s _ _ w).1.1 = _
      rw [h2, ← si.1]
    · show (binaryMerge cmp op s _ _ w).1.2 = _
      rw [h3, si.2]
  · exact absurd h3 hn

/-- **C75 (panicking order, results).** If the comparison panics now and then but otherwise answers as a lawful order does, every relation and every operation into
a new set that returns at all returns the right answer: the one given with a comparison that never panics. -/
theorem C75_panicking_order_results (cmp : Cmp W T T) (hcmp : Answers cmp compare) (a b : VecSet T) (ha : Ascending a.elems) (hb : Ascending b.elems) (w : W)
    (done : Bool) :
    (∀ r, (mergeBool cmp a.elems b.elems (setIntersectionOp BoolMS.mut) w).1 = (r, .ret done) → (!r) = a.isDisjoint b) ∧
    (∀ r, (mergeBool cmp a.elems b.elems (setDiffOp BoolMS.mut) w).1 = (r, .ret done) → (!r) = a.isSubset b) ∧
    (∀ r, (mergeBool cmp b.elems a.elems (setDiffOp BoolMS.mut) w).1 = (r, .ret done) → (!r) = a.isSuperset b) ∧
    (∀ r, (mergeNew cmp a.elems b.elems (setUnionOp (SliceMS.mut cloneConverter cloneConverter)) w).1 = (r, .ret done) → (a.union b).1 = ⟨r⟩) ∧
    (∀ r, (mergeNew cmp a.elems b.elems (setIntersectionOp (SliceMS.mut cloneConverter cloneConverter)) w).1 = (r, .ret done) → (a.intersection b).1 = ⟨r⟩) ∧
    (∀ r, (mergeNew cmp a.elems b.elems (setXorOp (SliceMS.mut cloneConverter cloneConverter)) w).1 = (r, .ret done) →
      (a.symmetricDifference b).1 = ⟨r⟩) ∧
    (∀ r, (mergeNew cmp a.elems b.elems (setDiffOp (SliceMS.mut cloneConverter cloneConverter)) w).1 = (r, .ret done) → (a.difference b).1 = ⟨r⟩) := by
  have bool : ∀ {op : MergeOp (BoolMS T T) T T} {fa fb fc} {a b : List T}, Ascending a → Ascending b →
      Implements op (fun s => if s.r then [()] else []) (fun s => s.r = false) fa fb fc →
      (∀ x y, op.cmp x y = compare x y) → ∀ r, (mergeBool cmp a b op w).1 = (r, .ret done) → r = (BoolMS.merge a b op).1 := by
    intro op fa fb fc a b ha hb impl hop r h
    have h1 : (mergeAll cmp op { a := a, b := b, r := false } w).1.1.r = r := congrArg Prod.fst h
    have h2 : (mergeAll cmp op { a := a, b := b, r := false } w).1.2 = .ret done := congrArg Prod.snd h
    have := (lawful_result (ka := fun x : T => x) (kb := fun x : T => x) impl hop (cmp := cmp) (fun x y w o ho => by rw [hop]; exact hcmp x y w o ho)
      { a := a, b := b, r := false } rfl ha hb w (by rw [h2]; intro h; cases h)).1
    rw [h1] at this
    show r = (Verif.mergeAll op { a := a, b := b, r := false }).1.r
    revert this
    cases r <;> cases (Verif.mergeAll op { a := a, b := b, r := false }).1.r <;> simp
  have new : ∀ {op : MergeOp (SliceMS T T T) T T} {fa fb fc}, Implements op (fun s => s.r) (fun _ => True) fa fb fc →
      (∀ x y, op.cmp x y = compare x y) → ∀ r, (mergeNew cmp a.elems b.elems op w).1 = (r, .ret done) → (SliceMS.merge a.elems b.elems op).1 = r := by
    intro op fa fb fc impl hop r h
    have h1 : (mergeAll cmp op { a := a.elems, b := b.elems, r := [] } w).1.1.r = r := congrArg Prod.fst h
    have h2 : (mergeAll cmp op { a := a.elems, b := b.elems, r := [] } w).1.2 = .ret done := congrArg Prod.snd h
    have := (lawful_result (ka := fun x : T => x) (kb := fun x : T => x) impl hop (cmp := cmp) (fun x y w o ho => by rw [hop]; exact hcmp x y w o ho)
      { a := a.elems, b := b.elems, r := [] } trivial ha hb w (by rw [h2]; intro h; cases h)).1
    exact this.symm.trans h1
  refine ⟨fun r h => ?_, fun r h => ?_, fun r h => ?_, fun r h => ?_, fun r h => ?_, fun r h => ?_, fun r h => ?_⟩
  · rw [bool ha hb (setIntersectionOp_impl BoolMS.advSpec) (fun _ _ => rfl) r h]; rfl
  · rw [bool ha hb (setDiffOp_impl BoolMS.advSpec) (fun _ _ => rfl) r h]; rfl
  · rw [bool hb ha (setDiffOp_impl BoolMS.advSpec) (fun _ _ => rfl) r h]; rfl
  · exact congrArg VecSet.mk (new (setUnionOp_impl (SliceMS.advSpec cloneConverter cloneConverter)) (fun _ _ => rfl) r h)
  · exact congrArg VecSet.mk (new (setIntersectionOp_impl (SliceMS.advSpec cloneConverter cloneConverter)) (fun _ _ => rfl) r h)
  · exact congrArg VecSet.mk (new (setXorOp_impl (SliceMS.advSpec cloneConverter cloneConverter)) (fun _ _ => rfl) r h)
  · exact congrArg VecSet.mk (new (setDiffOp_impl (SliceMS.advSpec cloneConverter cloneConverter)) (fun _ _ => rfl) r h)

omit [TransOrd T] in
/-- what the operation leaves with a comparison that never panics -/
theorem AlgebraOp.asc [TransOrd T] (o : AlgebraOp) {a b : List T} (ha : Ascending a) (hb : Ascending b) (conv : T → Call T)
    (hconv : conv = idConverter) : Ascending (InPlaceMS.merge a b (o.op T (InPlaceMS.mut conv))).1 := by
  subst hconv
  cases o
  · have := VecSet.bitorAssign_eq (a := ⟨a⟩) (b := ⟨b⟩) ha hb
    have := congrArg (fun r => r.1.elems) this
    simp only [VecSet.bitorAssign] at this
    rw [show AlgebraOp.union.op T (InPlaceMS.mut idConverter) = setUnionOp (InPlaceMS.mut idConverter) from rfl, this]
    exact VecSet.unionList_asc ha hb
  · have := VecSet.bitandAssign_eq (a := ⟨a⟩) (b := ⟨b⟩) ha hb
    have := congrArg (fun r => r.1.elems) this
    simp only [VecSet.bitandAssign] at this
    rw [show AlgebraOp.intersection.op T (InPlaceMS.mut idConverter) = setIntersectionOp (InPlaceMS.mut idConverter) from rfl, this]
    exact VecSet.interList_asc ha hb
  · have := VecSet.subAssign_eq (a := ⟨a⟩) (b := ⟨b⟩) ha hb
    have := congrArg (fun r => r.1.elems) this
    simp only [VecSet.subAssign] at this
    rw [show AlgebraOp.difference.op T (InPlaceMS.mut idConverter) = setDiffOp (InPlaceMS.mut idConverter) from rfl, this]
    exact VecSet.diffList_asc ha hb
  · have := VecSet.bitxorAssign_eq (a := ⟨a⟩) (b := ⟨b⟩) ha hb
    have := congrArg (fun r => r.1.elems) this
    simp only [VecSet.bitxorAssign] at this
    rw [show AlgebraOp.xor.op T (InPlaceMS.mut idConverter) = setXorOp (InPlaceMS.mut idConverter) from rfl, this]
    exact VecSet.xorList_asc ha hb

omit [TransOrd T] in
theorem AlgebraOp.cmp_eq {σ : Type} (o : AlgebraOp) (m : MergeStateMut σ) : (o.op T m).cmp = compare := by cases o <;> rfl

/-- **C75 (panicking order, in place).** Whenever the comparison panics during `&=`, `|=`, `^=`, `-=`, the set left behind is a prefix of
the set that an undisturbed operation leaves, hence a valid set; and if the operator returns, it has left exactly that set. -/
theorem C75_panicking_order_in_place (cmp : Cmp W T T) (hcmp : Answers cmp compare) (pol : Nat → Nat) (o : AlgebraOp) (a b : VecSet T)
    (ha : Ascending a.elems) (hb : Ascending b.elems) (w : W) (s : VecSet T) (res : Outcome Bool)
    (h : (assign cmp a b (o.op T (SlotMS.mut pol idConverter)) w).1 = (s, res)) :
    Ascending s.elems ∧ s.elems <+: (InPlaceMS.merge a.elems b.elems (o.op T (InPlaceMS.mut idConverter))).1 ∧
    ((res = .ret true ∧ s.elems = (InPlaceMS.merge a.elems b.elems (o.op T (InPlaceMS.mut idConverter))).1) ∨ (res = .panic ∧ Panics cmp)) := by
  obtain ⟨fa, fb, fc, -, impl⟩ := AlgebraOp.impl o (fun x : T => (cloneConverter x).emit) (fun x => ((idConverter x : Call T)).emit)
  obtain ⟨h1, h2, h3, -⟩ := slot_eq_new (AlgebraOp.sim (a0 := a.elems) (b0 := b.elems) pol (C57_converters (T := T)).1 o) (fun _ _ h => h.ref) _ _
    (new_acc _ _) (impl (InPlaceMS.advSpec idConverter)) (impl (SliceMS.advSpec cloneConverter idConverter)) cmp w
  have acc := (acc_perm h1).2.1
  have e : (mergeInPlace cmp a.elems b.elems (o.op T (SlotMS.mut pol idConverter)) w).1.1.result =
      (mergeAll cmp (o.op T (InPlaceMS.mut idConverter)) { tgt := [], src := a.elems, b := b.elems } w).1.1.tgt := by
    show SlotMS.result (SlotMS.finish (mergeAll cmp (o.op T (SlotMS.mut pol idConverter)) (SlotMS.new a.elems b.elems) w).1.1) = _
    unfold SlotMS.result; rw [acc]; simp
  have hres := congrArg Prod.snd h
  have hs := congrArg Prod.fst h
  simp only [assign, leave] at hs hres
  have hs := congrArg VecSet.elems hs
  simp only at hs
  have pre := lawful_prefix (ka := fun x : T => x) (kb := fun x : T => x) (op := o.op T (InPlaceMS.mut idConverter))
    (impl (InPlaceMS.advSpec idConverter)) (fun x y => by rw [AlgebraOp.cmp_eq]) (cmp := cmp) (by rw [AlgebraOp.cmp_eq]; exact hcmp) ha hb w
  have out := (C75_set_in_place cmp pol idConverter (C57_converters (T := T)).1 o a b w _
    (mergeInPlace cmp a.elems b.elems (o.op T (SlotMS.mut pol idConverter)) w).1.2 rfl).2.2.2
  have oute : (mergeInPlace cmp a.elems b.elems (o.op T (SlotMS.mut pol idConverter)) w).1.2 =
      (mergeAll cmp (o.op T (InPlaceMS.mut idConverter)) { tgt := [], src := a.elems, b := b.elems } w).1.2 := by
    have hh := (binaryMerge_hsim (AlgebraOp.sim (a0 := a.elems) (b0 := b.elems) pol (C57_converters (T := T)).1 o) (fun _ _ h => h.ref) cmp
      a.elems.length b.elems.length _ _ w (new_acc _ _)).2.1
    have hs : MergeState.aSlice (SlotMS.new a.elems b.elems) = a.elems := Builder.sourceSlice_rep (Builder.new_rep a.elems)
    show (mergeAll cmp (o.op T (SlotMS.mut pol idConverter)) (SlotMS.new a.elems b.elems) w).1.2 = _
    unfold mergeAll
    rw [hs]
    exact hh
  have e' : s.elems = (mergeAll cmp (o.op T (InPlaceMS.mut idConverter)) { tgt := [], src := a.elems, b := b.elems } w).1.1.tgt := by
    rw [← hs, e]
  refine ⟨?_, by rw [e']; exact pre.1, ?_⟩
  · rw [e']; exact asc_prefix pre.1 (AlgebraOp.asc o ha hb _ rfl)
  · rw [hres] at out oute
    rcases out with out | ⟨out, hp⟩
    · refine .inl ⟨out, ?_⟩
      rw [e']
      exact (pre.2 (by rw [← oute, out]; simp)).1
    · refine .inr ⟨out, ?_⟩
      rcases hp with hp | ⟨x, hx⟩
      · exact hp
      · cases hx

end lawful

section lawfulMaps
variable {W K V X : Type} [Ord K] [TransOrd K]

theorem JoinOp.cmp_eq (j : JoinOp K V X) : j.list.cmp = fun x y => compare x.1 y.1 := by cases j <;> rfl

/-- **C75 (panicking order, joins in place).** Whenever the comparison of the keys (or the closure) panics during an in-place join, the map left
behind is a prefix of the map that the join leaves with a comparison that never panics, hence a valid map; and if the join
returns, it has left exactly that map. -/
theorem C75_panicking_order_joins (cmp : Cmp W (K × V) (K × X)) (hcmp : Answers cmp (fun x y => compare x.1 y.1)) (pol : Nat → Nat)
    (j : JoinOp K V X) (a : VecMap K V) (b : VecMap K X) (ha : AscendingBy Prod.fst a.entries) (hb : AscendingBy Prod.fst b.entries) (w : W)
    (s : SlotMS (K × V) (K × X)) (res : Outcome Bool) (h : (mergeInPlace cmp a.entries b.entries (j.slot pol) w).1 = (s, res)) :
    AscendingBy Prod.fst s.result ∧ s.result <+: (InPlaceMS.merge a.entries b.entries j.list).1 ∧
    ((res = .ret true ∧ s.result = (InPlaceMS.merge a.entries b.entries j.list).1) ∨
      (res = .panic ∧ (Panics cmp ∨ (JoinOp.toNew j).ClosurePanics))) := by
  have hh := binaryMerge_hsim (j.sim pol) (fun _ _ h => h) cmp a.entries.length b.entries.length _ _ w (new_refines a.entries b.entries)
  have hs : MergeState.aSlice (SlotMS.new a.entries b.entries) = a.entries := Builder.sourceSlice_rep (Builder.new_rep a.entries)
  have e1 : mergeAll cmp (j.slot pol) (SlotMS.new a.entries b.entries) w =
      binaryMerge cmp (j.slot pol) (SlotMS.new a.entries b.entries) a.entries.length b.entries.length w := by
    unfold mergeAll; rw [hs]; rfl
  have pre := lawful_prefix (ka := Prod.fst) (kb := Prod.fst) (JoinOp.impl j) (fun x y => by rw [JoinOp.cmp_eq]) (cmp := cmp)
    (by rw [JoinOp.cmp_eq]; exact hcmp) ha hb w
  have hs' := congrArg Prod.fst h
  have hres := congrArg Prod.snd h
  simp only [mergeInPlace] at hs' hres
  have er : s.result = (mergeAll cmp j.list { tgt := [], src := a.entries, b := b.entries } w).1.1.tgt := by
    rw [← hs', e1]
    unfold SlotMS.result
    rw [hh.1.finish.2]
    simp [mergeAll, MergeState.aSlice, MergeState.bSlice]
  have eo : res = (mergeAll cmp j.list { tgt := [], src := a.entries, b := b.entries } w).1.2 := by
    rw [← hres, e1]; exact hh.2.1
  have asc : AscendingBy Prod.fst (InPlaceMS.merge a.entries b.entries j.list).1 := by
    rw [InPlaceMS.merge_spec (ka := Prod.fst) (kb := Prod.fst) (JoinOp.impl j) (fun _ => trivial) (fun x y => by rw [JoinOp.cmp_eq]) ha hb,
      JoinOp.cmp_eq, joinRef_args]
    exact collect_asc (joinArgs_asc ha hb)
  refine ⟨?_, by rw [er]; exact pre.1, ?_⟩
  · rw [er]; exact asc.sublist pre.1.sublist
  · have hp := C75_map_joins_in_place cmp pol j a b w s res h
    have := (C75_map_joins cmp (JoinOp.toNew j) a b w s.result res hp.2.2.1.symm).1
    rcases this with this | this
    · refine .inl ⟨this, ?_⟩
      rw [er]
      exact (pre.2 (by rw [← eo, this]; simp)).1
    · exact .inr this

omit [TransOrd K] in
/-- **C75 (panicking order, one entry).** The same for `get`, `insert` and `get_mut` of maps. -/
theorem C75_panicking_order_entries (cmp : Cmp W K K) (hcmp : Answers cmp compare) (m : VecMap K V) (key : K) (value : V) (g : V → V) (w : W) :
    (∀ r, (get cmp m key w).1 = .ret r → r = m.get key) ∧
    (∀ m' r, (mapInsert cmp m key value w).1 = (m', .ret r) → (m', r) = m.insert key value) ∧
    (∀ m' r, (updateMut cmp m key g w).1 = (m', .ret r) → (m', r) = m.updateMut key g) := by
  have hs' : Agrees (binarySearchBy (fun e : K × V => call (cmp e.1 key)) m.entries)
      (Verif.binarySearchBy (fun e => compare e.1 key) m.entries) :=
    binarySearchBy_agrees fun e => Agrees.call fun w o h => hcmp e.1 key w o h
  have hin := binarySearchBy_ok (mp := True) (l := m.entries)
    (fun e => Ok.call (c := cmp e.1 key) (P := fun _ => True) (fun _ _ => trivial) (fun _ _ _ => trivial)) w
  have hs := hs' w
  refine ⟨fun r h => ?_, fun m' r h => ?_, fun m' r h => ?_⟩
  · refine (Agrees.bind (x := binarySearchBy (fun e : K × V => call (cmp e.1 key)) m.entries) hs' ?_ : Agrees (get cmp m key) (m.get key)) w r h
    unfold VecMap.get
    cases Verif.binarySearchBy (fun e : K × V => compare e.1 key) m.entries with
    | found i =>
      simp only
      cases m.entries[i]? with
      | some e => exact Agrees.pure
      | none => intro w b hb; cases hb
    | notFound i => exact Agrees.pure
  · unfold mapInsert afterSearch at h
    unfold VecMap.insert
    rcases hb : binarySearchBy (fun e : K × V => call (cmp e.1 key)) m.entries w with ⟨o, w'⟩
    rw [hb] at h hs hin
    cases o with
    | panic => cases h
    | fault => cases h
    | ret q =>
      rw [← hs q rfl]
      have := hin.1 q rfl
      cases q with
      | found i =>
        have hi : i < m.entries.length := this
        simp only [List.getElem?_eq_getElem hi] at h ⊢
        cases h; rfl
      | notFound i =>
        have hi : i ≤ m.entries.length := this
        simp only [hi, if_true] at h
        cases h; rfl
  · unfold updateMut afterSearch at h
    unfold VecMap.updateMut
    rcases hb : binarySearchBy (fun e : K × V => call (cmp e.1 key)) m.entries w with ⟨o, w'⟩
    rw [hb] at h hs hin
    cases o with
    | panic => cases h
    | fault => cases h
    | ret q =>
      rw [← hs q rfl]
      have := hin.1 q rfl
      cases q with
      | found i =>
        have hi : i < m.entries.length := this
        simp only [List.getElem?_eq_getElem hi] at h ⊢
        cases h; rfl
      | notFound i => cases h; rfl

end lawfulMaps

/-! ### Histories: panics are caught (`catch_unwind`) and the set is used again -/
section history
variable {W T : Type} [Ord T]

/-- a call that modifies a set -/
inductive SetCall (T : Type) where
  | insert (x : T)
  | remove (x : T)
  | assign (o : AlgebraOp) (b : VecSet T)
  | extend (items : List T)

/-- the elements passed to the call -/
def SetCall.args : SetCall T → List T
  | .insert x => [x]
  | .remove x => [x]
  | .assign _ b => b.elems
  | .extend items => items

/-- the call on a set; the outcome is dropped -/
def SetCall.run (cmp : Cmp W T T) (sort : List T → W → Call (List T) × W) (pol : Nat → Nat) (s : VecSet T) (w : W) :
    SetCall T → (VecSet T × Outcome Bool) × W
  | .insert x => Hostile.insert cmp s x w
  | .remove x => Hostile.remove cmp s x w
  | .assign o b => Hostile.assign cmp s b (o.op T (SlotMS.mut pol idConverter)) w
  | .extend items => Hostile.extend cmp sort s items (setUnionOp (SlotMS.mut pol idConverter)) w

/-- a history of calls, each of which may have panicked -/
def runCalls (cmp : Cmp W T T) (sort : List T → W → Call (List T) × W) (pol : Nat → Nat) : List (SetCall T) → VecSet T → W → VecSet T × W
  | [], s, w => (s, w)
  | c :: cs, s, w => runCalls cmp sort pol cs (c.run cmp sort pol s w).1.1 (c.run cmp sort pol s w).2

variable [TransOrd T]

theorem assign_mem (cmp : Cmp W T T) (pol : Nat → Nat) (o : AlgebraOp) (a b : VecSet T) (w : W) :
    ∀ x ∈ (assign cmp a b (o.op T (SlotMS.mut pol idConverter)) w).1.1.elems, x ∈ a.elems ∨ x ∈ b.elems := by
  intro x hx
  have := (C75_set_in_place cmp pol idConverter (C57_converters (T := T)).1 o a b w _ _ rfl).2.2.1
  have := this.mem_iff.1 (List.mem_append_left _ hx)
  exact List.mem_append.1 this

theorem run_valid (cmp : Cmp W T T) (hcmp : Answers cmp compare) (sort : List T → W → Call (List T) × W)
    (hsort : ∀ l w r, (sort l w).1 = .ret r → r = stableSortBy compare l) (pol : Nat → Nat) (c : SetCall T)
    (hb : ∀ o b, c = .assign o b → Ascending b.elems) (s : VecSet T) (hs : Ascending s.elems) (w : W) :
    Ascending (c.run cmp sort pol s w).1.1.elems ∧ ∀ x ∈ (c.run cmp sort pol s w).1.1.elems, x ∈ s.elems ∨ x ∈ c.args := by
  cases c with
  | insert x =>
    simp only [SetCall.run, SetCall.args]
    have h1 := C75_insert cmp s x w _ _ rfl
    refine ⟨?_, ?_⟩
    · rcases h1 with ⟨-, -, h⟩ | ⟨h, -⟩ | ⟨h, -⟩
      · rw [h]; exact hs
      · have := (C75_panicking_order_elements cmp hcmp s x w).2.1 _ _ (Prod.ext rfl h)
        have e := congrArg (fun p => p.1.elems) this
        simp only at e
        rw [e]; exact (VecSet.insert_spec hs x).1
      · have := (C75_panicking_order_elements cmp hcmp s x w).2.1 _ _ (Prod.ext rfl h)
        have e := congrArg (fun p => p.1.elems) this
        simp only at e
        rw [e]; exact (VecSet.insert_spec hs x).1
    · intro y hy
      rcases h1 with ⟨-, -, h⟩ | ⟨-, lo, hi, e1, e2⟩ | ⟨-, lo, z, hi, e1, e2, -⟩
      · rw [h] at hy; exact .inl hy
      · rw [e2] at hy; rw [e1]; simp at hy ⊢; rcases hy with h | h | h <;> simp [h]
      · rw [e2] at hy; rw [e1]; simp at hy ⊢; rcases hy with h | h | h <;> simp [h]
  | remove x =>
    simp only [SetCall.run, SetCall.args]
    have h1 := C75_remove cmp s x w _ _ rfl
    refine ⟨?_, ?_⟩
    · rcases h1 with ⟨-, -, h⟩ | ⟨-, h⟩ | ⟨-, lo, z, hi, e1, e2, -⟩
      · rw [h]; exact hs
      · rw [h]; exact hs
      · rw [e2]
        rw [e1] at hs
        exact AscendingBy.sublist (key := fun x : T => x) hs (List.Sublist.append_left (List.sublist_cons_self _ _) _)
    · intro y hy
      rcases h1 with ⟨-, -, h⟩ | ⟨-, h⟩ | ⟨-, lo, z, hi, e1, e2, -⟩
      · rw [h] at hy; exact .inl hy
      · rw [h] at hy; exact .inl hy
      · rw [e2] at hy; rw [e1]; simp at hy ⊢; rcases hy with h | h <;> simp [h]
  | assign o b =>
    exact ⟨(C75_panicking_order_in_place cmp hcmp pol o s b hs (hb o b rfl) w _ _ rfl).1, assign_mem cmp pol o s b w⟩
  | extend items =>
    simp only [SetCall.run, SetCall.args, Hostile.extend]
    have hc := C75_panicking_order_collect compare cmp hcmp sort hsort .first items w
    have hm := C75_collect cmp sort (fun l w r h => by rw [hsort l w r h]; exact stableSort_perm compare l) .first items w
    rcases hq : sortDedupBy cmp sort .first items w with ⟨q, w'⟩
    rw [hq] at hc hm
    cases q with
    | panic => exact ⟨hs, fun x hx => .inl hx⟩
    | fault => exact ⟨hs, fun x hx => .inl hx⟩
    | ret l =>
      have hl := hc l rfl
      obtain ⟨rest, hp⟩ := (hm.2.2 l rfl).1
      refine ⟨(C75_panicking_order_in_place cmp hcmp pol .union s ⟨l⟩ hs (by rw [hl]; exact VecSet.fromIter_asc items) w' _ _ rfl).1, ?_⟩
      intro x hx
      rcases assign_mem cmp pol .union s ⟨l⟩ w' x hx with h | h
      · exact .inl h
      · exact .inr (hp.mem_iff.1 (List.mem_append_left _ h))

/-- **C75 (panicking order, histories).** A set whose comparison may panic at any time — in the middle of any call — stays a valid set
through every history of calls in which the panics are caught, and it never holds an element that was not passed in. -/
theorem C75_panicking_order_history (cmp : Cmp W T T) (hcmp : Answers cmp compare) (sort : List T → W → Call (List T) × W)
    (hsort : ∀ l w r, (sort l w).1 = .ret r → r = stableSortBy compare l) (pol : Nat → Nat) (calls : List (SetCall T))
    (hb : ∀ o b, SetCall.assign o b ∈ calls → Ascending b.elems) (s : VecSet T) (hs : Ascending s.elems) (w : W) :
    Ascending (runCalls cmp sort pol calls s w).1.elems ∧
    ∀ x ∈ (runCalls cmp sort pol calls s w).1.elems, x ∈ s.elems ∨ ∃ c ∈ calls, x ∈ c.args := by
  induction calls generalizing s w with
  | nil => exact ⟨hs, fun x hx => .inl hx⟩
  | cons c cs ih =>
    have h1 := run_valid cmp hcmp sort hsort pol c (fun o b h => hb o b (by simp [h])) s hs w
    have h2 := ih (fun o b h => hb o b (List.mem_cons_of_mem _ h)) (c.run cmp sort pol s w).1.1 h1.1 (c.run cmp sort pol s w).2
    refine ⟨h2.1, fun x hx => ?_⟩
    rcases h2.2 x hx with h | ⟨d, hd, h⟩
    · rcases h1.2 x h with h | h
      · exact .inl h
      · exact .inr ⟨c, by simp, h⟩
    · exact .inr ⟨d, List.mem_cons_of_mem _ hd, h⟩

omit [TransOrd T] in
/-- **C75 (extend).** `extend` with any comparison: what is left is part of the old set and the new items, and unless there was a panic it
contains the old set; a panic comes from the comparison or the sort. -/
theorem C75_extend (cmp : Cmp W T T) (sort : List T → W → Call (List T) × W) (hsort : Permutes sort) (pol : Nat → Nat) (s : VecSet T)
    (items : List T) (w : W) (s' : VecSet T) (res : Outcome Bool)
    (h : (Hostile.extend cmp sort s items (setUnionOp (SlotMS.mut pol idConverter)) w).1 = (s', res)) :
    Within s'.elems (s.elems ++ items) ∧
    ((res = .ret true ∧ s.elems.Sublist s'.elems) ∨ (res = .panic ∧ (Panics cmp ∨ SortPanics sort))) := by
  unfold Hostile.extend at h
  have hm := C75_collect cmp sort hsort .first items w
  rcases hq : sortDedupBy cmp sort .first items w with ⟨q, w'⟩
  rw [hq] at hm h
  cases q with
  | panic => cases h; exact ⟨Within.left _ _, .inr ⟨rfl, hm.2.1 rfl⟩⟩
  | fault => exact absurd rfl hm.1
  | ret l =>
    simp only at h
    obtain ⟨rest, hp⟩ := (hm.2.2 l rfl).1
    have ag := C75_in_place_agrees cmp pol idConverter (C57_converters (T := T)).1 .union s ⟨l⟩ w'
    have new := C75_set_algebra cmp .union s ⟨l⟩ w' _ _ rfl
    have h1 := congrArg (fun p => p.1.elems) h
    have h2 := congrArg Prod.snd h
    simp only [assign, leave] at h1 h2
    have e1 : s'.elems = (mergeNew cmp s.elems l (AlgebraOp.union.op T (SliceMS.mut cloneConverter idConverter)) w').1.1 := by
      rw [← h1]; exact ag.1
    have e2 : res = (mergeNew cmp s.elems l (AlgebraOp.union.op T (SliceMS.mut cloneConverter idConverter)) w').1.2 := by
      rw [← h2]; exact ag.2.1
    refine ⟨?_, ?_⟩
    · rw [e1]
      refine Within.trans new.2.1 ⟨rest, ?_⟩
      rw [List.append_assoc]
      exact List.Perm.append_left _ hp
    · rcases new.1 with hr | ⟨hr, hc⟩
      · refine .inl ⟨e2.trans hr, ?_⟩
        rw [e1]; exact new.2.2.2 rfl hr
      · exact .inr ⟨e2.trans hr, .inl hc⟩

/-- **C75 (panicking order, extend).** If `extend` returns it had its usual effect; if it panics while collecting the items the set is unchanged, and
if it panics while merging a prefix of the usual result is left. -/
theorem C75_panicking_order_extend (cmp : Cmp W T T) (hcmp : Answers cmp compare) (sort : List T → W → Call (List T) × W)
    (hsort : ∀ l w r, (sort l w).1 = .ret r → r = stableSortBy compare l) (pol : Nat → Nat) (s : VecSet T) (hs : Ascending s.elems)
    (items : List T) (w : W) (s' : VecSet T) (res : Outcome Bool)
    (h : (Hostile.extend cmp sort s items (setUnionOp (SlotMS.mut pol idConverter)) w).1 = (s', res)) :
    (res = .ret true ∧ s' = (s.extend items).1) ∨ (res = .panic ∧ (s' = s ∨ s'.elems <+: (s.extend items).1.elems)) := by
  unfold Hostile.extend at h
  have hc := C75_panicking_order_collect compare cmp hcmp sort hsort .first items w
  have hm := C75_collect cmp sort (fun l w r h => by rw [hsort l w r h]; exact stableSort_perm compare l) .first items w
  rcases hq : sortDedupBy cmp sort .first items w with ⟨q, w'⟩
  rw [hq] at hc hm h
  cases q with
  | panic => cases h; exact .inr ⟨rfl, .inl rfl⟩
  | fault => exact absurd rfl hm.1
  | ret l =>
    have hl := hc l rfl
    have hl' : Ascending l := by rw [hl]; exact VecSet.fromIter_asc items
    obtain ⟨-, h2, h3⟩ := C75_panicking_order_in_place cmp hcmp pol .union s ⟨l⟩ hs hl' w' _ _ h
    have e : (s.extend items).1.elems = (InPlaceMS.merge s.elems l (AlgebraOp.union.op T (InPlaceMS.mut idConverter))).1 := by
      unfold VecSet.extend VecSet.bitorAssign VecSet.fromIter
      rw [hl]; rfl
    rcases h3 with ⟨h3, h4⟩ | ⟨h3, -⟩
    · refine .inl ⟨h3, ?_⟩
      cases s'
      exact congrArg VecSet.mk (h4.trans e.symm)
    · refine .inr ⟨h3, .inr ?_⟩
      rw [e]; exact h2

end history

/-! ### Concrete comparisons -/
section examples

/-- answers at random, depending on how often it was called -/
def random : Cmp Nat Nat Nat := fun _ _ n => (.ret (if n % 3 = 0 then .lt else if n % 3 = 1 then .gt else .eq), n + 1)
/-- answers like the order, but panics when the fuse has burnt down -/
def fuse : Cmp Nat Nat Nat := fun a b n => match n with
  | 0 => (.panic, 0)
  | n + 1 => (.ret (compare a b), n)

theorem fuse_answers : Answers fuse compare := by
  intro a b w o h
  cases w with
  | zero => cases h
  | succ n => cases h; rfl
example : Panics fuse := ⟨0, 0, 0, rfl⟩
example : ¬ Panics random := by
  rintro ⟨a, b, w, h⟩
  cases h

/-- the random comparison makes a "set" that is out of order and has a duplicate; but nothing is lost or invented -/
example : (mergeNew random [1, 2, 3] [2, 3, 4] (AlgebraOp.union.op Nat (SliceMS.mut cloneConverter cloneConverter)) 0).1 =
    ([1, 2, 2, 4, 3], .ret true) := by decide +kernel
example : (mergeInPlace random [1, 2, 3] [2, 3, 4] (AlgebraOp.union.op Nat (SlotMS.mut (fun _ => 1) idConverter)) 0).1.1.result =
    [1, 2, 2, 4, 3] := by decide +kernel
/-- the fuse burns down in the middle of a union: the set is cut off -/
example : ((assign fuse ⟨[1, 3, 5, 7]⟩ ⟨[2, 3, 6]⟩ (AlgebraOp.union.op Nat (SlotMS.mut (fun _ => 1) idConverter)) 6).1.1.elems,
    (assign fuse ⟨[1, 3, 5, 7]⟩ ⟨[2, 3, 6]⟩ (AlgebraOp.union.op Nat (SlotMS.mut (fun _ => 1) idConverter)) 6).1.2) = ([1, 2, 3, 5], .panic) := by
  decide +kernel
/-- if it is shorter, everything is gone: the panic does not leave the old set behind -/
example : (assign fuse ⟨[1, 3, 5, 7]⟩ ⟨[2, 3, 6]⟩ (AlgebraOp.union.op Nat (SlotMS.mut (fun _ => 1) idConverter)) 5).1.1.elems = [] := by
  decide +kernel
example : (Hostile.insert fuse ⟨[1, 3, 5, 7]⟩ 4 9).1.2 = .ret true ∧ (Hostile.insert fuse ⟨[1, 3, 5, 7]⟩ 4 1).1.2 = .panic := by
  constructor <;> decide +kernel
/-- relations: with a long fuse the answer is right, with a short one there is none -/
example : (mergeBool fuse [3, 5] [1, 3, 5, 7] (setDiffOp BoolMS.mut) 9).1 = (false, .ret true) ∧
    (mergeBool fuse [3, 5] [1, 3, 5, 7] (setDiffOp BoolMS.mut) 2).1.2 = .panic := by
  constructor <;> decide +kernel
/-- a sort that never panics -/
def plainSort : List Nat → Nat → Call (List Nat) × Nat := fun l n => (.ret (stableSortBy compare l), n)
example : Permutes plainSort := fun l _ _ h => by cases h; exact stableSort_perm compare l
/-- a history in which the fuse burns down during the second call: the panic is caught and the set goes on with what is left of it -/
example : (runCalls fuse plainSort (fun _ => 0) [.insert 4, .extend [1, 4, 9], .remove 7, .insert 2] ⟨[3, 7]⟩ 8).1.elems = [1, 3, 4] := by
  decide +kernel
/-- a join whose key comparison burns down -/
example : (mergeInPlace (fun (x : Nat × Char) (y : Nat × Bool) n => fuse x.1 y.1 n) [(1, 'a'), (2, 'b'), (5, 'c')] [(2, true), (3, false)]
    ((JoinOp.left (fun _ v _ => .ret (some v))).slot (fun _ => 0)) 3).1.1.result = [(1, 'a'), (2, 'b'), (5, 'c')] ∧
    (mergeInPlace (fun (x : Nat × Char) (y : Nat × Bool) n => fuse x.1 y.1 n) [(1, 'a'), (2, 'b'), (5, 'c')] [(2, true), (3, false)]
    ((JoinOp.left (fun _ v _ => .ret (some v))).slot (fun _ => 0)) 2).1.1.result = [(1, 'a'), (2, 'b')] := by
  constructor <;> decide +kernel

end examples
end Hostile
end Verif
