import Verif.Model.HostileTotal
import Verif.Props.Hostile
import Verif.Props.TotalVecSet
import Verif.Props.TotalVecMap
/-!
# C88: `TotalVecSet` and `TotalVecMap` with a comparison that obeys no law or panics

First the comparison may do anything. Then it answers like a total order whenever it answers, but may panic at any time; the panic is caught and the container is
used again.
-/
namespace Verif
namespace Hostile
open Std

/-- the operators of `TotalVecSet` -/
inductive TotalBinOp where
  | and | or | xor | sub
deriving DecidableEq, Repr

/-- what the operator does to the membership of one element, hence also to the flags -/
def TotalBinOp.on : TotalBinOp → Bool → Bool → Bool
  | .and, x, y => x && y
  | .or, x, y => x || y
  | .xor, x, y => x != y
  | .sub, x, y => x && !y

section ops
variable {W T : Type} [Ord T]

/-- the operator by reference, over an arbitrary comparison -/
def TotalBinOp.new (cmp : Cmp W T T) (a b : TotalVecSet T) (w : W) : TotalBinOp → Outcome (TotalVecSet T) × W
  | .and => totalAnd cmp a b w
  | .or => totalOr cmp a b w
  | .xor => totalXor cmp a b w
  | .sub => totalSub cmp a b w
/-- the assigning operator, over an arbitrary comparison -/
def TotalBinOp.assign (cmp : Cmp W T T) (pol : Nat → Nat) (a b : TotalVecSet T) (w : W) : TotalBinOp → (TotalVecSet T × Outcome Unit) × W
  | .and => totalAndAssign cmp pol a b w
  | .or => totalOrAssign cmp pol a b w
  | .xor => totalXorAssign cmp pol a b w
  | .sub => totalSubAssign cmp pol a b w
/-- the operator with a comparison that never panics (`Model/TotalVecSet.lean`, properties C30 and C31) -/
def TotalBinOp.plain (a b : TotalVecSet T) : TotalBinOp → TotalVecSet T
  | .and => (a.bitand b).1
  | .or => (a.bitor b).1
  | .xor => (a.bitxor b).1
  | .sub => (a.sub b).1
/-- the assigning operator with a comparison that never panics -/
def TotalBinOp.plainAssign (a b : TotalVecSet T) : TotalBinOp → TotalVecSet T
  | .and => (a.bitandAssign b).1
  | .or => (a.bitorAssign b).1
  | .xor => (a.bitxorAssign b).1
  | .sub => (a.subAssign b).1
end ops

/-! ## Anything goes -/
section lookup
variable {W T : Type}

/-- a computation on the value returned -/
def Outcome.map {α β : Type} (f : α → β) : Outcome α → Outcome β
  | .ret x => .ret (f x)
  | .panic => .panic
  | .fault => .fault

theorem bind_pure_fst {α β : Type} (x : M W α) (f : α → β) (w : W) : ((x >>= fun b => pure (f b)) w).1 = (x w).1.map f := by
  show (match x w with
    | (.ret a, w') => (pure (f a) : M W β) w'
    | (.panic, w') => (.panic, w')
    | (.fault, w') => (.fault, w')).1 = _
  rcases x w with ⟨o, w'⟩
  cases o <;> rfl

/-- **C88 (contains).** no undefined behaviour, a panic is one of the comparison, and an answer other than that of the flag means that the comparison
called some listed element equal to `x` -/
theorem C88_contains (cmp : Cmp W T T) (s : TotalVecSet T) (x : T) (w : W) :
    (totalContains cmp s x w).1 ≠ .fault ∧ ((totalContains cmp s x w).1 = .panic → Panics cmp) ∧
    ((totalContains cmp s x w).1 = .ret (!s.negated) → ∃ e ∈ s.elements.elems, SaysEqual cmp e x) := by
  have h := C75_contains cmp s.elements x w
  rw [show (totalContains cmp s x w).1 = ((contains cmp s.elements x w).1).map (s.negated ^^ ·) from bind_pure_fst _ _ _]
  cases ho : (contains cmp s.elements x w).1 with
  | ret b =>
    refine ⟨(by intro h; cases h), (by intro h; cases h), fun hb => h.2.2 ?_⟩
    injection hb with hb
    rw [ho]
    revert hb
    cases s.negated <;> cases b <;> simp
  | panic => exact ⟨(by intro h; cases h), fun _ => h.2.1 ho, (by intro h; cases h)⟩
  | fault => exact absurd ho h.1

/-- the listed elements of `s'` are those of `s` with `x` put in front of some suffix, or in the place of an element that the comparison called equal -/
def Listed (cmp : Cmp W T T) (x : T) (l l' : List T) : Prop :=
  (∃ lo hi, l = lo ++ hi ∧ l' = lo ++ x :: hi) ∨ ∃ lo y hi, l = lo ++ y :: hi ∧ l' = lo ++ x :: hi ∧ SaysEqual cmp y x
/-- the listed elements of `s'` are those of `s`, perhaps without one that the comparison called equal to `x` -/
def Unlisted (cmp : Cmp W T T) (x : T) (l l' : List T) : Prop :=
  l' = l ∨ ∃ lo y hi, l = lo ++ y :: hi ∧ l' = lo ++ hi ∧ SaysEqual cmp y x

theorem listed (cmp : Cmp W T T) (s : VecSet T) (n : Bool) (x : T) (w : W) (s' : TotalVecSet T) (res : Outcome Unit)
    (h : (onElements n (insert cmp s x w)).1 = (s', res)) :
    s'.negated = n ∧ ((res = .panic ∧ Panics cmp ∧ s'.elements = s) ∨ (res = .ret () ∧ Listed cmp x s.elems s'.elements.elems)) := by
  have hi := C75_insert cmp s x w _ _ rfl
  cases h
  refine ⟨rfl, ?_⟩
  rcases hi with ⟨h1, h2, h3⟩ | ⟨h1, h2⟩ | ⟨h1, h2⟩
  · exact .inl ⟨by simp [onElements, h1, Outcome.done], h2, h3⟩
  · exact .inr ⟨by simp [onElements, h1, Outcome.done], .inl h2⟩
  · exact .inr ⟨by simp [onElements, h1, Outcome.done], .inr h2⟩

theorem unlisted (cmp : Cmp W T T) (s : VecSet T) (n : Bool) (x : T) (w : W) (s' : TotalVecSet T) (res : Outcome Unit)
    (h : (onElements n (remove cmp s x w)).1 = (s', res)) :
    s'.negated = n ∧ ((res = .panic ∧ Panics cmp ∧ s'.elements = s) ∨ (res = .ret () ∧ Unlisted cmp x s.elems s'.elements.elems)) := by
  have hi := C75_remove cmp s x w _ _ rfl
  cases h
  refine ⟨rfl, ?_⟩
  rcases hi with ⟨h1, h2, h3⟩ | ⟨h1, h2⟩ | ⟨h1, h2⟩
  · exact .inl ⟨by simp [onElements, h1, Outcome.done], h2, h3⟩
  · exact .inr ⟨by simp [onElements, h1, Outcome.done], .inl (congrArg VecSet.elems h2)⟩
  · exact .inr ⟨by simp [onElements, h1, Outcome.done], .inr h2⟩

/-- **C88 (insert).** The flag never changes. Either the comparison panicked and nothing happened, or the element was listed (in a set without the flag) or an element
called equal to it was unlisted (in a set with the flag). -/
theorem C88_insert (cmp : Cmp W T T) (s : TotalVecSet T) (x : T) (w : W) (s' : TotalVecSet T) (res : Outcome Unit)
    (h : (totalInsert cmp s x w).1 = (s', res)) :
    s'.negated = s.negated ∧ ((res = .panic ∧ Panics cmp ∧ s' = s) ∨
      (res = .ret () ∧ s.negated = false ∧ Listed cmp x s.elements.elems s'.elements.elems) ∨
      (res = .ret () ∧ s.negated = true ∧ Unlisted cmp x s.elements.elems s'.elements.elems)) := by
  unfold totalInsert at h
  cases hn : s.negated with
  | false =>
    simp only [hn, Bool.not_false, if_true] at h
    obtain ⟨h1, h2⟩ := listed cmp s.elements false x w s' res h
    refine ⟨h1, ?_⟩
    rcases h2 with ⟨h2, h3, h4⟩ | ⟨h2, h3⟩
    · refine .inl ⟨h2, h3, ?_⟩
      cases s'; cases s; simp_all
    · exact .inr (.inl ⟨h2, rfl, h3⟩)
  | true =>
    simp only [hn, Bool.not_true, Bool.false_eq_true, if_false] at h
    obtain ⟨h1, h2⟩ := unlisted cmp s.elements true x w s' res h
    refine ⟨h1, ?_⟩
    rcases h2 with ⟨h2, h3, h4⟩ | ⟨h2, h3⟩
    · refine .inl ⟨h2, h3, ?_⟩
      cases s'; cases s; simp_all
    · exact .inr (.inr ⟨h2, rfl, h3⟩)

/-- **C88 (remove).** The same the other way round; a set with the flag lists a clone of the argument, and a panic may also be one of `clone`. -/
theorem C88_remove (cmp : Cmp W T T) (clone : T → W → Call T × W) (s : TotalVecSet T) (x : T) (w : W) (s' : TotalVecSet T) (res : Outcome Unit)
    (h : (totalRemove cmp clone s x w).1 = (s', res)) :
    s'.negated = s.negated ∧ ((res = .panic ∧ (Panics cmp ∨ (clone x w).1 = .panic) ∧ s' = s) ∨
      (res = .ret () ∧ s.negated = false ∧ Unlisted cmp x s.elements.elems s'.elements.elems) ∨
      (res = .ret () ∧ s.negated = true ∧ ∃ y, (clone x w).1 = .ret y ∧ Listed cmp y s.elements.elems s'.elements.elems)) := by
  unfold totalRemove at h
  cases hn : s.negated with
  | false =>
    simp only [hn, Bool.false_eq_true, if_false] at h
    obtain ⟨h1, h2⟩ := unlisted cmp s.elements false x w s' res h
    refine ⟨h1, ?_⟩
    rcases h2 with ⟨h2, h3, h4⟩ | ⟨h2, h3⟩
    · refine .inl ⟨h2, .inl h3, ?_⟩
      cases s'; cases s; simp_all
    · exact .inr (.inl ⟨h2, rfl, h3⟩)
  | true =>
    simp only [hn, if_true] at h
    rcases hc : clone x w with ⟨c, w'⟩
    rw [hc] at h
    cases c with
    | panic => cases h; exact ⟨hn, .inl ⟨rfl, .inr rfl, rfl⟩⟩
    | ret y =>
      obtain ⟨h1, h2⟩ := listed cmp s.elements true y w' s' res h
      refine ⟨h1, ?_⟩
      rcases h2 with ⟨h2, h3, h4⟩ | ⟨h2, h3⟩
      · refine .inl ⟨h2, .inl h3, ?_⟩
        cases s'; cases s; simp_all
      · exact .inr (.inr ⟨h2, rfl, y, rfl, h3⟩)

end lookup

section algebra
variable {W T : Type} [Ord T]

/-- one of the four operators on `VecSet`s, into a new set -/
theorem newTotal_cases (cmp : Cmp W T T) (o : AlgebraOp) (a b : VecSet T) (n : Bool) (w : W) (res : Outcome (TotalVecSet T))
    (h : (newTotal n (mergeNew cmp a.elems b.elems (o.op T (SliceMS.mut cloneConverter cloneConverter)) w)).1 = res) :
    (res = .panic ∧ Panics cmp) ∨ ∃ r, res = .ret r ∧ r.negated = n ∧ Within r.elements.elems (a.elems ++ b.elems) ∧
      (mergeNew cmp a.elems b.elems (o.op T (SliceMS.mut cloneConverter cloneConverter)) w).1 = (r.elements.elems, .ret true) := by
  have hs := C75_set_algebra cmp o a b w (mergeNew cmp a.elems b.elems (o.op T (SliceMS.mut cloneConverter cloneConverter)) w).1.1
    (mergeNew cmp a.elems b.elems (o.op T (SliceMS.mut cloneConverter cloneConverter)) w).1.2 rfl
  unfold newTotal at h
  rcases hs.1 with h1 | ⟨h1, h2⟩
  · rw [h1] at h
    exact .inr ⟨_, h.symm, rfl, hs.2.1, Prod.ext rfl h1⟩
  · rw [h1] at h
    exact .inl ⟨h.symm, h2⟩

/-- one of the four assigning operators on `VecSet`s -/
theorem thenFlag_cases (cmp : Cmp W T T) (pol : Nat → Nat) (o : AlgebraOp) (a b : VecSet T) (old n : Bool) (w : W) (s : TotalVecSet T) (res : Outcome Unit)
    (h : (thenFlag old n (assign cmp a b (o.op T (SlotMS.mut pol idConverter)) w)).1 = (s, res)) :
    Within s.elements.elems (a.elems ++ b.elems) ∧
    ((res = .ret () ∧ s.negated = n ∧ (assign cmp a b (o.op T (SlotMS.mut pol idConverter)) w).1 = (s.elements, .ret true)) ∨
     (res = .panic ∧ Panics cmp ∧ s.negated = old ∧ (assign cmp a b (o.op T (SlotMS.mut pol idConverter)) w).1 = (s.elements, .panic))) := by
  have hs := C75_set_in_place cmp pol idConverter (C57_converters (T := T)).1 o a b w _ _ rfl
  have win : Within (assign cmp a b (o.op T (SlotMS.mut pol idConverter)) w).1.1.elems (a.elems ++ b.elems) := ⟨_, hs.2.2.1⟩
  have hr : (assign cmp a b (o.op T (SlotMS.mut pol idConverter)) w).1.2 = .ret true ∨
      ((assign cmp a b (o.op T (SlotMS.mut pol idConverter)) w).1.2 = .panic ∧ Panics cmp) := by
    rcases hs.2.2.2 with h | ⟨h, h' | ⟨x, hx⟩⟩
    · exact .inl h
    · exact .inr ⟨h, h'⟩
    · cases hx
  unfold thenFlag at h
  rcases hr with h1 | ⟨h1, h2⟩
  · rw [h1] at h
    cases h
    exact ⟨win, .inl ⟨rfl, rfl, Prod.ext rfl h1⟩⟩
  · rw [h1] at h
    cases h
    exact ⟨win, .inr ⟨rfl, h2, rfl, Prod.ext rfl h1⟩⟩

theorem Within.swap {r a b : List T} (h : Within r (b ++ a)) : Within r (a ++ b) := by
  obtain ⟨rest, h⟩ := h
  exact ⟨rest, h.trans List.perm_append_comm⟩

/-- **C88 (relations).** `is_subset`, `is_superset` and `is_disjoint` answer, or the comparison panics. -/
theorem C88_relations (cmp : Cmp W T T) (a b : TotalVecSet T) (w : W) :
    ((∃ r, (totalIsSubset cmp a b w).1 = .ret r) ∨ ((totalIsSubset cmp a b w).1 = .panic ∧ Panics cmp)) ∧
    ((∃ r, (totalIsSuperset cmp a b w).1 = .ret r) ∨ ((totalIsSuperset cmp a b w).1 = .panic ∧ Panics cmp)) ∧
    ((∃ r, (totalIsDisjoint cmp a b w).1 = .ret r) ∨ ((totalIsDisjoint cmp a b w).1 = .panic ∧ Panics cmp)) := by
  have one : ∀ (o : AlgebraOp) (a b : VecSet T), (∃ r, (noneFound (mergeBool cmp a.elems b.elems (o.op T BoolMS.mut) w)).1 = .ret r) ∨
      ((noneFound (mergeBool cmp a.elems b.elems (o.op T BoolMS.mut) w)).1 = .panic ∧ Panics cmp) := by
    intro o a b
    unfold noneFound
    rcases C75_relations cmp o a b w with ⟨d, h⟩ | ⟨h, h'⟩
    · rw [h]; exact .inl ⟨_, rfl⟩
    · rw [h]; exact .inr ⟨rfl, h'⟩
  have sub : ∀ a b : TotalVecSet T, (∃ r, (totalIsSubset cmp a b w).1 = .ret r) ∨ ((totalIsSubset cmp a b w).1 = .panic ∧ Panics cmp) := by
    intro a b
    unfold totalIsSubset
    cases a.negated <;> cases b.negated
    · exact one .difference _ _
    · exact one .intersection _ _
    · exact .inl ⟨false, rfl⟩
    · exact one .difference _ _
  refine ⟨sub a b, ?_, ?_⟩
  · rw [show (totalIsSuperset cmp a b w).1 = ((totalIsSubset cmp a b w).1).map (!·) from bind_pure_fst _ _ _]
    rcases sub a b with ⟨r, h⟩ | ⟨h, h'⟩
    · rw [h]; exact .inl ⟨_, rfl⟩
    · rw [h]; exact .inr ⟨rfl, h'⟩
  · unfold totalIsDisjoint
    cases a.negated <;> cases b.negated
    · exact one .intersection _ _
    · exact one .difference _ _
    · exact one .difference _ _
    · exact .inl ⟨false, rfl⟩

/-- **C88 (operators into a new set).** With any comparison the operator ends, by a result or by a panic of the comparison. The flag of the result is the operator
applied to the flags, and the elements it lists are listed by the operands, each at most as often as there. -/
theorem C88_operators (cmp : Cmp W T T) (o : TotalBinOp) (a b : TotalVecSet T) (w : W) :
    ((o.new cmp a b w).1 = .panic ∧ Panics cmp) ∨
    ∃ r, (o.new cmp a b w).1 = .ret r ∧ r.negated = o.on a.negated b.negated ∧ Within r.elements.elems (a.elements.elems ++ b.elements.elems) := by
  have one : ∀ (p : AlgebraOp) (n : Bool),
      ((newTotal n (mergeNew cmp a.elements.elems b.elements.elems (p.op T (SliceMS.mut cloneConverter cloneConverter)) w)).1 = .panic ∧ Panics cmp) ∨
      ∃ r, (newTotal n (mergeNew cmp a.elements.elems b.elements.elems (p.op T (SliceMS.mut cloneConverter cloneConverter)) w)).1 = .ret r ∧
        r.negated = n ∧ Within r.elements.elems (a.elements.elems ++ b.elements.elems) := by
    intro p n
    rcases newTotal_cases cmp p a.elements b.elements n w _ rfl with h | ⟨r, h1, h2, h3, -⟩
    · exact .inl h
    · exact .inr ⟨r, h1, h2, h3⟩
  have two : ∀ (p : AlgebraOp) (n : Bool),
      ((newTotal n (mergeNew cmp b.elements.elems a.elements.elems (p.op T (SliceMS.mut cloneConverter cloneConverter)) w)).1 = .panic ∧ Panics cmp) ∨
      ∃ r, (newTotal n (mergeNew cmp b.elements.elems a.elements.elems (p.op T (SliceMS.mut cloneConverter cloneConverter)) w)).1 = .ret r ∧
        r.negated = n ∧ Within r.elements.elems (a.elements.elems ++ b.elements.elems) := by
    intro p n
    rcases newTotal_cases cmp p b.elements a.elements n w _ rfl with h | ⟨r, h1, h2, h3, -⟩
    · exact .inl h
    · exact .inr ⟨r, h1, h2, Within.swap h3⟩
  cases o <;> simp only [TotalBinOp.new, TotalBinOp.on, totalAnd, totalOr, totalXor, totalSub] <;> cases a.negated <;> cases b.negated
  · exact one .intersection _
  · exact one .difference _
  · exact two .difference _
  · exact two .union _
  · exact one .union _
  · exact two .difference _
  · exact one .difference _
  · exact two .intersection _
  · exact one .xor _
  · exact one .xor _
  · exact one .xor _
  · exact one .xor _
  · exact one .difference _
  · exact one .intersection _
  · exact one .union _
  · exact two .difference _

/-- **C88 (assigning operators).** The same in place; but if the comparison panics, the flag stays what it was, whatever has become of the elements. -/
theorem C88_assigning (cmp : Cmp W T T) (pol : Nat → Nat) (o : TotalBinOp) (a b : TotalVecSet T) (w : W) (s : TotalVecSet T) (res : Outcome Unit)
    (h : (o.assign cmp pol a b w).1 = (s, res)) :
    Within s.elements.elems (a.elements.elems ++ b.elements.elems) ∧
    ((res = .ret () ∧ s.negated = o.on a.negated b.negated) ∨ (res = .panic ∧ Panics cmp ∧ s.negated = a.negated)) := by
  have one : ∀ (p : AlgebraOp) (n : Bool),
      (thenFlag a.negated n (Hostile.assign cmp a.elements b.elements (p.op T (SlotMS.mut pol idConverter)) w)).1 = (s, res) →
      Within s.elements.elems (a.elements.elems ++ b.elements.elems) ∧
      ((res = .ret () ∧ s.negated = n) ∨ (res = .panic ∧ Panics cmp ∧ s.negated = a.negated)) := by
    intro p n h
    obtain ⟨h1, h2⟩ := thenFlag_cases cmp pol p a.elements b.elements _ n w s res h
    exact ⟨h1, h2.imp (fun h => ⟨h.1, h.2.1⟩) (fun h => ⟨h.1, h.2.1, h.2.2.1⟩)⟩
  have two : ∀ (p : AlgebraOp) (n : Bool),
      (thenFlag a.negated n (Hostile.assign cmp b.elements a.elements (p.op T (SlotMS.mut pol idConverter)) w)).1 = (s, res) →
      Within s.elements.elems (a.elements.elems ++ b.elements.elems) ∧
      ((res = .ret () ∧ s.negated = n) ∨ (res = .panic ∧ Panics cmp ∧ s.negated = a.negated)) := by
    intro p n h
    obtain ⟨h1, h2⟩ := thenFlag_cases cmp pol p b.elements a.elements _ n w s res h
    exact ⟨Within.swap h1, h2.imp (fun h => ⟨h.1, h.2.1⟩) (fun h => ⟨h.1, h.2.1, h.2.2.1⟩)⟩
  cases o <;> simp only [TotalBinOp.assign, TotalBinOp.on, totalAndAssign, totalOrAssign, totalXorAssign, totalSubAssign] at h ⊢ <;>
    cases hb : b.negated <;> cases ha : a.negated <;> rw [hb] at h <;> simp only [ha] at h one two ⊢
  · exact one .intersection _ h
  · exact two .difference _ h
  · exact one .difference _ h
  · exact one .union _ h
  · exact one .union _ h
  · exact one .difference _ h
  · exact two .difference _ h
  · exact one .intersection _ h
  · exact one .xor _ h
  · exact one .xor _ h
  · exact one .xor _ h
  · exact one .xor _ h
  · exact one .difference _ h
  · exact one .union _ h
  · exact one .intersection _ h
  · exact two .difference _ h

end algebra

/-! ## A total order that may panic -/
section lawful
variable {W T : Type} [Ord T]

/-- **C88 (panicking order, one element).** If the comparison answers like the order whenever it answers, then every call that returns does what it does with a
comparison that never panics. (When it panics nothing has changed: `C88_insert`, `C88_remove`.) -/
theorem C88_panicking_order_elements (cmp : Cmp W T T) (hcmp : Answers cmp compare) (clone : T → W → Call T × W)
    (hclone : ∀ x w y, (clone x w).1 = .ret y → y = x) (s : TotalVecSet T) (x : T) (w : W) :
    (∀ r, (totalContains cmp s x w).1 = .ret r → r = s.contains x) ∧
    (∀ s', (totalInsert cmp s x w).1 = (s', .ret ()) → s' = s.insert x) ∧
    (∀ s', (totalRemove cmp clone s x w).1 = (s', .ret ()) → s' = s.remove x) := by
  have ins : ∀ (e : VecSet T) (w : W) (s' : TotalVecSet T) (n : Bool), (onElements n (insert cmp e x w)).1 = (s', .ret ()) → s' = ⟨(e.insert x).1, n⟩ := by
    intro e w s' n h
    have hi := (C75_panicking_order_elements cmp hcmp e x w).2.1
    unfold onElements at h
    rcases hq : insert cmp e x w with ⟨⟨e', r⟩, w'⟩
    rw [hq] at h hi
    cases r with
    | ret r => cases h; rw [← hi e' r rfl]
    | panic => cases h
    | fault => cases h
  have rem : ∀ (e : VecSet T) (w : W) (s' : TotalVecSet T) (n : Bool), (onElements n (remove cmp e x w)).1 = (s', .ret ()) → s' = ⟨(e.remove x).1, n⟩ := by
    intro e w s' n h
    have hi := (C75_panicking_order_elements cmp hcmp e x w).2.2
    unfold onElements at h
    rcases hq : remove cmp e x w with ⟨⟨e', r⟩, w'⟩
    rw [hq] at h hi
    cases r with
    | ret r => cases h; rw [← hi e' r rfl]
    | panic => cases h
    | fault => cases h
  refine ⟨fun r h => ?_, fun s' h => ?_, fun s' h => ?_⟩
  · rw [show (totalContains cmp s x w).1 = ((contains cmp s.elements x w).1).map (s.negated ^^ ·) from bind_pure_fst _ _ _] at h
    cases ho : (contains cmp s.elements x w).1 with
    | ret b =>
      rw [ho] at h
      cases h
      rw [(C75_panicking_order_elements cmp hcmp s.elements x w).1 b ho]
      rfl
    | panic => rw [ho] at h; cases h
    | fault => rw [ho] at h; cases h
  · unfold totalInsert at h
    unfold TotalVecSet.insert
    cases hn : s.negated with
    | false =>
      simp only [hn, Bool.not_false, if_true] at h ⊢
      exact ins _ _ _ _ h
    | true =>
      simp only [hn, Bool.not_true, Bool.false_eq_true, if_false] at h ⊢
      exact rem _ _ _ _ h
  · unfold totalRemove at h
    unfold TotalVecSet.remove
    cases hn : s.negated with
    | false =>
      simp only [hn, Bool.false_eq_true, if_false] at h ⊢
      exact rem _ _ _ _ h
    | true =>
      simp only [hn, if_true] at h ⊢
      rcases hc : clone x w with ⟨c, w'⟩
      rw [hc] at h
      cases c with
      | panic => cases h
      | ret y =>
        have := hclone x w y (by rw [hc])
        subst this
        exact ins _ _ _ _ h

variable [TransOrd T]

/-- **C88 (panicking order, relations).** A relation that returns gives the answer it gives with a comparison that never panics (C32 says which that is). -/
theorem C88_panicking_order_relations (cmp : Cmp W T T) (hcmp : Answers cmp compare) (a b : TotalVecSet T) (ha : Ascending a.elements.elems)
    (hb : Ascending b.elements.elems) (w : W) (r : Bool) :
    ((totalIsSubset cmp a b w).1 = .ret r → r = a.isSubset b) ∧
    ((totalIsSuperset cmp a b w).1 = .ret r → r = a.isSuperset b) ∧
    ((totalIsDisjoint cmp a b w).1 = .ret r → r = a.isDisjoint b) := by
  have sub : ∀ (x y : VecSet T), Ascending x.elems → Ascending y.elems → ∀ r, (isSubset cmp x y w).1 = .ret r → r = x.isSubset y := by
    intro x y hx hy r h
    unfold isSubset noneFound at h
    rcases hq : mergeBool cmp x.elems y.elems (setDiffOp BoolMS.mut) w with ⟨⟨q, o⟩, w'⟩
    rw [hq] at h
    cases o with
    | ret d => cases h; exact (C75_panicking_order_results cmp hcmp x y hx hy w d).2.1 q (by rw [hq])
    | panic => cases h
    | fault => cases h
  have dis : ∀ (x y : VecSet T), Ascending x.elems → Ascending y.elems → ∀ r, (isDisjoint cmp x y w).1 = .ret r → r = x.isDisjoint y := by
    intro x y hx hy r h
    unfold isDisjoint noneFound at h
    rcases hq : mergeBool cmp x.elems y.elems (setIntersectionOp BoolMS.mut) w with ⟨⟨q, o⟩, w'⟩
    rw [hq] at h
    cases o with
    | ret d => cases h; exact (C75_panicking_order_results cmp hcmp x y hx hy w d).1 q (by rw [hq])
    | panic => cases h
    | fault => cases h
  have tsub : ∀ r, (totalIsSubset cmp a b w).1 = .ret r → r = a.isSubset b := by
    intro r h
    unfold totalIsSubset at h
    unfold TotalVecSet.isSubset
    cases hna : a.negated <;> cases hnb : b.negated <;> simp only [hna, hnb] at h ⊢
    · exact sub _ _ ha hb r h
    · exact dis _ _ ha hb r h
    · cases h; rfl
    · exact sub _ _ hb ha r h
  refine ⟨tsub r, fun h => ?_, fun h => ?_⟩
  · rw [show (totalIsSuperset cmp a b w).1 = ((totalIsSubset cmp a b w).1).map (!·) from bind_pure_fst _ _ _] at h
    cases ho : (totalIsSubset cmp a b w).1 with
    | ret q => rw [ho] at h; cases h; rw [tsub q ho]; rfl
    | panic => rw [ho] at h; cases h
    | fault => rw [ho] at h; cases h
  · unfold totalIsDisjoint at h
    unfold TotalVecSet.isDisjoint
    cases hna : a.negated <;> cases hnb : b.negated <;> simp only [hna, hnb] at h ⊢
    · exact dis _ _ ha hb r h
    · exact sub _ _ ha hb r h
    · exact sub _ _ hb ha r h
    · cases h; rfl

theorem builtTotal_of_asc {s : TotalVecSet T} (h : Ascending s.elements.elems) : BuiltTotal s := by
  obtain ⟨e, n⟩ := s
  cases n
  · exact .fromVecSet (C01_every_ascending_is_built _ h)
  · exact .not (.fromVecSet (C01_every_ascending_is_built _ h))

theorem plain_contains (o : TotalBinOp) {a b : TotalVecSet T} (ha : BuiltTotal a) (hb : BuiltTotal b) (x : T) :
    (o.plain a b).contains x = o.on (a.contains x) (b.contains x) := by
  obtain ⟨h1, h2, h3, h4, -⟩ := C30_pointwise a b ha hb
  cases o
  · exact h1.2 x
  · exact h2.2 x
  · rw [show TotalBinOp.xor.plain a b = (a.bitxor b).1 from rfl, h3.2 x]
    show _ = (a.contains x != b.contains x)
    cases a.contains x <;> cases b.contains x <;> rfl
  · exact h4.2 x

theorem plainAssign_contains (o : TotalBinOp) {a b : TotalVecSet T} (ha : BuiltTotal a) (hb : BuiltTotal b) (x : T) :
    (o.plainAssign a b).contains x = o.on (a.contains x) (b.contains x) := by
  obtain ⟨⟨r1, e1, -, h1⟩, ⟨r2, e2, -, h2⟩, ⟨r3, e3, -, h3⟩, r4, e4, -, h4⟩ := C31_assign_ops_agree a b ha hb
  cases o
  · simp only [TotalBinOp.plainAssign, e1]; exact h1 x
  · simp only [TotalBinOp.plainAssign, e2]; exact h2 x
  · simp only [TotalBinOp.plainAssign, e3]; exact h3 x
  · simp only [TotalBinOp.plainAssign, e4]; exact h4 x

theorem newTotal_lawful {n : Bool} {q : (List T × Outcome Bool) × W} {e : VecSet T} (hq : ∀ r d, q.1 = (r, .ret d) → e = ⟨r⟩)
    {r : TotalVecSet T} (h : (newTotal n q).1 = .ret r) : r = ⟨e, n⟩ := by
  obtain ⟨⟨l, o⟩, w'⟩ := q
  unfold newTotal at h
  cases o with
  | ret d => cases h; rw [hq l d rfl]
  | panic => cases h
  | fault => cases h

/-- **C88 (panicking order, operators).** An operator that returns has computed the set it computes with a comparison that never panics: the pointwise boolean
operation. -/
theorem C88_panicking_order_operators (cmp : Cmp W T T) (hcmp : Answers cmp compare) (o : TotalBinOp) (a b : TotalVecSet T) (ha : BuiltTotal a) (hb : BuiltTotal b)
    (w : W) (r : TotalVecSet T) (h : (o.new cmp a b w).1 = .ret r) :
    r = o.plain a b ∧ ∀ x, r.contains x = o.on (a.contains x) (b.contains x) := by
  have hA := ha.built.ascending
  have hB := hb.built.ascending
  have e : r = o.plain a b := by
    have rab := fun d => (C75_panicking_order_results cmp hcmp a.elements b.elements hA hB w d).2.2.2
    have rba := fun d => (C75_panicking_order_results cmp hcmp b.elements a.elements hB hA w d).2.2.2
    cases o <;> simp only [TotalBinOp.new, TotalBinOp.plain, totalAnd, totalOr, totalXor, totalSub, TotalVecSet.bitand, TotalVecSet.bitor, TotalVecSet.bitxor,
      TotalVecSet.sub, TotalVecSet.new] at h ⊢
    · cases hna : a.negated <;> cases hnb : b.negated <;> simp only [hna, hnb] at h ⊢
      · exact newTotal_lawful (fun l d => (rab d).2.1 l) h
      · exact newTotal_lawful (fun l d => (rab d).2.2.2 l) h
      · exact newTotal_lawful (fun l d => (rba d).2.2.2 l) h
      · exact newTotal_lawful (fun l d => (rba d).1 l) h
    · cases hna : a.negated <;> cases hnb : b.negated <;> simp only [hna, hnb] at h ⊢
      · exact newTotal_lawful (fun l d => (rab d).1 l) h
      · exact newTotal_lawful (fun l d => (rba d).2.2.2 l) h
      · exact newTotal_lawful (fun l d => (rab d).2.2.2 l) h
      · exact newTotal_lawful (fun l d => (rba d).2.1 l) h
    · exact newTotal_lawful (fun l d => (rab d).2.2.1 l) h
    · cases hna : a.negated <;> cases hnb : b.negated <;> simp only [hna, hnb] at h ⊢
      · exact newTotal_lawful (fun l d => (rab d).2.2.2 l) h
      · exact newTotal_lawful (fun l d => (rab d).2.1 l) h
      · exact newTotal_lawful (fun l d => (rab d).1 l) h
      · exact newTotal_lawful (fun l d => (rba d).2.2.2 l) h
  exact ⟨e, fun x => by rw [e]; exact plain_contains o ha hb x⟩

theorem thenFlag_lawful (cmp : Cmp W T T) (hcmp : Answers cmp compare) (pol : Nat → Nat) (o : AlgebraOp) {x y : VecSet T} (hx : Ascending x.elems)
    (hy : Ascending y.elems) {old n : Bool} {w : W} {s : TotalVecSet T} {res : Outcome Unit} {p : TotalVecSet T}
    (hp : p = ⟨⟨(InPlaceMS.merge x.elems y.elems (o.op T (InPlaceMS.mut idConverter))).1⟩, n⟩)
    (h : (thenFlag old n (Hostile.assign cmp x y (o.op T (SlotMS.mut pol idConverter)) w)).1 = (s, res)) :
    Ascending s.elements.elems ∧ p.negated = n ∧ ((res = .ret () ∧ s = p) ∨ (res = .panic ∧ Panics cmp ∧ s.negated = old ∧ s.elements.elems <+: p.elements.elems)) := by
  subst hp
  obtain ⟨-, h1⟩ := thenFlag_cases cmp pol o x y old n w s res h
  rcases h1 with ⟨h1, h2, h3⟩ | ⟨h1, h2, h3, h4⟩
  · obtain ⟨g1, -, g2⟩ := C75_panicking_order_in_place cmp hcmp pol o x y hx hy w _ _ h3
    refine ⟨g1, rfl, .inl ⟨h1, ?_⟩⟩
    rcases g2 with ⟨-, g2⟩ | ⟨g2, -⟩
    · obtain ⟨⟨l⟩, m⟩ := s
      simp only at g2 h2
      rw [h2, g2]
    · cases g2
  · obtain ⟨g1, g2, -⟩ := C75_panicking_order_in_place cmp hcmp pol o x y hx hy w _ _ h4
    exact ⟨g1, rfl, .inr ⟨h1, h2, h3, g2⟩⟩

theorem assign_cont (a : TotalVecSet T) {r : VecSet T × Flow} {n : Bool} {e : VecSet T} (h : r = (e, .cont)) :
    (TotalVecSet.bitandAssign.assign a r n).1 = ⟨r.1, n⟩ := by subst h; rfl

theorem assign_raw (cmp : Cmp W T T) (hcmp : Answers cmp compare) (pol : Nat → Nat) (o : TotalBinOp) (a b : TotalVecSet T)
    (hA : Ascending a.elements.elems) (hB : Ascending b.elements.elems) (w : W) (s : TotalVecSet T) (res : Outcome Unit)
    (h : (o.assign cmp pol a b w).1 = (s, res)) :
    Ascending s.elements.elems ∧ (o.plainAssign a b).negated = o.on a.negated b.negated ∧
    ((res = .ret () ∧ s = o.plainAssign a b) ∨
     (res = .panic ∧ Panics cmp ∧ s.negated = a.negated ∧ s.elements.elems <+: (o.plainAssign a b).elements.elems)) := by
  have ou := VecSet.bitorAssign_eq hA hB
  have oi := VecSet.bitandAssign_eq hA hB
  have od := VecSet.subAssign_eq hA hB
  have od' := VecSet.subAssign_eq hB hA
  have ox := VecSet.bitxorAssign_eq hA hB
  cases o <;> simp only [TotalBinOp.assign, TotalBinOp.plainAssign, totalAndAssign, totalOrAssign, totalXorAssign, totalSubAssign, TotalVecSet.bitandAssign,
    TotalVecSet.bitorAssign, TotalVecSet.bitxorAssign, TotalVecSet.subAssign, TotalBinOp.on] at h ⊢
  · cases hna : a.negated <;> cases hnb : b.negated <;> simp only [hna, hnb] at h ⊢
    · exact thenFlag_lawful cmp hcmp pol .intersection hA hB (assign_cont a oi) h
    · exact thenFlag_lawful cmp hcmp pol .difference hA hB (assign_cont a od) h
    · exact thenFlag_lawful cmp hcmp pol .difference hB hA (assign_cont a od') h
    · exact thenFlag_lawful cmp hcmp pol .union hA hB (assign_cont a ou) h
  · cases hna : a.negated <;> cases hnb : b.negated <;> simp only [hna, hnb] at h ⊢
    · exact thenFlag_lawful cmp hcmp pol .union hA hB (assign_cont a ou) h
    · exact thenFlag_lawful cmp hcmp pol .difference hB hA (assign_cont a od') h
    · exact thenFlag_lawful cmp hcmp pol .difference hA hB (assign_cont a od) h
    · exact thenFlag_lawful cmp hcmp pol .intersection hA hB (assign_cont a oi) h
  · exact thenFlag_lawful cmp hcmp pol .xor hA hB (assign_cont a ox) h
  · cases hna : a.negated <;> cases hnb : b.negated <;> simp only [hna, hnb] at h ⊢
    · exact thenFlag_lawful cmp hcmp pol .difference hA hB (assign_cont a od) h
    · exact thenFlag_lawful cmp hcmp pol .intersection hA hB (assign_cont a oi) h
    · exact thenFlag_lawful cmp hcmp pol .union hA hB (assign_cont a ou) h
    · exact thenFlag_lawful cmp hcmp pol .difference hB hA (assign_cont a od') h

theorem prefix_contains {p q : VecSet T} (hp : Ascending p.elems) (hq : Ascending q.elems) (h : p.elems <+: q.elems) {x : T} (hx : p.contains x = true) :
    q.contains x = true := by
  rw [C04_contains _ (C01_every_ascending_is_built p.elems hp)] at hx
  rw [C04_contains _ (C01_every_ascending_is_built q.elems hq)]
  obtain ⟨y, hy, e⟩ := hx
  exact ⟨y, h.subset hy, e⟩

/-- **C88 (panicking order, assigning operators).** If the operator returns, `self` is the pointwise boolean combination. If the comparison panicked, `self` is
still a valid set with its old flag, listing a prefix of the elements that the intended result lists. So, if `op` makes of the flags what the flag of `self`
was, too much is missing from a set without the flag, and too much is in a set with it; but if the flag should have changed, `self` is
a part of the complement of the intended set, or contains that complement. -/
theorem C88_panicking_order_assigning (cmp : Cmp W T T) (hcmp : Answers cmp compare) (pol : Nat → Nat) (o : TotalBinOp) (a b : TotalVecSet T)
    (ha : BuiltTotal a) (hb : BuiltTotal b) (w : W) (s : TotalVecSet T) (res : Outcome Unit) (h : (o.assign cmp pol a b w).1 = (s, res)) :
    BuiltTotal s ∧
    ((res = .ret () ∧ s = o.plainAssign a b ∧ ∀ x, s.contains x = o.on (a.contains x) (b.contains x)) ∨
     (res = .panic ∧ Panics cmp ∧ s.negated = a.negated ∧ s.elements.elems <+: (o.plainAssign a b).elements.elems ∧
      ∀ x,
        (a.negated = false → o.on a.negated b.negated = false → s.contains x = true → o.on (a.contains x) (b.contains x) = true) ∧
        (a.negated = true → o.on a.negated b.negated = true → o.on (a.contains x) (b.contains x) = true → s.contains x = true) ∧
        (a.negated = false → o.on a.negated b.negated = true → s.contains x = true → o.on (a.contains x) (b.contains x) = false) ∧
        (a.negated = true → o.on a.negated b.negated = false → o.on (a.contains x) (b.contains x) = false → s.contains x = true))) := by
  obtain ⟨h1, hf, h2⟩ := assign_raw cmp hcmp pol o a b ha.built.ascending hb.built.ascending w s res h
  refine ⟨builtTotal_of_asc h1, ?_⟩
  have hc := plainAssign_contains o ha hb
  have hasc : Ascending (o.plainAssign a b).elements.elems := by
    have hbt : BuiltTotal (o.plainAssign a b) := by
      cases o
      · exact .bitandAssign ha hb
      · exact .bitorAssign ha hb
      · exact .bitxorAssign ha hb
      · exact .subAssign ha hb
    exact hbt.built.ascending
  rcases h2 with ⟨h2, h3⟩ | ⟨h2, h3, h4, h5⟩
  · exact .inl ⟨h2, h3, fun x => by rw [h3]; exact hc x⟩
  · refine .inr ⟨h2, h3, h4, h5, fun x => ?_⟩
    have imp : s.elements.contains x = true → (o.plainAssign a b).elements.contains x = true := prefix_contains h1 hasc h5
    rw [← hc x]
    rw [← hf]
    simp only [TotalVecSet.contains, h4]
    revert imp
    generalize (o.plainAssign a b).negated = n
    generalize (o.plainAssign a b).elements.contains x = p
    generalize s.elements.contains x = q
    intro imp
    cases a.negated <;> cases n <;> cases p <;> cases q <;> simp_all

/-! ### Histories: the panics are caught and the set is used again -/

/-- a call that modifies a `TotalVecSet` -/
inductive TotalCall (T : Type) where
  | insert (x : T)
  | remove (x : T)
  | assign (o : TotalBinOp) (b : TotalVecSet T)

/-- the elements passed to the call -/
def TotalCall.args : TotalCall T → List T
  | .insert x => [x]
  | .remove x => [x]
  | .assign _ b => b.elements.elems

/-- the call on a set -/
def TotalCall.run (cmp : Cmp W T T) (clone : T → W → Call T × W) (pol : Nat → Nat) (s : TotalVecSet T) (w : W) :
    TotalCall T → (TotalVecSet T × Outcome Unit) × W
  | .insert x => totalInsert cmp s x w
  | .remove x => totalRemove cmp clone s x w
  | .assign o b => o.assign cmp pol s b w

/-- a history of calls, each of which may have panicked -/
def runTotal (cmp : Cmp W T T) (clone : T → W → Call T × W) (pol : Nat → Nat) : List (TotalCall T) → TotalVecSet T → W → TotalVecSet T × W
  | [], s, w => (s, w)
  | c :: cs, s, w => runTotal cmp clone pol cs (c.run cmp clone pol s w).1.1 (c.run cmp clone pol s w).2

theorem totalRun_valid (cmp : Cmp W T T) (hcmp : Answers cmp compare) (clone : T → W → Call T × W) (hclone : ∀ x w y, (clone x w).1 = .ret y → y = x)
    (pol : Nat → Nat) (c : TotalCall T) (hb : ∀ o b, c = .assign o b → BuiltTotal b) (s : TotalVecSet T) (hs : BuiltTotal s) (w : W) :
    (c.run cmp clone pol s w).1.2 ≠ .fault ∧ BuiltTotal (c.run cmp clone pol s w).1.1 ∧
    ∀ x ∈ (c.run cmp clone pol s w).1.1.elements.elems, x ∈ s.elements.elems ∨ x ∈ c.args := by
  have lst : ∀ {x : T} {l l' : List T}, Listed cmp x l l' → ∀ y ∈ l', y ∈ l ∨ y ∈ [x] := by
    rintro x l l' (⟨lo, hi, rfl, rfl⟩ | ⟨lo, z, hi, rfl, rfl, -⟩) y hy <;> simp at hy ⊢ <;> rcases hy with h | h | h <;> simp [h]
  have unl : ∀ {x : T} {l l' : List T}, Unlisted cmp x l l' → ∀ y ∈ l', y ∈ l ∨ y ∈ [x] := by
    rintro x l l' (rfl | ⟨lo, z, hi, rfl, rfl, -⟩) y hy
    · exact .inl hy
    · simp at hy ⊢; rcases hy with h | h <;> simp [h]
  cases c with
  | insert x =>
    simp only [TotalCall.run, TotalCall.args]
    have h1 := (C88_insert cmp s x w _ _ rfl).2
    have h2 := (C88_panicking_order_elements cmp hcmp clone hclone s x w).2.1 (totalInsert cmp s x w).1.1
    rcases h1 with ⟨r, -, e⟩ | ⟨r, -, e⟩ | ⟨r, -, e⟩
    · rw [r, e]; exact ⟨by simp, hs, fun x hx => .inl hx⟩
    · exact ⟨by rw [r]; simp, by rw [h2 (Prod.ext rfl r)]; exact .insert hs x, lst e⟩
    · exact ⟨by rw [r]; simp, by rw [h2 (Prod.ext rfl r)]; exact .insert hs x, unl e⟩
  | remove x =>
    simp only [TotalCall.run, TotalCall.args]
    have h1 := (C88_remove cmp clone s x w _ _ rfl).2
    have h2 := (C88_panicking_order_elements cmp hcmp clone hclone s x w).2.2 (totalRemove cmp clone s x w).1.1
    rcases h1 with ⟨r, -, e⟩ | ⟨r, -, e⟩ | ⟨r, -, y, hy, e⟩
    · rw [r, e]; exact ⟨by simp, hs, fun x hx => .inl hx⟩
    · exact ⟨by rw [r]; simp, by rw [h2 (Prod.ext rfl r)]; exact .remove hs x, unl e⟩
    · have := hclone x w y hy
      subst this
      exact ⟨by rw [r]; simp, by rw [h2 (Prod.ext rfl r)]; exact .remove hs y, lst e⟩
  | assign o b =>
    simp only [TotalCall.run, TotalCall.args]
    have hbb := hb o b rfl
    obtain ⟨⟨rest, hp⟩, hr⟩ := C88_assigning cmp pol o s b w _ _ rfl
    refine ⟨?_, (C88_panicking_order_assigning cmp hcmp pol o s b hs hbb w _ _ rfl).1, fun x hx => ?_⟩
    · rcases hr with ⟨hr, -⟩ | ⟨hr, -⟩ <;> rw [hr] <;> simp
    · exact List.mem_append.1 (hp.mem_iff.1 (List.mem_append_left _ hx))

/-- **C88 (panicking order, histories).** A total set whose comparison (or whose `clone`) may panic in the middle of any call stays a valid set through every history of
calls in which the panics are caught, and it never lists an element that was not passed in. -/
theorem C88_panicking_order_history (cmp : Cmp W T T) (hcmp : Answers cmp compare) (clone : T → W → Call T × W)
    (hclone : ∀ x w y, (clone x w).1 = .ret y → y = x) (pol : Nat → Nat) (calls : List (TotalCall T))
    (hb : ∀ o b, TotalCall.assign o b ∈ calls → BuiltTotal b) (s : TotalVecSet T) (hs : BuiltTotal s) (w : W) :
    BuiltTotal (runTotal cmp clone pol calls s w).1 ∧
    ∀ x ∈ (runTotal cmp clone pol calls s w).1.elements.elems, x ∈ s.elements.elems ∨ ∃ c ∈ calls, x ∈ c.args := by
  induction calls generalizing s w with
  | nil => exact ⟨hs, fun x hx => .inl hx⟩
  | cons c cs ih =>
    have h1 := totalRun_valid cmp hcmp clone hclone pol c (fun o b h => hb o b (by simp [h])) s hs w
    have h2 := ih (fun o b h => hb o b (List.mem_cons_of_mem _ h)) (c.run cmp clone pol s w).1.1 h1.2.1 (c.run cmp clone pol s w).2
    refine ⟨h2.1, fun x hx => ?_⟩
    rcases h2.2 x hx with h | ⟨d, hd, h⟩
    · rcases h1.2.2 x h with h | h
      · exact .inl h
      · exact .inr ⟨c, by simp, h⟩
    · exact .inr ⟨d, List.mem_cons_of_mem _ hd, h⟩

end lawful

/-! ## `TotalVecMap` -/
section maps
variable {W K V : Type}

/-- **C88 (index).** With any comparison `m[key]` returns the default or a value stored under a key that the comparison called equal, or the comparison panics. -/
theorem C88_map_index (cmp : Cmp W K K) (m : TotalVecMap K V) (key : K) (w : W) :
    (totalIndex cmp m key w).1 ≠ .fault ∧ ((totalIndex cmp m key w).1 = .panic → Panics cmp) ∧
    ∀ v, (totalIndex cmp m key w).1 = .ret v → v = m.default ∨ ∃ k, (k, v) ∈ m.map.entries ∧ SaysEqual cmp k key := by
  have h := C75_map_get cmp m.map key w
  rw [show (totalIndex cmp m key w).1 = ((get cmp m.map key w).1).map (·.getD m.default) from bind_pure_fst _ _ _]
  cases ho : (get cmp m.map key w).1 with
  | ret b =>
    refine ⟨(by intro h; cases h), (by intro h; cases h), fun v hv => ?_⟩
    injection hv with hv
    cases b with
    | none => exact .inl hv.symm
    | some x => subst hv; exact .inr (h.2.2 _ ho)
  | panic => exact ⟨(by intro h; cases h), fun _ => h.2.1 ho, (by intro v h; cases h)⟩
  | fault => exact absurd ho h.1

section values
variable {X R : Type} {Q : K × R → Prop}

theorem out_loopA {g : K × V → Call (Option (K × R))} (hg : ∀ x y, g x = .ret (some y) → Q y) (n : Nat) :
    ∀ s : SliceMS (K × V) (K × X) (K × R), (∀ e ∈ s.r, Q e) → ∀ e ∈ (s.loopA g n).1.r, Q e := by
  induction n with
  | zero => intro s h; exact h
  | succ n ih =>
    intro s h
    rw [SliceMS.loopA]
    cases hs : s.a with
    | nil => exact ih s h
    | cons x as =>
      simp only
      cases hx : g x with
      | panic => exact h
      | ret o =>
        cases o with
        | none => refine ih _ fun e he => h e (by simpa using he)
        | some y =>
          refine ih _ fun e he => ?_
          simp only [Option.toList, List.mem_append, List.mem_singleton] at he
          rcases he with he | rfl
          · exact h e he
          · exact hg x _ hx

theorem out_loopB {g : K × X → Call (Option (K × R))} (hg : ∀ x y, g x = .ret (some y) → Q y) (n : Nat) :
    ∀ s : SliceMS (K × V) (K × X) (K × R), (∀ e ∈ s.r, Q e) → ∀ e ∈ (s.loopB g n).1.r, Q e := by
  induction n with
  | zero => intro s h; exact h
  | succ n ih =>
    intro s h
    rw [SliceMS.loopB]
    cases hs : s.b with
    | nil => exact ih s h
    | cons x as =>
      simp only
      cases hx : g x with
      | panic => exact h
      | ret o =>
        cases o with
        | none => refine ih _ fun e he => h e (by simpa using he)
        | some y =>
          refine ih _ fun e he => ?_
          simp only [Option.toList, List.mem_append, List.mem_singleton] at he
          rcases he with he | rfl
          · exact h e he
          · exact hg x _ hx

theorem out_both {g : K × V → K × X → Call (Option (K × R))} (hg : ∀ x y z, g x y = .ret (some z) → Q z)
    (s : SliceMS (K × V) (K × X) (K × R)) (h : ∀ e ∈ s.r, Q e) : ∀ e ∈ (s.both g).1.r, Q e := by
  unfold SliceMS.both
  cases hs : s.a with
  | nil => exact h
  | cons x as =>
    simp only
    cases hb : s.b with
    | nil => exact h
    | cons y bs =>
      simp only
      cases hx : g x y with
      | panic => exact h
      | ret o =>
        cases o with
        | none => intro e he; exact h e (by simpa using he)
        | some z =>
          intro e he
          simp only [Option.toList, List.mem_append, List.mem_singleton] at he
          rcases he with he | rfl
          · exact h e he
          · exact hg x y _ hx

theorem withKey_val {k : K} {c : Call (Option R)} {y : K × R} (h : c.withKey k = .ret (some y)) : c = .ret (some y.2) := by
  cases c with
  | panic => cases h
  | ret o => cases o <;> cases h; rfl

theorem outer_out [Ord K] {f : OuterJoinArg K V X → Call (Option R)} (hf : ∀ arg k r, f arg = .ret (some r) → Q (k, r)) :
    Preserves (fun s : SliceMS (K × V) (K × X) (K × R) => ∀ e ∈ s.r, Q e) (outerJoinOp f) :=
  ⟨fun s h n => out_loopA (fun _ _ e => hf _ _ _ (withKey_val e)) n s h, fun s h n => out_loopB (fun _ _ e => hf _ _ _ (withKey_val e)) n s h,
   fun s h => out_both (fun _ _ _ e => hf _ _ _ (withKey_val e)) s h⟩

end values

variable [Ord K] [BEq V]

/-- **C88 (combine_ref).** With any comparison of the keys `combine_ref` (and with it `+`, `-`, `*`, `/`, `supremum` and `infimum`) returns, or the comparison or the function
panics; the default of the result is the combination of the defaults, the keys of the result are keys of the operands, each at most as
often as there, and every entry has a value that the function returned and that is not `==` to the default. -/
theorem C88_map_combine (cmp : Cmp W K K) (a b : TotalVecMap K V) (f : V → V → Call V) (w : W) :
    ((totalCombine cmp a b f w).1 = .panic ∧ (Panics cmp ∨ ∃ x y, f x y = .panic)) ∨
    ∃ r, (totalCombine cmp a b f w).1 = .ret r ∧ f a.default b.default = .ret r.default ∧
      Within (r.map.entries.map (·.1)) (a.map.entries.map (·.1) ++ b.map.entries.map (·.1)) ∧
      ∀ e ∈ r.map.entries, (e.2 == r.default) = false ∧ ∃ x y, f x y = .ret e.2 := by
  unfold totalCombine
  cases hd : f a.default b.default with
  | panic => exact .inl ⟨rfl, .inr ⟨_, _, hd⟩⟩
  | ret rd =>
    simp only
    rcases hq : mergeNew (fun (x y : K × V) w => cmp x.1 y.1 w) a.map.entries b.map.entries (outerJoinOp (combineArg a.default b.default rd f)) w with ⟨⟨r, o⟩, w'⟩
    obtain ⟨h1, h2⟩ := C75_map_joins (fun (x y : K × V) w => cmp x.1 y.1 w) (.outer (combineArg a.default b.default rd f)) a.map b.map w r o (congrArg Prod.fst hq)
    rcases h1 with rfl | ⟨rfl, hp⟩
    · refine .inr ⟨_, rfl, rfl, h2, ?_⟩
      obtain ⟨⟨evs, e1, -⟩, -⟩ := join_run (fun (x y : K × V) w => cmp x.1 y.1 w) (.outer (combineArg a.default b.default rd f)) a.map.entries b.map.entries w
      have hr : r = (mergeAll (fun (x y : K × V) w => cmp x.1 y.1 w) (NewJoin.outer (combineArg a.default b.default rd f)).op
          { a := a.map.entries, b := b.map.entries, r := [] } w).1.1.r := (congrArg (fun p => p.1.1) hq).symm
      have hv : ∀ arg (k : K) z, combineArg (K := K) a.default b.default rd f arg = .ret (some z) → (z == rd) = false ∧ ∃ x y, f x y = .ret z := by
        intro arg k z h
        have fin : ∀ x y, (match f x y with
            | .panic => (.panic : Call (Option V))
            | .ret r => .ret (if r != rd then some r else none)) = .ret (some z) → (z == rd) = false ∧ ∃ x y, f x y = .ret z := by
          intro x y h
          cases hf : f x y with
          | panic => rw [hf] at h; cases h
          | ret q =>
            rw [hf] at h
            simp only [Call.ret.injEq] at h
            split at h
            · rename_i hne
              cases h
              exact ⟨by simpa [bne] using hne, x, y, hf⟩
            · cases h
        cases arg with
        | left k v => exact fin _ _ h
        | right k v => exact fin _ _ h
        | both k v u => exact fin _ _ h
      rw [hr, e1]
      exact run_pres (outer_out (Q := fun e : K × V => (e.2 == rd) = false ∧ ∃ x y, f x y = .ret e.2) hv) evs
        { a := a.map.entries, b := b.map.entries, r := [] } (by simp)
    · refine .inl ⟨rfl, ?_⟩
      rcases hp with ⟨x, y, w, h⟩ | ⟨arg, h⟩
      · exact .inl ⟨x.1, y.1, w, h⟩
      · right
        unfold combineArg at h
        cases arg with
        | left k v => simp only at h; cases hf : f v b.default with | panic => exact ⟨_, _, hf⟩ | ret z => rw [hf] at h; cases h
        | right k v => simp only at h; cases hf : f a.default v with | panic => exact ⟨_, _, hf⟩ | ret z => rw [hf] at h; cases h
        | both k v u => simp only at h; cases hf : f v u with | panic => exact ⟨_, _, hf⟩ | ret z => rw [hf] at h; cases h

/-- **C88 (panicking order, maps).** If the comparison of the keys answers like the order whenever it answers, then a lookup or a combination that returns gives what it
gives with a comparison that never panics (C35). -/
theorem C88_panicking_order_maps [TransOrd K] (cmp : Cmp W K K) (hcmp : Answers cmp compare) (a b : TotalVecMap K V) (ha : AscendingBy Prod.fst a.map.entries)
    (hb : AscendingBy Prod.fst b.map.entries) (f : V → V → Call V) (key : K) (w : W) :
    (∀ v, (totalIndex cmp a key w).1 = .ret v → v = a.index key) ∧
    (∀ r, (totalCombine cmp a b f w).1 = .ret r → a.combineRef b f = .ret r) := by
  refine ⟨fun v h => ?_, fun r h => ?_⟩
  · rw [show (totalIndex cmp a key w).1 = ((get cmp a.map key w).1).map (·.getD a.default) from bind_pure_fst _ _ _] at h
    cases ho : (get cmp a.map key w).1 with
    | ret q =>
      rw [ho] at h
      cases h
      rw [(C75_panicking_order_entries cmp hcmp a.map key a.default id w).1 q ho]
      rfl
    | panic => rw [ho] at h; cases h
    | fault => rw [ho] at h; cases h
  · unfold totalCombine at h
    unfold TotalVecMap.combineRef
    cases hd : f a.default b.default with
    | panic => rw [hd] at h; cases h
    | ret rd =>
      rw [hd] at h
      simp only at h ⊢
      have hl := lawful_result (ka := Prod.fst) (kb := Prod.fst) (W := W) (outerJoinOp_impl (combineArg a.default b.default rd f)) (fun _ _ => rfl)
        (cmp := fun (x y : K × V) w => cmp x.1 y.1 w) (fun x y w o ho => hcmp x.1 y.1 w o ho) { a := a.map.entries, b := b.map.entries, r := [] } trivial ha hb w
      rcases hq : mergeAll (fun (x y : K × V) w => cmp x.1 y.1 w) (outerJoinOp (combineArg a.default b.default rd f))
        { a := a.map.entries, b := b.map.entries, r := [] } w with ⟨⟨s, o⟩, w'⟩
      simp only [mergeNew, hq] at h
      rw [hq] at hl
      cases o with
      | panic => cases h
      | fault => cases h
      | ret d =>
        cases h
        obtain ⟨e1, e2⟩ := hl (by simp)
        have e : a.map.outerJoin b.map (combineArg a.default b.default rd f) =
            (⟨(Verif.mergeAll (outerJoinOp (combineArg a.default b.default rd f)) { a := a.map.entries, b := b.map.entries, r := [] }).1.r⟩,
             (Verif.mergeAll (outerJoinOp (combineArg a.default b.default rd f)) { a := a.map.entries, b := b.map.entries, r := [] }).2) := rfl
        show (match (a.map.outerJoin b.map (combineArg a.default b.default rd f)).2 with
          | .panic => (.panic : Call (TotalVecMap K V))
          | _ => .ret ⟨(a.map.outerJoin b.map (combineArg a.default b.default rd f)).1, rd⟩) = _
        rw [e]
        simp only at e1 e2 ⊢
        rw [← e1]
        cases hf : (Verif.mergeAll (outerJoinOp (combineArg a.default b.default rd f)) { a := a.map.entries, b := b.map.entries, r := [] }).2 with
        | panic => rw [hf] at e2; cases e2
        | cont => rfl
        | stop => rfl

end maps
/-! ### Concrete comparisons -/
section examples

deriving instance DecidableEq for VecSet, TotalVecSet, VecMap, TotalVecMap

/-- a clone that never panics -/
def plainClone : Nat → Nat → Call Nat × Nat := fun x n => (.ret x, n)
example : ∀ x w y, (plainClone x w).1 = .ret y → y = x := fun _ _ _ h => by cases h; rfl

/-- **C88 (finding).** The set of all numbers but 1 and 4, intersected in place with {2, 3, 5}. The comparison panics in the middle and the panic is caught.
What is left contains 4, which neither operand contains, and lacks 2, which both contain. -/
theorem C88_caught_panic_inverts :
    ∃ (a b s : TotalVecSet Nat), BuiltTotal a ∧ BuiltTotal b ∧ (totalAndAssign fuse (fun _ => 0) a b 3).1 = (s, .panic) ∧
      a.contains 4 = false ∧ b.contains 4 = false ∧ s.contains 4 = true ∧
      a.contains 2 = true ∧ b.contains 2 = true ∧ s.contains 2 = false := by
  refine ⟨⟨⟨[1, 4]⟩, true⟩, ⟨⟨[2, 3, 5]⟩, false⟩, ⟨⟨[2, 3]⟩, true⟩, ?_, ?_, ?_, ?_, ?_, ?_, ?_, ?_, ?_⟩
  · exact .not (.fromVecSet (.fromBTreeSet _ (by unfold Ascending; decide)))
  · exact .fromVecSet (.fromBTreeSet _ (by unfold Ascending; decide))
  all_goals decide +kernel

/-- with a longer fuse the operator returns and has computed {2, 3, 5} -/
example : (totalAndAssign fuse (fun _ => 0) ⟨⟨[1, 4]⟩, true⟩ ⟨⟨[2, 3, 5]⟩, false⟩ 9).1 = (⟨⟨[2, 3, 5]⟩, false⟩, .ret ()) := by decide +kernel
/-- a union of two sets without the flag is cut off, an intersection of two sets with it has lost holes -/
example : (totalOrAssign fuse (fun _ => 0) ⟨⟨[1, 3, 5, 7]⟩, false⟩ ⟨⟨[2, 3, 6]⟩, false⟩ 6).1 = (⟨⟨[1, 2, 3, 5]⟩, false⟩, .panic) ∧
    (totalAndAssign fuse (fun _ => 0) ⟨⟨[1, 3, 5, 7]⟩, true⟩ ⟨⟨[2, 3, 6]⟩, true⟩ 6).1 = (⟨⟨[1, 2, 3, 5]⟩, true⟩, .panic) := by
  constructor <;> decide +kernel
/-- the random comparison: the operators still return, with the right flag -/
example : (totalOr random ⟨⟨[1, 2, 3]⟩, false⟩ ⟨⟨[2, 3, 4]⟩, true⟩ 0).1 = .ret ⟨⟨[2, 4]⟩, true⟩ := by decide +kernel
/-- a history with a panic that is caught in the middle -/
example : (runTotal fuse plainClone (fun _ => 0) [.insert 5, .assign .and ⟨⟨[2, 3, 5]⟩, false⟩, .remove 7] ⟨⟨[1, 4, 5]⟩, true⟩ 6).1 =
    ⟨⟨[2, 3]⟩, true⟩ := by decide +kernel
/-- maps -/
example : (totalCombine fuse ⟨⟨[(1, 10), (3, 30)]⟩, 0⟩ ⟨⟨[(3, 5), (4, 0)]⟩, 7⟩ (fun x y => .ret (x + y)) 9).1 =
    .ret ⟨⟨[(1, 17), (3, 35), (4, 0)]⟩, 7⟩ ∧
    (totalCombine fuse ⟨⟨[(1, 10), (3, 30)]⟩, 0⟩ ⟨⟨[(3, 5), (4, 0)]⟩, 7⟩ (fun x y => .ret (x + y)) 1).1 = .panic ∧
    (totalIndex fuse ⟨⟨[(1, 10), (3, 30)]⟩, 0⟩ 3 9).1 = .ret 30 := by
  refine ⟨?_, ?_, ?_⟩ <;> decide +kernel

end examples
end Hostile
end Verif
