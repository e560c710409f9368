import Verif.Lemmas.LazyReads
/-! Counting the calls of `children()`: the relations and the intersection. -/
namespace Verif.Tree
open Std

section
variable {C : Counter} {K V W : Type} [Ord K] [DecidableEq K]

theorem headsCmp_quiet (a : Tree K V) (b : Tree K W) (ha : a.pre ≠ []) (hb : b.pre ≠ []) : AtMost C (headsCmpM quietCmp a b) (headCmp a b) 0 := by
  unfold headsCmpM headCmp
  cases hp : a.pre with
  | nil => exact absurd hp ha
  | cons x p =>
    cases hq : b.pre with
    | nil => exact absurd hq hb
    | cons y q => exact AtMost.pure _ _

theorem boolOp_marks {pa : Tree K V → Prop} {pb : Tree K W → Prop} {ca : Tree K V → Nat} {cb : Tree K W → Nat} {takeA : Bool}
    {recM : Tree K V → Tree K W → Noted (Call Bool)} {rec : Tree K V → Tree K W → Call Bool} (ha : ∀ x, pa x → x.pre ≠ []) (hb : ∀ y, pb y → y.pre ≠ [])
    (H : ∀ x y, pa x → pb y → AtMost C (recM x y) (rec x y) (ca x + cb y)) :
    Marks C (boolOpM quietCmp takeA recM) (boolOp takeA rec) pa pb ca cb where
  fromA := rfl
  fromB := rfl
  cmp x y hx hy := headsCmp_quiet x y (ha x hx) (hb y hy)
  collision s x as y bs hs hs' hx hy := by
    have h1 := H x y hx hy
    obtain ⟨a, b, r⟩ := s
    obtain rfl : a = x :: as := hs
    obtain rfl : b = y :: bs := hs'
    exact AtMost.bind h1 (f := fun c => match c with
      | .panic => pure (({ a := x :: as, b := y :: bs, r := r } : BoolMS (Tree K V) (Tree K W)), Flow.panic)
      | .ret take => pure (andThen (BoolMS.mut.advanceA { a := x :: as, b := y :: bs, r := r } 1 take) fun s => BoolMS.mut.advanceB s 1 false))
      (r' := match rec x y with
        | .panic => ({ a := x :: as, b := y :: bs, r := r }, Flow.panic)
        | .ret take => andThen (BoolMS.mut.advanceA { a := x :: as, b := y :: bs, r := r } 1 take) fun s => BoolMS.mut.advanceB s 1 false) (k' := 0)
      (by cases rec x y <;> exact AtMost.pure _ _)
  stepA s n hn hc := by
    have e : (boolOp takeA rec).fromA s n = BoolMS.mut.advanceA s n takeA := rfl
    rw [e] at hc ⊢
    have hl : ¬ s.a.length < n := Nat.not_lt.2 hn
    cases takeA with
    | true => cases hc
    | false =>
      simp only [BoolMS.mut, Bool.false_eq_true, if_false, if_neg hl]
      exact ⟨rfl, rfl⟩
  stepB s n hn hc := by
    have e : (boolOp takeA rec).fromB s n = BoolMS.mut.advanceB s n false := rfl
    rw [e] at hc ⊢
    have hl : ¬ s.b.length < n := Nat.not_lt.2 hn
    simp only [BoolMS.mut, Bool.false_eq_true, if_false, if_neg hl]
    exact ⟨rfl, rfl⟩
  stepC s x as y bs hs hs' hc := by
    obtain ⟨a, b, r⟩ := s
    obtain rfl : a = x :: as := hs
    obtain rfl : b = y :: bs := hs'
    simp only [boolOp] at hc ⊢
    cases hr : rec x y with
    | panic => rw [hr] at hc; cases hc
    | ret take =>
      rw [hr] at hc
      cases take with
      | true => cases hc
      | false => exact ⟨rfl, rfl⟩

theorem mergeBool_atMost {pa : Tree K V → Prop} {pb : Tree K W → Prop} {ca : Tree K V → Nat} {cb : Tree K W → Nat} {takeA : Bool}
    {recM : Tree K V → Tree K W → Noted (Call Bool)} {rec : Tree K V → Tree K W → Call Bool} (ha : ∀ x, pa x → x.pre ≠ []) (hb : ∀ y, pb y → y.pre ≠ [])
    (H : ∀ x y, pa x → pb y → AtMost C (recM x y) (rec x y) (ca x + cb y)) {as : List (Tree K V)} {bs : List (Tree K W)} (h1 : ∀ x ∈ as, pa x) (h2 : ∀ y ∈ bs, pb y) :
    AtMost C (mergeBoolM (boolOpM quietCmp takeA recM) as bs) (mergeBool (boolOp takeA rec) as bs) (sumN ca as + sumN cb bs) := by
  unfold mergeBoolM mergeBool
  cases hh : headed as && headed bs with
  | false => exact AtMost.pure _ _
  | true =>
    have g := (drive_atMost (boolOp_marks (takeA := takeA) ha hb H) as.length bs.length ({ a := as, b := bs, r := false } : BoolMS (Tree K V) (Tree K W)) as [] bs []
      (by simp [MergeState.aSlice]) (by simp [MergeState.bSlice]) rfl rfl h1 h2).1
    exact AtMost.bind g (f := fun r => match r.2 with
        | .panic => pure Call.panic
        | _ => pure (Call.ret r.1.r)) (r' := match (mergeAll (boolOp takeA rec) { a := as, b := bs, r := false }).2 with
        | .panic => .panic
        | _ => .ret (mergeAll (boolOp takeA rec) { a := as, b := bs, r := false }).1.r) (k' := 0) (by
          show AtMost C (match (mergeAll (boolOp takeA rec) { a := as, b := bs, r := false }).2 with
            | .panic => pure Call.panic
            | _ => pure (Call.ret (mergeAll (boolOp takeA rec) { a := as, b := bs, r := false }).1.r)) _ _
          cases (mergeAll (boolOp takeA rec) { a := as, b := bs, r := false }).2 <;> exact AtMost.pure _ _)

/-! ### Scanning children -/

theorem scan_atMost (isAny : Bool) {pM : Tree K V → Noted (Call Bool)} {p : Tree K V → Call Bool} {h : K} {w : Tree K V → Nat} {E : Nat} :
    ∀ (ks : List (Tree K V)), ks.Pairwise (fun c d => c.pre.head? ≠ d.pre.head?) →
    (∀ c ∈ ks, c.pre.head? ≠ some h → AtMost C (pM c) (p c) 0) → (∀ c ∈ ks, c.pre.head? = some h → AtMost C (pM c) (p c) (w c + E)) →
    AtMost C (if isAny then anyM pM ks else allM pM ks) (if isAny then anyC p ks else allC p ks) (sumN w ks + E) ∧
      ((∀ c ∈ ks, c.pre.head? ≠ some h) → AtMost C (if isAny then anyM pM ks else allM pM ks) (if isAny then anyC p ks else allC p ks) 0)
  | [], _, _, _ => ⟨by cases isAny <;> exact AtMost.pure _ _, fun _ => by cases isAny <;> exact AtMost.pure _ _⟩
  | c :: ks, h2, h3, h4 => by
    obtain ⟨hu, hb⟩ := scan_atMost isAny (pM := pM) (p := p) (h := h) (w := w) (E := E) ks
      (List.pairwise_cons.1 h2).2 (fun d hd => h3 d (List.mem_cons_of_mem _ hd)) (fun d hd => h4 d (List.mem_cons_of_mem _ hd))
    have key : ∀ k k', AtMost C (pM c) (p c) k → AtMost C (if isAny then anyM pM ks else allM pM ks) (if isAny then anyC p ks else allC p ks) k' →
        AtMost C (if isAny then anyM pM (c :: ks) else allM pM (c :: ks)) (if isAny then anyC p (c :: ks) else allC p (c :: ks)) (k + k') := by
      intro k k' hs hu
      cases isAny with
      | true =>
        simp only [↓reduceIte] at hu ⊢
        rw [anyM, anyC]
        refine AtMost.bind hs ?_
        cases p c with
        | panic => exact AtMost.pure _ _
        | ret b =>
          cases b with
          | true => exact AtMost.pure _ _
          | false => exact hu
      | false =>
        simp only [Bool.false_eq_true, ↓reduceIte] at hu ⊢
        rw [allM, allC]
        refine AtMost.bind hs ?_
        cases p c with
        | panic => exact AtMost.pure _ _
        | ret b =>
          cases b with
          | true => exact hu
          | false => exact AtMost.pure _ _
    by_cases hh : c.pre.head? = some h
    · have b0 := hb (fun d hd => by rw [← hh]; exact fun e => (List.pairwise_cons.1 h2).1 d hd e.symm)
      exact ⟨(key _ _ (h4 c List.mem_cons_self hh) b0).mono (by rw [sumN]; omega), fun g => absurd hh (g c List.mem_cons_self)⟩
    · have s1 := h3 c List.mem_cons_self hh
      exact ⟨(key _ _ s1 hu).mono (by rw [sumN]; omega), fun g => key 0 0 s1 (hb fun d hd => g d (List.mem_cons_of_mem _ hd))⟩

/-! ### Both relations -/

/-- a counter for one of the sides: a call on the left costs `q` and one on the right `p`; the bound counts components of the left tree `p` times and those of the right `q` times -/
structure OneSide (C : Counter) (p q : Nat) : Prop where
  l : C.of ⟨1, 0⟩ = q
  r : C.of ⟨0, 1⟩ = p
  one : (p = 0 ∧ q = 1) ∨ (p = 1 ∧ q = 0)

theorem leftSide : OneSide leftC 0 1 := ⟨rfl, rfl, .inl ⟨rfl, rfl⟩⟩
theorem rightSide : OneSide rightC 1 0 := ⟨rfl, rfl, .inr ⟨rfl, rfl⟩⟩

/-- what remains of a tree -/
def rest (t : Tree K V) (p : List K) : Nat := p.length + components.componentsL t.kids

/-- the bound of a call with the remaining prefixes `lp` and `rp` -/
def Within1 (C : Counter) (p q : Nat) (l : Tree K V) (lp : List K) (r : Tree K W) (rp : List K) (c : Noted (Call Bool)) (res : Call Bool) : Prop :=
  AtMost C c res (p * rest l lp + q * rest r rp + 1) ∧ (lp ≠ [] → rp ≠ [] → AtMost C c res (p * rest l lp + q * rest r rp)) ∧
  (∀ x xs y ys, lp = x :: xs → rp = y :: ys → x ≠ y → AtMost C c res 0)

theorem sumN_mul {α : Type} (k : Nat) (f : α → Nat) : ∀ ks : List α, sumN (fun x => k * f x) ks = k * sumN f ks
  | [] => rfl
  | x :: xs => by rw [sumN, sumN, sumN_mul k f xs, Nat.mul_add]

theorem valid_kids {t : Tree K V} (h : Valid t) : ∀ c ∈ t.kids, c.pre ≠ [] ∧ Valid c := by
  cases h with
  | mk h1 h2 h3 => exact fun c hc => ⟨h1 c hc, h3 c hc⟩

variable [TransOrd K] [LawfulEqOrd K]

theorem rel_atMost {p q : Nat} (hC : OneSide C p q) {goM : Tree K V → List K → Tree K W → List K → Noted (Call Bool)}
    {go : Tree K V → List K → Tree K W → List K → Call Bool} (isAny : Bool)
    (H : ∀ l lp r rp, Valid l → Valid r → Within1 C p q l lp r rp (goM l lp r rp) (go l lp r rp))
    {l : Tree K V} {lp : List K} {r : Tree K W} {rp : List K} (hl : Valid l) (hr : Valid r)
    {c1M c2M : Noted (Call Bool)} {c1 c2 : Call Bool}
    (h1 : AtMost C c1M c1 (1 + p * components.componentsL l.kids + q * components.componentsL r.kids))
    (h2 : (c2M = (do
        seeL 1
        if isAny then anyM (fun lc => goM lc lc.pre r (rp.drop (commonPrefix lp rp))) l.kids else
        allM (fun lc => goM lc lc.pre r (rp.drop (commonPrefix lp rp))) l.kids) ∧
      c2 = (if isAny then anyC (fun lc => go lc lc.pre r (rp.drop (commonPrefix lp rp))) l.kids else
        allC (fun lc => go lc lc.pre r (rp.drop (commonPrefix lp rp))) l.kids)) ∨ (c2M = pure (.ret false) ∧ c2 = .ret false)) :
    Within1 C p q l lp r rp (if commonPrefix lp rp = lp.length ∧ commonPrefix lp rp = rp.length then c1M
        else if commonPrefix lp rp = lp.length then c2M
        else if commonPrefix lp rp = rp.length then do
          seeR 1
          anyM (fun rc => goM l (lp.drop (commonPrefix lp rp)) rc rc.pre) r.kids
        else pure (.ret false))
      (if commonPrefix lp rp = lp.length ∧ commonPrefix lp rp = rp.length then c1
        else if commonPrefix lp rp = lp.length then c2
        else if commonPrefix lp rp = rp.length then anyC (fun rc => go l (lp.drop (commonPrefix lp rp)) rc rc.pre) r.kids
        else .ret false) := by
  have n1 := commonPrefix_le_left lp rp
  have n2 := commonPrefix_le_right lp rp
  have diff : ∀ x xs y ys, lp = x :: xs → rp = y :: ys → x ≠ y → commonPrefix lp rp = 0 ∧ 0 < lp.length ∧ 0 < rp.length := by
    rintro x xs y ys rfl rfl hxy
    exact ⟨by rw [commonPrefix, if_neg hxy], by simp, by simp⟩
  have same : lp ≠ [] → rp ≠ [] → (∀ x xs y ys, lp = x :: xs → rp = y :: ys → x = y) → 1 ≤ commonPrefix lp rp := by
    intro g1 g2 g3
    obtain ⟨x, xs, rfl⟩ := List.exists_cons_of_ne_nil g1
    obtain ⟨y, ys, rfl⟩ := List.exists_cons_of_ne_nil g2
    rw [commonPrefix, if_pos (g3 x xs y ys rfl rfl)]
    omega
  generalize hn : commonPrefix lp rp = n at *
  have hd1 : n < lp.length → ∃ h t, lp.drop n = h :: t := fun h => ⟨lp[n], lp.drop (n + 1), List.drop_eq_getElem_cons h⟩
  have hd2 : n < rp.length → ∃ h t, rp.drop n = h :: t := fun h => ⟨rp[n], rp.drop (n + 1), List.drop_eq_getElem_cons h⟩
  -- a bound, by what is left after the common prefix, that is 0 if the paths part
  suffices h : AtMost C (if n = lp.length ∧ n = rp.length then c1M
        else if n = lp.length then c2M
        else if n = rp.length then do
          seeR 1
          anyM (fun rc => goM l (lp.drop n) rc rc.pre) r.kids
        else pure (.ret false))
      (if n = lp.length ∧ n = rp.length then c1
        else if n = lp.length then c2
        else if n = rp.length then anyC (fun rc => go l (lp.drop n) rc rc.pre) r.kids
        else .ret false) (if n < lp.length ∧ n < rp.length then 0 else 1 + p * rest l (lp.drop n) + q * rest r (rp.drop n)) by
    have bound : ∀ m, (1 ≤ n ∨ 1 ≤ m) →
        (if n < lp.length ∧ n < rp.length then 0 else 1 + p * rest l (lp.drop n) + q * rest r (rp.drop n)) ≤ p * rest l lp + q * rest r rp + m := by
      intro m hm
      split
      · exact Nat.zero_le _
      · unfold rest
        simp only [List.length_drop]
        rcases hC.one with ⟨rfl, rfl⟩ | ⟨rfl, rfl⟩ <;> omega
    refine ⟨h.mono (bound 1 (.inr (Nat.le_refl _))), fun g1 g2 => ?_, fun x xs y ys e1 e2 hxy => ?_⟩
    · by_cases hs : 1 ≤ n
      · exact h.mono (bound 0 (.inl hs))
      · have g3 := List.length_pos_iff.2 g1
        have g4 := List.length_pos_iff.2 g2
        exact h.mono (by rw [if_pos ⟨by omega, by omega⟩]; exact Nat.zero_le _)
    · obtain ⟨d1, d2, d3⟩ := diff x xs y ys e1 e2 hxy
      exact h.mono (by rw [if_pos ⟨by omega, by omega⟩]; exact Nat.le_refl _)
  by_cases h1' : n = lp.length <;> by_cases h2' : n = rp.length
  · simp only [if_pos (And.intro h1' h2')]
    refine h1.mono ?_
    rw [if_neg (by omega)]
    unfold rest
    simp only [List.length_drop]
    rcases hC.one with ⟨rfl, rfl⟩ | ⟨rfl, rfl⟩ <;> omega
  · simp only [h2', and_false, if_false, if_pos h1']
    rcases h2 with ⟨h2, rfl⟩ | ⟨h2, rfl⟩ <;> rw [h2]
    · obtain ⟨h, t, ht⟩ := hd2 (by omega)
      have g := (scan_atMost (C := C) isAny (pM := fun lc => goM lc lc.pre r (rp.drop n)) (p := fun lc => go lc lc.pre r (rp.drop n)) (h := h)
        (w := fun c => p * components c) (E := q * rest r (rp.drop n)) l.kids hl.heads
        (fun c hc hne => by
          obtain ⟨x, xs, hp⟩ := List.exists_cons_of_ne_nil (valid_kids hl c hc).1
          rw [hp] at hne
          exact (H c c.pre r (rp.drop n) (valid_kids hl c hc).2 hr).2.2 x xs h t hp ht (fun e => hne (by rw [e]; rfl)))
        (fun c hc _ => by
          have := (H c c.pre r (rp.drop n) (valid_kids hl c hc).2 hr).2.1 (valid_kids hl c hc).1 (by rw [ht]; exact List.cons_ne_nil _ _)
          rw [rest, ← components_def] at this
          exact this)).1
      rw [sumN_mul, sumN_components] at g
      refine AtMost.mono (AtMost.bind (c := seeL 1) (r := ()) (k := q) ⟨rfl, Nat.le_of_eq hC.l⟩ g) ?_
      rw [if_neg (by omega)]
      unfold rest
      simp only [List.length_drop]
      rcases hC.one with ⟨rfl, rfl⟩ | ⟨rfl, rfl⟩ <;> omega
    · exact AtMost.pure _ _
  · simp only [h1', false_and, if_false, if_pos h2']
    obtain ⟨h, t, ht⟩ := hd1 (by omega)
    have g := (scan_atMost (C := C) true (pM := fun rc => goM l (lp.drop n) rc rc.pre) (p := fun rc => go l (lp.drop n) rc rc.pre) (h := h)
      (w := fun c => q * components c) (E := p * rest l (lp.drop n)) r.kids hr.heads
      (fun c hc hne => by
        obtain ⟨x, xs, hp⟩ := List.exists_cons_of_ne_nil (valid_kids hr c hc).1
        rw [hp] at hne
        exact (H l (lp.drop n) c c.pre hl (valid_kids hr c hc).2).2.2 h t x xs ht hp (fun e => hne (by rw [e]; rfl)))
      (fun c hc _ => by
        have := (H l (lp.drop n) c c.pre hl (valid_kids hr c hc).2).2.1 (by rw [ht]; exact List.cons_ne_nil _ _) (valid_kids hr c hc).1
        refine this.mono ?_
        rw [rest, rest, ← components_def]
        exact Nat.le_of_eq (Nat.add_comm ..))).1
    rw [sumN_mul, sumN_components] at g
    simp only [↓reduceIte] at g
    refine AtMost.mono (AtMost.bind (c := seeR 1) (r := ()) (k := p) ⟨rfl, Nat.le_of_eq hC.r⟩ g) ?_
    rw [if_neg (by omega)]
    unfold rest
    simp only [List.length_drop]
    rcases hC.one with ⟨rfl, rfl⟩ | ⟨rfl, rfl⟩ <;> omega
  · simp only [h1', h2', false_and, if_false]
    exact AtMost.pure _ _

theorem merge_atMost {p q : Nat} (hC : OneSide C p q) {takeA : Bool} {recM : Tree K V → Tree K W → Noted (Call Bool)} {rec : Tree K V → Tree K W → Call Bool}
    (H : ∀ x y, Valid x → Valid y → Within1 C p q x x.pre y y.pre (recM x y) (rec x y)) {l : Tree K V} {r : Tree K W} (hl : Valid l) (hr : Valid r) :
    AtMost C (do
        seeL 1
        seeR 1
        mergeBoolM (boolOpM quietCmp takeA recM) l.kids r.kids)
      (mergeBool (boolOp takeA rec) l.kids r.kids) (1 + p * components.componentsL l.kids + q * components.componentsL r.kids) := by
  have g := mergeBool_atMost (C := C) (takeA := takeA) (recM := recM) (rec := rec) (pa := fun x => x.pre ≠ [] ∧ Valid x) (pb := fun y => y.pre ≠ [] ∧ Valid y)
    (ca := fun x => p * components x) (cb := fun y => q * components y) (fun _ h => h.1) (fun _ h => h.1)
    (fun x y hx hy => by
      have := (H x y hx.2 hy.2).2.1 hx.1 hy.1
      rw [rest, rest, ← components_def, ← components_def] at this
      exact this) (valid_kids hl) (valid_kids hr)
  rw [sumN_mul, sumN_mul, sumN_components, sumN_components] at g
  refine AtMost.mono (AtMost.bind (c := seeL 1) (r := ()) (k := q) ⟨rfl, Nat.le_of_eq hC.l⟩ (AtMost.bind (c := seeR 1) (r := ()) (k := p) ⟨rfl, Nat.le_of_eq hC.r⟩ g)) ?_
  rcases hC.one with ⟨rfl, rfl⟩ | ⟨rfl, rfl⟩ <;> omega

theorem isSubsetGoL_atMost {p q : Nat} (hC : OneSide C p q) : ∀ fuel (l : Tree K V) (lp : List K) (r : Tree K W) (rp : List K), Valid l → Valid r →
    Within1 C p q l lp r rp (isSubsetGoL fuel l lp r rp) (isSubsetGo fuel l lp r rp)
  | 0, _, _, _, _, _, _ => ⟨AtMost.pure _ _, fun _ _ => AtMost.pure _ _, fun _ _ _ _ _ _ _ => AtMost.pure _ _⟩
  | fuel + 1, l, lp, r, rp, hl, hr => by
    rw [isSubsetGoL, isSubsetGo]
    refine rel_atMost hC false (isSubsetGoL_atMost hC fuel) hl hr ?_ ?_
    · unfold andC
      split
      · exact AtMost.map (merge_atMost hC (takeA := true) (recM := fun x y => do let c ← isSubsetGoL fuel x x.pre y y.pre; pure (notC c))
          (rec := fun x y => notC (isSubsetGo fuel x x.pre y y.pre))
          (fun x y hx hy => by
            obtain ⟨a1, a2, a3⟩ := isSubsetGoL_atMost hC fuel x x.pre y y.pre hx hy
            exact ⟨a1.map notC, fun h h' => (a2 h h').map notC, fun _ _ _ _ h h' h'' => (a3 _ _ _ _ h h' h'').map notC⟩) hl hr) notC
      · exact AtMost.pure _ _
    · unfold andC
      cases l.val.isNone with
      | true => exact .inl ⟨rfl, rfl⟩
      | false => exact .inr ⟨rfl, rfl⟩

theorem intersectsGoL_atMost {p q : Nat} (hC : OneSide C p q) : ∀ fuel (l : Tree K V) (lp : List K) (r : Tree K W) (rp : List K), Valid l → Valid r →
    Within1 C p q l lp r rp (intersectsGoL fuel l lp r rp) (intersectsGo fuel l lp r rp)
  | 0, _, _, _, _, _, _ => ⟨AtMost.pure _ _, fun _ _ => AtMost.pure _ _, fun _ _ _ _ _ _ _ => AtMost.pure _ _⟩
  | fuel + 1, l, lp, r, rp, hl, hr => by
    rw [intersectsGoL, intersectsGo]
    refine rel_atMost hC true (intersectsGoL_atMost hC fuel) hl hr ?_ (.inl ⟨rfl, rfl⟩)
    unfold orC
    split
    · exact AtMost.pure _ _
    · exact merge_atMost hC (takeA := false) (recM := fun x y => intersectsGoL fuel x x.pre y y.pre) (rec := fun x y => intersectsGo fuel x x.pre y y.pre)
        (fun x y hx hy => intersectsGoL_atMost hC fuel x x.pre y y.pre hx hy) hl hr
end

/-! ### Intersection -/

section
variable {C : Counter} {K V W : Type} [Ord K] [DecidableEq K]

theorem pureOp_marks {pa : Tree K V → Prop} {pb : Tree K W → Prop} {ca : Tree K V → Nat} {cb : Tree K W → Nat} {takeA takeB : Bool}
    {convA : Tree K V → Call (Tree K V)} {convB : Tree K W → Call (Tree K V)}
    {recM : Tree K V → Tree K W → Noted (Call (Tree K V))} {rec : Tree K V → Tree K W → Call (Tree K V)} (ha : ∀ x, pa x → x.pre ≠ []) (hb : ∀ y, pb y → y.pre ≠ [])
    (H : ∀ x y, pa x → pb y → AtMost C (recM x y) (rec x y) (ca x + cb y)) :
    Marks C (pureOpM quietCmp takeA takeB convA convB recM) (pureOp takeA takeB convA convB rec) pa pb ca cb where
  fromA := rfl
  fromB := rfl
  cmp x y hx hy := headsCmp_quiet x y (ha x hx) (hb y hy)
  collision s x as y bs hs hs' hx hy := by
    have h1 := H x y hx hy
    obtain ⟨a, b, r⟩ := s
    obtain rfl : a = x :: as := hs
    obtain rfl : b = y :: bs := hs'
    exact AtMost.bind h1 (f := fun c => match c with
      | .panic => pure (({ a := as, b := bs, r := r } : SliceMS (Tree K V) (Tree K W) (Tree K V)), Flow.panic)
      | .ret t => pure ({ a := as, b := bs, r := if t.isEmpty then r else r ++ [t] }, Flow.cont))
      (r' := match rec x y with
        | .panic => ({ a := as, b := bs, r := r }, Flow.panic)
        | .ret t => ({ a := as, b := bs, r := if t.isEmpty then r else r ++ [t] }, Flow.cont)) (k' := 0) (by cases rec x y <;> exact AtMost.pure _ _)
  stepA s n hn hc := by
    have e : (pureOp takeA takeB convA convB rec).fromA s n = (SliceMS.mut convA convB).advanceA s n takeA := rfl
    have hl : ¬ s.a.length < n := Nat.not_lt.2 hn
    rw [e]
    simp only [SliceMS.mut, if_neg hl]
    cases takeA <;> exact ⟨rfl, rfl⟩
  stepB s n hn hc := by
    have e : (pureOp takeA takeB convA convB rec).fromB s n = (SliceMS.mut convA convB).advanceB s n takeB := rfl
    have hl : ¬ s.b.length < n := Nat.not_lt.2 hn
    rw [e]
    simp only [SliceMS.mut, if_neg hl]
    cases takeB <;> exact ⟨rfl, rfl⟩
  stepC s x as y bs hs hs' hc := by
    obtain ⟨a, b, r⟩ := s
    obtain rfl : a = x :: as := hs
    obtain rfl : b = y :: bs := hs'
    simp only [pureOp] at hc ⊢
    cases hr : rec x y with
    | panic => rw [hr] at hc; cases hc
    | ret t => exact ⟨rfl, rfl⟩

theorem headed_pre : ∀ {ks : List (Tree K V)}, headed ks = true → ∀ c ∈ ks, c.pre ≠ [] := fun {ks} h c hc => by
  have := (List.all_eq_true.1 h) c hc
  intro e
  rw [e] at this
  cases this

theorem mergeChildren_atMost {ca : Tree K V → Nat} {cb : Tree K W → Nat} {takeA takeB : Bool} {convA : Tree K V → Call (Tree K V)} {convB : Tree K W → Call (Tree K V)}
    {recM : Tree K V → Tree K W → Noted (Call (Tree K V))} {rec : Tree K V → Tree K W → Call (Tree K V)}
    (H : ∀ x y, AtMost C (recM x y) (rec x y) (ca x + cb y)) (as : List (Tree K V)) (bs : List (Tree K W)) :
    AtMost C (mergeChildrenM (pureOpM quietCmp takeA takeB convA convB recM) as bs) (mergeChildren (pureOp takeA takeB convA convB rec) as bs) (sumN ca as + sumN cb bs) := by
  unfold mergeChildrenM mergeChildren
  cases hh : headed as && headed bs with
  | false => exact AtMost.pure _ _
  | true =>
    rw [Bool.and_eq_true] at hh
    have g := (drive_atMost (pureOp_marks (takeA := takeA) (takeB := takeB) (convA := convA) (convB := convB) (pa := fun x : Tree K V => x.pre ≠ [])
      (pb := fun y : Tree K W => y.pre ≠ []) (fun _ h => h) (fun _ h => h) (fun x y _ _ => H x y))
      as.length bs.length ({ a := as, b := bs, r := [] } : SliceMS (Tree K V) (Tree K W) (Tree K V)) as [] bs []
      (by simp [MergeState.aSlice]) (by simp [MergeState.bSlice]) rfl rfl (headed_pre hh.1) (headed_pre hh.2)).1
    exact AtMost.bind g (f := fun r => match r.2 with
        | .panic => pure Call.panic
        | _ => pure (Call.ret r.1.r)) (r' := match (mergeAll (pureOp takeA takeB convA convB rec) { a := as, b := bs, r := [] }).2 with
        | .panic => .panic
        | _ => .ret (mergeAll (pureOp takeA takeB convA convB rec) { a := as, b := bs, r := [] }).1.r) (k' := 0) (by
          show AtMost C (match (mergeAll (pureOp takeA takeB convA convB rec) { a := as, b := bs, r := [] }).2 with
            | .panic => pure Call.panic
            | _ => pure (Call.ret (mergeAll (pureOp takeA takeB convA convB rec) { a := as, b := bs, r := [] }).1.r)) _ _
          cases (mergeAll (pureOp takeA takeB convA convB rec) { a := as, b := bs, r := [] }).2 <;> exact AtMost.pure _ _)

mutual
theorem copyCalls_eq : ∀ t : Tree K V, t.copyCalls = t.nodes
  | ⟨_, _, ks⟩ => by rw [copyCalls, nodes, copyCallsL_eq ks]
theorem copyCallsL_eq : ∀ ks : List (Tree K V), copyCalls.copyCallsL ks = nodes.nodesL ks
  | [] => rfl
  | k :: ks => by rw [copyCalls.copyCallsL, nodes.nodesL, copyCalls_eq k, copyCallsL_eq ks]
end

theorem sumN_nodes : ∀ ks : List (Tree K V), sumN nodes ks = nodes.nodesL ks
  | [] => rfl
  | c :: ks => by rw [sumN, nodes.nodesL, sumN_nodes ks]

theorem innerGoL_atMost (f : V → W → Option V) : ∀ (fuel i j i' j' : Nat), (∀ k, C.of ⟨i * k, 0⟩ ≤ i' * k) → (∀ k, C.of ⟨0, j * k⟩ ≤ j' * k) → ∀ (a : Tree K V) (b : Tree K W),
    AtMost C (innerGoL f fuel i j a b) (innerGo f fuel a b) (i' * a.nodes + j' * b.nodes)
  | 0, _, _, _, _, _, _, _, _ => AtMost.pure _ _
  | fuel + 1, i, j, i', j', hi, hj, a, b => by
    have z : ∀ k, C.of ⟨0 * k, 0⟩ ≤ 0 * k := fun k => by rw [Nat.zero_mul]; exact Nat.le_of_eq C.zero
    have z' : ∀ k, C.of ⟨0, 0 * k⟩ ≤ 0 * k := fun k => by rw [Nat.zero_mul]; exact Nat.le_of_eq C.zero
    have sl : AtMost C (seeL i) () i' := ⟨rfl, by have := hi 1; rwa [Nat.mul_one, Nat.mul_one] at this⟩
    have sr : AtMost C (seeR j) () j' := ⟨rfl, by have := hj 1; rwa [Nat.mul_one, Nat.mul_one] at this⟩
    rw [innerGoL, innerGo, innerCasesL, innerCases]
    have na : i' * a.nodes = i' + i' * nodes.nodesL a.kids := by rw [nodes_def, Nat.mul_add, Nat.mul_one]
    have nb : j' * b.nodes = j' + j' * nodes.nodesL b.kids := by rw [nodes_def, Nat.mul_add, Nat.mul_one]
    split
    · have g := mergeChildren_atMost (takeA := false) (takeB := false) (convA := materialize) (convB := noConverter) (innerGoL_atMost f fuel i j i' j' hi hj) a.kids b.kids
      rw [sumN_mul, sumN_mul, sumN_nodes, sumN_nodes] at g
      exact AtMost.mono (AtMost.bind sl (AtMost.bind sr (AtMost.map g fun ks => bindC ks fun ks => mkNode _ _ ks))) (by omega)
    split
    · refine AtMost.mono (AtMost.bind (c := seeR (j * b.copyCalls)) (r := ()) (k := j' * b.nodes) ⟨rfl, by rw [copyCalls_eq]; exact hj _⟩
        (k' := i' * a.nodes) ?_) (by omega)
      unfold bindCM
      cases b.materializeShortened (commonPrefix a.pre b.pre) with
      | panic => exact AtMost.pure _ _
      | ret b' =>
        have g := mergeChildren_atMost (takeA := false) (takeB := false) (convA := materialize) (convB := noConverter) (innerGoL_atMost f fuel i 0 i' 0 hi z') a.kids [b']
        rw [sumN_mul, sumN_mul, sumN_nodes, Nat.zero_mul] at g
        exact AtMost.mono (AtMost.bind sl (AtMost.map g fun ks => bindC ks fun ks => mkNode _ _ ks)) (by omega)
    split
    · refine AtMost.mono (AtMost.bind (c := seeL (i * a.copyCalls)) (r := ()) (k := i' * a.nodes) ⟨rfl, by rw [copyCalls_eq]; exact hi _⟩
        (k' := j' * b.nodes) ?_) (by omega)
      unfold bindCM
      cases a.materializeShortened (commonPrefix a.pre b.pre) with
      | panic => exact AtMost.pure _ _
      | ret a' =>
        have g := mergeChildren_atMost (takeA := false) (takeB := false) (convA := materialize) (convB := noConverter) (innerGoL_atMost f fuel 0 j 0 j' z hj) [a'] b.kids
        rw [sumN_mul, sumN_mul] at g
        simp only [sumN_nodes, Nat.zero_mul] at g
        exact AtMost.mono (AtMost.bind sr (AtMost.map g fun ks => bindC ks fun ks => mkNode _ _ ks)) (by omega)
    · exact AtMost.pure _ _
end

end Verif.Tree
