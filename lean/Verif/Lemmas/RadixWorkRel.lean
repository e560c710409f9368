import Verif.Lemmas.RadixWorkOps
/-! Counting in the recursive merges: the relations. -/
namespace Verif
namespace Tree
open Std

section
variable {K V W : Type} [Ord K] [DecidableEq K]

/-- what a call of a relation on two nodes with the remaining prefixes `lp` and `rp` may spend -/
structure RelUse (LA LB : Nat) (l : Tree K V) (lp : List K) (r : Tree K W) (rp : List K) (u : Use) : Prop where
  eqs : u.eqs ≤ lp.length + components.componentsL l.kids + (rp.length + components.componentsL r.kids)
  cmpsA : u.cmps ≤ nodes.nodesL l.kids * LA
  cmpsB : u.cmps ≤ nodes.nodesL r.kids * LB
  sorted : u.sorted = 0

theorem RelUse.zero {LA LB : Nat} {l : Tree K V} {lp : List K} {r : Tree K W} {rp : List K} : RelUse LA LB l lp r rp 0 :=
  ⟨Nat.zero_le _, Nat.zero_le _, Nat.zero_le _, rfl⟩

/-- valid and narrow -/
def Sound (w : Nat) (t : Tree K V) : Prop := Valid t ∧ Narrow w t

theorem Sound.kids {w : Nat} {t : Tree K V} (h : Sound w t) : ∀ c ∈ t.kids, c.pre ≠ [] ∧ Sound w c := by
  obtain ⟨hv, hn⟩ := h
  obtain ⟨_, hn⟩ := narrow_iff.1 hn
  cases hv with
  | mk h1 h2 h3 => exact fun c hc => ⟨h1 c hc, h3 c hc, hn c hc⟩

theorem components_mem {c : Tree K V} : ∀ {ks : List (Tree K V)}, c ∈ ks → c.components ≤ components.componentsL ks
  | [], h => by cases h
  | d :: ks, h => by
    rw [components.componentsL]
    rcases List.mem_cons.1 h with rfl | h
    · omega
    · have := components_mem h; omega

theorem nodes_mem {c : Tree K V} : ∀ {ks : List (Tree K V)}, c ∈ ks → c.nodes ≤ nodes.nodesL ks
  | [], h => by cases h
  | d :: ks, h => by
    rw [nodes.nodesL]
    rcases List.mem_cons.1 h with rfl | h
    · omega
    · have := nodes_mem h; omega

theorem components_def (t : Tree K V) : t.components = t.pre.length + components.componentsL t.kids := by cases t; rfl
theorem nodes_def (t : Tree K V) : t.nodes = 1 + nodes.nodesL t.kids := by cases t; rfl

/-! ### Scanning children -/

/-- the result of a scan -/
structure ScanUse (ks : List (Tree K V)) (E C : Nat) (u : Use) : Prop where
  eqs : u.eqs ≤ components.componentsL ks + E
  cmps : u.cmps ≤ C
  sorted : u.sorted = 0

theorem scan_spent (isAny : Bool) {pM : Tree K V → Counts (Call Bool)} {p : Tree K V → Call Bool} {h : K} {E C : Nat} :
    ∀ (ks : List (Tree K V)), (∀ c ∈ ks, c.pre ≠ []) → ks.Pairwise (fun c d => c.pre.head? ≠ d.pre.head?) →
    (∀ c ∈ ks, c.pre.head? ≠ some h → ∃ u, Spent (pM c) (p c) u ∧ u.eqs ≤ 1 ∧ u.cmps = 0 ∧ u.sorted = 0) →
    (∀ c ∈ ks, c.pre.head? = some h → ∃ u, Spent (pM c) (p c) u ∧ u.eqs ≤ c.components + E ∧ u.cmps ≤ C ∧ u.sorted = 0) →
    (∃ u, Spent (if isAny then anyM pM ks else allM pM ks) (if isAny then anyC p ks else allC p ks) u ∧ ScanUse ks E C u ∧
      ((∀ c ∈ ks, c.pre.head? ≠ some h) → ScanUse ks 0 0 u))
  | [], _, _, _, _ => ⟨0, by cases isAny <;> exact Spent.pure _, ⟨Nat.zero_le _, Nat.zero_le _, rfl⟩, fun _ => ⟨Nat.zero_le _, Nat.zero_le _, rfl⟩⟩
  | c :: ks, h1, h2, h3, h4 => by
    obtain ⟨u, hu, ⟨a1, a2, a3⟩, hb⟩ := scan_spent isAny (pM := pM) (p := p) (h := h) (E := E) (C := C) ks
      (fun d hd => h1 d (List.mem_cons_of_mem _ hd)) (List.pairwise_cons.1 h2).2 (fun d hd => h3 d (List.mem_cons_of_mem _ hd))
      (fun d hd => h4 d (List.mem_cons_of_mem _ hd))
    have hc : 1 ≤ c.components := by
      have := List.length_pos_iff.2 (h1 c List.mem_cons_self)
      rw [components_def]; omega
    -- after the first child, either the rest is scanned or not
    have key : ∀ u1, Spent (pM c) (p c) u1 →
        ∃ u2, Spent (if isAny then anyM pM (c :: ks) else allM pM (c :: ks)) (if isAny then anyC p (c :: ks) else allC p (c :: ks)) (u1 + u2) ∧
          (u2 = u ∨ u2 = 0) := by
      intro u1 hs
      cases isAny with
      | true =>
        simp only [↓reduceIte] at hu ⊢
        rw [anyM, anyC]
        cases hp : p c with
        | panic => rw [hp] at hs; exact ⟨0, Spent.bind hs (Spent.pure _), .inr rfl⟩
        | ret b =>
          rw [hp] at hs
          cases b with
          | true => exact ⟨0, Spent.bind hs (Spent.pure _), .inr rfl⟩
          | false => exact ⟨u, Spent.bind hs hu, .inl rfl⟩
      | false =>
        simp only [Bool.false_eq_true, ↓reduceIte] at hu ⊢
        rw [allM, allC]
        cases hp : p c with
        | panic => rw [hp] at hs; exact ⟨0, Spent.bind hs (Spent.pure _), .inr rfl⟩
        | ret b =>
          rw [hp] at hs
          cases b with
          | false => exact ⟨0, Spent.bind hs (Spent.pure _), .inr rfl⟩
          | true => exact ⟨u, Spent.bind hs hu, .inl rfl⟩
    by_cases hh : c.pre.head? = some h
    · obtain ⟨u1, s1, e1, e2, e3⟩ := h4 c List.mem_cons_self hh
      obtain ⟨u2, s2, hu2⟩ := key u1 s1
      obtain ⟨b1, b2, b3⟩ := hb (fun d hd => by rw [← hh]; exact fun e => (List.pairwise_cons.1 h2).1 d hd e.symm)
      refine ⟨_, s2, ⟨?_, ?_, ?_⟩, fun g => absurd hh (g c List.mem_cons_self)⟩ <;> rcases hu2 with rfl | rfl <;>
        simp only [Use.add_eqs, Use.add_cmps, Use.add_sorted, Use.zero_eqs, Use.zero_cmps, Use.zero_sorted, components.componentsL] <;> omega
    · obtain ⟨u1, s1, e1, e2, e3⟩ := h3 c List.mem_cons_self hh
      obtain ⟨u2, s2, hu2⟩ := key u1 s1
      refine ⟨_, s2, ⟨?_, ?_, ?_⟩, fun g => ?_⟩
      · rcases hu2 with rfl | rfl <;> simp only [Use.add_eqs, Use.zero_eqs, components.componentsL] <;> omega
      · rcases hu2 with rfl | rfl <;> simp only [Use.add_cmps, Use.zero_cmps] <;> omega
      · rcases hu2 with rfl | rfl <;> simp only [Use.add_sorted, Use.zero_sorted] <;> omega
      · obtain ⟨b1, b2, b3⟩ := hb (fun d hd => g d (List.mem_cons_of_mem _ hd))
        constructor <;> rcases hu2 with rfl | rfl <;>
          simp only [Use.add_eqs, Use.add_cmps, Use.add_sorted, Use.zero_eqs, Use.zero_cmps, Use.zero_sorted, components.componentsL] <;> omega

theorem Valid.heads [TransOrd K] [LawfulEqOrd K] {t : Tree K V} (h : Valid t) : t.kids.Pairwise (fun c d => c.pre.head? ≠ d.pre.head?) := by
  cases h with
  | mk h1 h2 h3 =>
    refine List.Pairwise.imp ?_ h2
    intro c d hcd e
    simp only [e, ReflCmp.compare_self] at hcd
    cases hcd

/-! ### Merging children -/

/-- a relation on pairs of children -/
def RelCalls (wa wb LA LB : Nat) (recM : Tree K V → Tree K W → Counts (Call Bool)) (rec : Tree K V → Tree K W → Call Bool) : Prop :=
  ∀ x y, Sound wa x → Sound wb y → ∃ u, Spent (recM x y) (rec x y) u ∧ RelUse LA LB x x.pre y y.pre u

theorem boolOp_mirrors {wa wb LA LB Ma Mb : Nat} {takeA : Bool} {recM : Tree K V → Tree K W → Counts (Call Bool)} {rec : Tree K V → Tree K W → Call Bool}
    (H : RelCalls wa wb LA LB recM rec) :
    Mirrors (boolOpM countCmp takeA recM) (boolOp takeA rec) (fun x => x.pre ≠ [] ∧ Sound wa x ∧ x.components ≤ Ma)
      (fun y => y.pre ≠ [] ∧ Sound wb y ∧ y.components ≤ Mb)
      (fun x => ⟨Ma + Mb, nodes.nodesL x.kids * LA, 0⟩) (fun y => ⟨Ma + Mb, nodes.nodesL y.kids * LB, 0⟩) components components where
  fromA := rfl
  fromB := rfl
  cmp x y hx hy := headsCmp_spent x y hx.1 hy.1
  collision s x as y bs hs hs' hx hy := by
    obtain ⟨u, h1, g1, g2, g3, g4⟩ := H x y hx.2.1 hy.2.1
    rw [← components_def, ← components_def] at g1
    obtain ⟨a, b, r⟩ := s
    obtain rfl : a = x :: as := hs
    obtain rfl : b = y :: bs := hs'
    have hM := hx.2.2
    have hM' := hy.2.2
    refine ⟨u, ?_, ⟨by show u.eqs ≤ Ma + Mb; omega, g2, Nat.le_of_eq g4⟩, ⟨by show u.eqs ≤ Ma + Mb; omega, g3, Nat.le_of_eq g4⟩, g1⟩
    have := Spent.bind h1 (f := fun c => match c with
      | .panic => pure (({ a := x :: as, b := y :: bs, r := r } : BoolMS (Tree K V) (Tree K W)), Flow.panic)
      | .ret take => pure (andThen (BoolMS.mut.advanceA { a := x :: as, b := y :: bs, r := r } 1 take) fun s => BoolMS.mut.advanceB s 1 false))
      (r' := match rec x y with
        | .panic => ({ a := x :: as, b := y :: bs, r := r }, Flow.panic)
        | .ret take => andThen (BoolMS.mut.advanceA { a := x :: as, b := y :: bs, r := r } 1 take) fun s => BoolMS.mut.advanceB s 1 false) (u' := 0)
      (by cases rec x y <;> exact Spent.pure _)
    rw [Use.add_zero] at this
    exact this
  stepA s n hn hc := by
    have e : (boolOp takeA rec).fromA s n = BoolMS.mut.advanceA s n takeA := rfl
    rw [e] at hc ⊢
    have hl : ¬ s.a.length < n := Nat.not_lt.2 hn
    cases takeA with
    | true => cases hc
    | false =>
      simp only [BoolMS.mut, Bool.false_eq_true, if_false, if_neg hl]
      exact ⟨rfl, rfl⟩
  stepB s n hn hc := by
    have e : (boolOp takeA rec).fromB s n = BoolMS.mut.advanceB s n false := rfl
    rw [e] at hc ⊢
    have hl : ¬ s.b.length < n := Nat.not_lt.2 hn
    simp only [BoolMS.mut, Bool.false_eq_true, if_false, if_neg hl]
    exact ⟨rfl, rfl⟩
  stepC s x as y bs hs hs' hc := by
    obtain ⟨a, b, r⟩ := s
    obtain rfl : a = x :: as := hs
    obtain rfl : b = y :: bs := hs'
    simp only [boolOp] at hc ⊢
    cases hr : rec x y with
    | panic => rw [hr] at hc; cases hc
    | ret take =>
      rw [hr] at hc
      cases take with
      | true => cases hc
      | false => exact ⟨rfl, rfl⟩

theorem sumUse_rel {M L : Nat} : ∀ ks : List (Tree K V), ks.length * L + (sumUse (fun x : Tree K V => ⟨M, nodes.nodesL x.kids * L, 0⟩) ks).cmps = nodes.nodesL ks * L ∧
    (sumUse (fun x : Tree K V => (⟨M, nodes.nodesL x.kids * L, 0⟩ : Use)) ks).sorted = 0
  | [] => by simp [sumUse, nodes.nodesL]
  | c :: ks => by
    obtain ⟨h1, h2⟩ := sumUse_rel (M := M) (L := L) ks
    simp only [sumUse, Use.add_cmps, Use.add_sorted, nodes.nodesL, List.length_cons, nodes_def c, Nat.add_mul, Nat.one_mul]
    omega

theorem sumN_components : ∀ ks : List (Tree K V), sumN components ks = components.componentsL ks
  | [] => rfl
  | c :: ks => by rw [sumN, components.componentsL, sumN_components ks]

theorem mergeBool_spent {wa wb LA LB : Nat} (hLA : LA = Nat.log2 wb + 2) (hLB : LB = (Nat.log2 wa + 1) * (Nat.log2 wb + 2)) {takeA : Bool}
    {recM : Tree K V → Tree K W → Counts (Call Bool)} {rec : Tree K V → Tree K W → Call Bool} (H : RelCalls wa wb LA LB recM rec)
    {x : Tree K V} {y : Tree K W} (hx : Sound wa x) (hy : Sound wb y) :
    ∃ u, Spent (mergeBoolM (boolOpM countCmp takeA recM) x.kids y.kids) (mergeBool (boolOp takeA rec) x.kids y.kids) u ∧ RelUse LA LB x [] y [] u := by
  unfold mergeBoolM mergeBool
  cases hh : headed x.kids && headed y.kids with
  | false => exact ⟨0, Spent.pure _, RelUse.zero⟩
  | true =>
    obtain ⟨u, h1, h2, h3, h4, _⟩ := drive_spent (boolOp_mirrors (takeA := takeA) (Ma := components.componentsL x.kids) (Mb := components.componentsL y.kids) H)
      x.kids.length y.kids.length ({ a := x.kids, b := y.kids, r := false } : BoolMS (Tree K V) (Tree K W)) x.kids [] y.kids []
      (by simp [MergeState.aSlice]) (by simp [MergeState.bSlice]) rfl rfl
      (fun c hc => ⟨(hx.kids c hc).1, (hx.kids c hc).2, components_mem hc⟩) (fun c hc => ⟨(hy.kids c hc).1, (hy.kids c hc).2, components_mem hc⟩)
    obtain ⟨g1, g2⟩ := searches_le hLA hLB (narrow_iff.1 hx.2).1 (narrow_iff.1 hy.2).1
    rw [sumN_components, sumN_components] at h4
    obtain ⟨s1, s2⟩ := sumUse_rel (M := components.componentsL x.kids + components.componentsL y.kids) (L := LA) x.kids
    obtain ⟨s3, s4⟩ := sumUse_rel (M := components.componentsL x.kids + components.componentsL y.kids) (L := LB) y.kids
    refine ⟨u, ?_, ⟨?_, ?_, ?_, ?_⟩⟩
    · have := Spent.bind h1 (f := fun r => match r.2 with
        | .panic => pure Call.panic
        | _ => pure (Call.ret r.1.r)) (r' := match (mergeAll (boolOp takeA rec) { a := x.kids, b := y.kids, r := false }).2 with
        | .panic => .panic
        | _ => .ret (mergeAll (boolOp takeA rec) { a := x.kids, b := y.kids, r := false }).1.r) (u' := 0) (by
          show Spent (match (mergeAll (boolOp takeA rec) { a := x.kids, b := y.kids, r := false }).2 with
            | .panic => pure Call.panic
            | _ => pure (Call.ret (mergeAll (boolOp takeA rec) { a := x.kids, b := y.kids, r := false }).1.r)) _ _
          cases (mergeAll (boolOp takeA rec) { a := x.kids, b := y.kids, r := false }).2 <;> exact Spent.pure _)
      rw [Use.add_zero] at this
      exact this
    · simp only [List.length_nil]; omega
    · have := h2.2.1
      simp only [Use.add_cmps, cmpsOnly_cmps] at this
      omega
    · have := h3.2.1
      simp only [Use.add_cmps, cmpsOnly_cmps] at this
      omega
    · have := h2.2.2
      simp only [Use.add_sorted, cmpsOnly_sorted] at this
      omega

/-! ### Both relations -/

/-- a relation: what it does at each of the four kinds of nodes -/
theorem rel_step {wa wb LA LB : Nat} [TransOrd K] [LawfulEqOrd K] {goM : Tree K V → List K → Tree K W → List K → Counts (Call Bool)}
    {go : Tree K V → List K → Tree K W → List K → Call Bool} (isAny : Bool)
    (H : ∀ l lp r rp, Sound wa l → Sound wb r → ∃ u, Spent (goM l lp r rp) (go l lp r rp) u ∧ RelUse LA LB l lp r rp u ∧
      (∀ x p y q, lp = x :: p → rp = y :: q → x ≠ y → u.eqs ≤ 1 ∧ u.cmps = 0))
    {l : Tree K V} {lp : List K} {r : Tree K W} {rp : List K} (hl : Sound wa l) (hr : Sound wb r)
    {c1M : Counts (Call Bool)} {c2M : Nat → Counts (Call Bool)} {c1 c2 : Call Bool}
    (h1 : ∃ u, Spent c1M c1 u ∧ RelUse LA LB l [] r [] u)
    (h2 : (c2M (commonPrefix lp rp) = (if isAny then anyM (fun lc => goM lc lc.pre r (rp.drop (commonPrefix lp rp))) l.kids else
        allM (fun lc => goM lc lc.pre r (rp.drop (commonPrefix lp rp))) l.kids) ∧
      c2 = (if isAny then anyC (fun lc => go lc lc.pre r (rp.drop (commonPrefix lp rp))) l.kids else
        allC (fun lc => go lc lc.pre r (rp.drop (commonPrefix lp rp))) l.kids)) ∨ (c2M (commonPrefix lp rp) = pure (.ret false) ∧ c2 = .ret false)) :
    ∃ u, Spent (do
        let n ← commonPrefixM countEq lp rp
        if n = lp.length ∧ n = rp.length then c1M
        else if n = lp.length then c2M n
        else if n = rp.length then anyM (fun rc => goM l (lp.drop n) rc rc.pre) r.kids
        else pure (.ret false))
      (if commonPrefix lp rp = lp.length ∧ commonPrefix lp rp = rp.length then c1
        else if commonPrefix lp rp = lp.length then c2
        else if commonPrefix lp rp = rp.length then anyC (fun rc => go l (lp.drop (commonPrefix lp rp)) rc rc.pre) r.kids
        else .ret false) u ∧ RelUse LA LB l lp r rp u ∧ (∀ x p y q, lp = x :: p → rp = y :: q → x ≠ y → u.eqs ≤ 1 ∧ u.cmps = 0) := by
  obtain ⟨k, g1, g2, g3⟩ := commonPrefix_spent lp rp
  have n1 := commonPrefix_le_left lp rp
  have n2 := commonPrefix_le_right lp rp
  -- different heads: nothing but one test
  have diff : ∀ x p y q, lp = x :: p → rp = y :: q → x ≠ y → commonPrefix lp rp = 0 ∧ 0 < lp.length ∧ 0 < rp.length := by
    rintro x p y q rfl rfl hxy
    exact ⟨by rw [commonPrefix, if_neg hxy], by simp, by simp⟩
  generalize hn : commonPrefix lp rp = n at *
  have hd1 : n < lp.length → ∃ h t, lp.drop n = h :: t := fun h => ⟨lp[n], lp.drop (n + 1), List.drop_eq_getElem_cons h⟩
  have hd2 : n < rp.length → ∃ h t, rp.drop n = h :: t := fun h => ⟨rp[n], rp.drop (n + 1), List.drop_eq_getElem_cons h⟩
  suffices h : ∃ u, Spent (if n = lp.length ∧ n = rp.length then c1M
        else if n = lp.length then c2M n
        else if n = rp.length then anyM (fun rc => goM l (lp.drop n) rc rc.pre) r.kids
        else pure (.ret false))
      (if n = lp.length ∧ n = rp.length then c1
        else if n = lp.length then c2
        else if n = rp.length then anyC (fun rc => go l (lp.drop n) rc rc.pre) r.kids
        else .ret false) u ∧ RelUse LA LB l (lp.drop n) r (rp.drop n) u ∧ (n < lp.length → n < rp.length → u = 0) by
    obtain ⟨u, s1, ⟨e1, e2, e3, e4⟩, e5⟩ := h
    refine ⟨eqsOnly k + u, Spent.bind g1 s1, ⟨?_, ?_, ?_, ?_⟩, ?_⟩
    · simp only [List.length_drop] at e1
      show k + u.eqs ≤ _
      by_cases h1 : n < lp.length
      · by_cases h2 : n < rp.length
        · have := g3 h1 h2
          rw [e5 h1 h2]
          show k + 0 ≤ _
          omega
        · have := g2 (by omega); omega
      · have := g2 (by omega); omega
    · show 0 + u.cmps ≤ _; omega
    · show 0 + u.cmps ≤ _; omega
    · show 0 + u.sorted = _; omega
    · intro x p y q h1 h2 h3
      obtain ⟨d1, d2, d3⟩ := diff x p y q h1 h2 h3
      have := g3 (by omega) (by omega)
      rw [e5 (by omega) (by omega)]
      exact ⟨by show k + 0 ≤ 1; omega, rfl⟩
  by_cases h1' : n = lp.length <;> by_cases h2' : n = rp.length
  · simp only [if_pos (And.intro h1' h2')]
    obtain ⟨u, s1, e1, e2, e3, e4⟩ := h1
    exact ⟨u, s1, ⟨by simp only [List.length_nil] at e1; omega, e2, e3, e4⟩, fun _ _ => by omega⟩
  · simp only [h2', and_false, if_false, if_pos h1']
    rcases h2 with ⟨h2, rfl⟩ | ⟨h2, rfl⟩ <;> rw [h2]
    · obtain ⟨h, t, ht⟩ := hd2 (by omega)
      obtain ⟨u, s1, ⟨e1, e2, e3⟩, _⟩ := scan_spent isAny (pM := fun lc => goM lc lc.pre r (rp.drop n)) (p := fun lc => go lc lc.pre r (rp.drop n)) (h := h)
        (E := (rp.drop n).length + components.componentsL r.kids) (C := min (nodes.nodesL l.kids * LA) (nodes.nodesL r.kids * LB)) l.kids
        (fun c hc => (hl.kids c hc).1) hl.1.heads
        (fun c hc hne => by
          obtain ⟨u, s, e, f⟩ := H c c.pre r (rp.drop n) (hl.kids c hc).2 hr
          obtain ⟨x, p, hp⟩ := List.exists_cons_of_ne_nil (hl.kids c hc).1
          rw [hp] at hne
          obtain ⟨f1, f2⟩ := f x p h t hp ht (fun e => hne (by rw [e]; rfl))
          exact ⟨u, s, f1, f2, e.sorted⟩)
        (fun c hc _ => by
          obtain ⟨u, s, ⟨a1, a2, a3, a4⟩, _⟩ := H c c.pre r (rp.drop n) (hl.kids c hc).2 hr
          refine ⟨u, s, by rw [components_def]; exact a1, ?_, a4⟩
          have : nodes.nodesL c.kids * LA ≤ nodes.nodesL l.kids * LA := Nat.mul_le_mul_right _ (by have := nodes_mem hc; rw [nodes_def] at this; omega)
          omega)
      refine ⟨u, s1, ⟨?_, ?_, ?_, e3⟩, fun _ _ => by omega⟩ <;> omega
    · exact ⟨0, Spent.pure _, RelUse.zero, fun _ _ => rfl⟩
  · simp only [h1', false_and, if_false, if_pos h2']
    obtain ⟨h, t, ht⟩ := hd1 (by omega)
    obtain ⟨u, s1, ⟨e1, e2, e3⟩, _⟩ := scan_spent true (pM := fun rc => goM l (lp.drop n) rc rc.pre) (p := fun rc => go l (lp.drop n) rc rc.pre) (h := h)
      (E := (lp.drop n).length + components.componentsL l.kids) (C := min (nodes.nodesL l.kids * LA) (nodes.nodesL r.kids * LB)) r.kids
      (fun c hc => (hr.kids c hc).1) hr.1.heads
      (fun c hc hne => by
        obtain ⟨u, s, e, f⟩ := H l (lp.drop n) c c.pre hl (hr.kids c hc).2
        obtain ⟨x, p, hp⟩ := List.exists_cons_of_ne_nil (hr.kids c hc).1
        rw [hp] at hne
        obtain ⟨f1, f2⟩ := f h t x p ht hp (fun e => hne (by rw [e]; rfl))
        exact ⟨u, s, f1, f2, e.sorted⟩)
      (fun c hc _ => by
        obtain ⟨u, s, ⟨a1, a2, a3, a4⟩, _⟩ := H l (lp.drop n) c c.pre hl (hr.kids c hc).2
        refine ⟨u, s, by rw [components_def]; omega, ?_, a4⟩
        have : nodes.nodesL c.kids * LB ≤ nodes.nodesL r.kids * LB := Nat.mul_le_mul_right _ (by have := nodes_mem hc; rw [nodes_def] at this; omega)
        omega)
    refine ⟨u, s1, ⟨?_, ?_, ?_, e3⟩, fun _ _ => by omega⟩ <;> omega
  · simp only [h1', h2', false_and, if_false]
    exact ⟨0, Spent.pure _, RelUse.zero, fun _ _ => rfl⟩

variable {wa wb LA LB : Nat} [TransOrd K] [LawfulEqOrd K] (hLA : LA = Nat.log2 wb + 2) (hLB : LB = (Nat.log2 wa + 1) * (Nat.log2 wb + 2))
include hLA hLB

theorem isSubsetGo_spent : ∀ fuel (l : Tree K V) (lp : List K) (r : Tree K W) (rp : List K), Sound wa l → Sound wb r →
    ∃ u, Spent (isSubsetGoM countEq countCmp fuel l lp r rp) (isSubsetGo fuel l lp r rp) u ∧ RelUse LA LB l lp r rp u ∧
      (∀ x p y q, lp = x :: p → rp = y :: q → x ≠ y → u.eqs ≤ 1 ∧ u.cmps = 0)
  | 0, _, _, _, _, _, _ => ⟨0, Spent.pure _, RelUse.zero, fun _ _ _ _ _ _ _ => ⟨Nat.zero_le _, rfl⟩⟩
  | fuel + 1, l, lp, r, rp, hl, hr => by
    rw [isSubsetGoM, isSubsetGo]
    refine rel_step false (c2M := fun n => if l.val.isNone then allM (fun lc => isSubsetGoM countEq countCmp fuel lc lc.pre r (rp.drop n)) l.kids
      else pure (.ret false)) (isSubsetGo_spent fuel) hl hr ?_ ?_
    · unfold andC
      split
      · obtain ⟨u, s, e⟩ := mergeBool_spent hLA hLB (takeA := true)
          (recM := fun x y => do let c ← isSubsetGoM countEq countCmp fuel x x.pre y y.pre; pure (notC c))
          (rec := fun x y => notC (isSubsetGo fuel x x.pre y y.pre))
          (fun x y hx hy => by
            obtain ⟨u, s, e, _⟩ := isSubsetGo_spent fuel x x.pre y y.pre hx hy
            exact ⟨u, Spent.map s notC, e⟩) hl hr
        exact ⟨u, Spent.map s notC, e⟩
      · exact ⟨0, Spent.pure _, RelUse.zero⟩
    · unfold andC
      cases l.val.isNone with
      | true => exact .inl ⟨rfl, rfl⟩
      | false => exact .inr ⟨rfl, rfl⟩

theorem intersectsGo_spent : ∀ fuel (l : Tree K V) (lp : List K) (r : Tree K W) (rp : List K), Sound wa l → Sound wb r →
    ∃ u, Spent (intersectsGoM countEq countCmp fuel l lp r rp) (intersectsGo fuel l lp r rp) u ∧ RelUse LA LB l lp r rp u ∧
      (∀ x p y q, lp = x :: p → rp = y :: q → x ≠ y → u.eqs ≤ 1 ∧ u.cmps = 0)
  | 0, _, _, _, _, _, _ => ⟨0, Spent.pure _, RelUse.zero, fun _ _ _ _ _ _ _ => ⟨Nat.zero_le _, rfl⟩⟩
  | fuel + 1, l, lp, r, rp, hl, hr => by
    rw [intersectsGoM, intersectsGo]
    refine rel_step true (c2M := fun n => anyM (fun lc => intersectsGoM countEq countCmp fuel lc lc.pre r (rp.drop n)) l.kids)
      (intersectsGo_spent fuel) hl hr ?_ (.inl ⟨rfl, rfl⟩)
    unfold orC
    split
    · exact ⟨0, Spent.pure _, RelUse.zero⟩
    · exact mergeBool_spent hLA hLB (takeA := false) (recM := fun x y => intersectsGoM countEq countCmp fuel x x.pre y y.pre)
        (rec := fun x y => intersectsGo fuel x x.pre y y.pre)
        (fun x y hx hy => by
          obtain ⟨u, s, e, _⟩ := intersectsGo_spent fuel x x.pre y y.pre hx hy
          exact ⟨u, s, e⟩) hl hr

end
end Tree
end Verif
