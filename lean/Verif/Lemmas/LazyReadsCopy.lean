import Verif.Model.LazyReadsCopy
import Verif.Lemmas.LazyReadsOps
import Verif.Lemmas.Capacity
import Verif.Lemmas.HostileAgree
/-! Counting the calls of `children()`: the combinations that copy. -/
namespace Verif

/-- `o'` does what `o` does, and something to the second component -/
structure FstOp {σ S A B : Type _} (o' : MergeOp (σ × S) A B) (o : MergeOp σ A B) : Prop where
  cmp : ∀ x y, o'.cmp x y = o.cmp x y
  fromA : ∀ s n, ((o'.fromA s n).1.1, (o'.fromA s n).2) = o.fromA s.1 n
  fromB : ∀ s n, ((o'.fromB s n).1.1, (o'.fromB s n).2) = o.fromB s.1 n
  collision : ∀ s, ((o'.collision s).1.1, (o'.collision s).2) = o.collision s.1

theorem fst_andThen {σ S : Type _} {r' : (σ × S) × Flow} {r : σ × Flow} {k' : σ × S → (σ × S) × Flow} {k : σ → σ × Flow} (h : (r'.1.1, r'.2) = r)
    (hk : ∀ s, ((k' s).1.1, (k' s).2) = k s.1) : ((andThen r' k').1.1, (andThen r' k').2) = andThen r k := by
  subst h
  obtain ⟨s, f⟩ := r'
  cases f with
  | cont => exact hk s
  | stop => rfl
  | panic => rfl

theorem binaryMerge_fst {σ S A B : Type _} [MergeState σ A B] {o' : MergeOp (σ × S) A B} {o : MergeOp σ A B} (h : FstOp o' o) (an bn : Nat) :
    ∀ s, ((binaryMerge o' s an bn).1.1, (binaryMerge o' s an bn).2) = binaryMerge o s.1 an bn := by
  induction an using Nat.strongRecOn generalizing bn with
  | ind an ih =>
    intro s
    rw [binaryMerge, binaryMerge]
    have hSa : (MergeState.aSlice s : List A) = MergeState.aSlice s.1 := rfl
    have hSb : (MergeState.bSlice s : List B) = MergeState.bSlice s.1 := rfl
    rw [hSa, hSb]
    split
    · split
      · rfl
      · exact h.fromB s bn
    · split
      · exact h.fromA s an
      · simp only
        cases (MergeState.aSlice s.1 : List A)[an / 2]? with
        | none => rfl
        | some a =>
          simp only
          split
          · rfl
          · have hs : (fun b => (o'.cmp a b).swap) = (fun b => (o.cmp a b).swap) := by funext b; rw [h.cmp]
            rw [hs]
            generalize binarySearchBy (fun b => (o.cmp a b).swap) _ = q
            cases q
            · refine fst_andThen (ih (an / 2) (by omega) _ s) fun s => ?_
              refine fst_andThen (h.collision s) fun s => ?_
              exact ih _ (by omega) _ s
            · refine fst_andThen (ih (an / 2) (by omega) _ s) fun s => ?_
              refine fst_andThen (h.fromA s 1) fun s => ?_
              exact ih _ (by omega) _ s

theorem binaryMerge_noStop {σ A B : Type _} [MergeState σ A B] {o : MergeOp σ A B} (h : Hostile.NoStop o) (an bn : Nat) :
    ∀ s, (binaryMerge o s an bn).2 ≠ .stop := by
  induction an using Nat.strongRecOn generalizing bn with
  | ind an ih =>
    intro s
    rw [binaryMerge]
    split
    · split
      · exact nofun
      · exact h.2.1 s bn
    · split
      · exact h.1 s an
      · simp only
        split
        · exact nofun
        · split
          · exact nofun
          · split
            · refine Hostile.andThen_noStop (ih _ (by omega) _ s) fun s => ?_
              refine Hostile.andThen_noStop (h.2.2 s) fun s => ?_
              exact ih _ (by omega) _ s
            · refine Hostile.andThen_noStop (ih _ (by omega) _ s) fun s => ?_
              refine Hostile.andThen_noStop (h.1 s 1) fun s => ?_
              exact ih _ (by omega) _ s
end Verif

namespace Verif.Tree
section
variable {K V W : Type} [Ord K] [DecidableEq K]

theorem nodes_take_drop (n : Nat) (ks : List (Tree K V)) : nodes.nodesL ks = nodes.nodesL (ks.take n) + nodes.nodesL (ks.drop n) := by
  rw [← sumN_nodes, ← sumN_nodes, ← sumN_nodes]
  conv => lhs; rw [← List.take_append_drop n ks]
  exact sumN_append _ _ _

theorem pureOpL_fst {i j : Nat} {takeA takeB : Bool} {convA : Tree K V → Call (Tree K V)} {convB : Tree K W → Call (Tree K V)}
    {recM : Tree K V → Tree K W → Noted (Call (Tree K V))} {rec : Tree K V → Tree K W → Call (Tree K V)} (h : ∀ x y, (recM x y).res = rec x y) :
    FstOp (pureOpL i j takeA takeB convA convB recM) (pureOp takeA takeB convA convB rec) where
  cmp _ _ := rfl
  fromA _ _ := rfl
  fromB _ _ := rfl
  collision s := by
    obtain ⟨⟨a, b, r⟩, c⟩ := s
    unfold pureOpL pureOp
    cases a with
    | nil => rfl
    | cons x as =>
      cases b with
      | nil => rfl
      | cons y bs => simp only [h x y]; cases rec x y <;> rfl

theorem pureOp_noStop {takeA takeB : Bool} {convA : Tree K V → Call (Tree K V)} {convB : Tree K W → Call (Tree K V)}
    {rec : Tree K V → Tree K W → Call (Tree K V)} : Hostile.NoStop (pureOp takeA takeB convA convB rec) :=
  ⟨fun s n => Hostile.slice_advA_noStop convA convB s n _, fun s n => Hostile.slice_advB_noStop convA convB s n _, fun s => by
    simp only [pureOp]
    split
    · split <;> exact nofun
    · exact nofun⟩

/-- so far, all calls for the elements that are gone have been counted -/
def Counted (i j : Nat) (exact : Prop) (T1 T2 : Nat) (s : SliceMS (Tree K V) (Tree K W) (Tree K V) × Seen) : Prop :=
  s.2.left + i * nodes.nodesL s.1.a = T1 ∧ s.2.right + j * nodes.nodesL s.1.b ≤ T2 ∧ (exact → T2 ≤ s.2.right + j * nodes.nodesL s.1.b)

theorem pureOpL_counts {i j : Nat} {takeB : Bool} {convA : Tree K V → Call (Tree K V)} {convB : Tree K W → Call (Tree K V)}
    {recM : Tree K V → Tree K W → Noted (Call (Tree K V))}
    (h : ∀ x y r, (recM x y).res = .ret r → (recM x y).seen.left = i * x.nodes ∧ (recM x y).seen.right ≤ j * y.nodes ∧
      (takeB = true → j * y.nodes ≤ (recM x y).seen.right)) (T1 T2 : Nat) :
    KeepsCont (Counted i j (takeB = true) T1 T2) (pureOpL i j true takeB convA convB recM) where
  fromA s n hs hc := by
    obtain ⟨h1, h2⟩ := hs
    obtain ⟨⟨a, b, r⟩, c⟩ := s
    have hl : ¬ a.length < n := fun hl => by simp [pureOpL, SliceMS.mut, hl] at hc
    have e := nodes_take_drop n a
    simp only [pureOpL, SliceMS.mut, if_neg hl, Seen.add, copyCallsL_eq, Counted, Nat.add_zero, if_true, if_pos] at h1 h2 ⊢
    refine ⟨?_, h2⟩
    rw [e, Nat.mul_add] at h1
    omega
  fromB s n hs hc := by
    obtain ⟨h1, h2, h3⟩ := hs
    obtain ⟨⟨a, b, r⟩, c⟩ := s
    have hl : ¬ b.length < n := fun hl => by simp [pureOpL, SliceMS.mut, hl] at hc
    have e := nodes_take_drop n b
    simp only at h1 h2 h3
    rw [e, Nat.mul_add] at h2 h3
    cases takeB with
    | true =>
      have h3 := h3 rfl
      simp only [pureOpL, SliceMS.mut, if_neg hl, Seen.add, copyCallsL_eq, Counted, Nat.add_zero, if_true]
      exact ⟨h1, by omega, fun _ => by omega⟩
    | false =>
      simp only [pureOpL, SliceMS.mut, if_neg hl, Seen.add, Counted, Nat.add_zero, Bool.false_eq_true, if_false]
      exact ⟨h1, by omega, fun h => nomatch h⟩
  collision s hs hc := by
    obtain ⟨h1, h2, h3⟩ := hs
    obtain ⟨⟨a, b, r⟩, c⟩ := s
    unfold pureOpL at hc ⊢
    cases a with
    | nil => cases hc
    | cons x as =>
      cases b with
      | nil => cases hc
      | cons y bs =>
        simp only at hc h1 h2 h3 ⊢
        cases hr : (recM x y).res with
        | panic => rw [hr] at hc; cases hc
        | ret t =>
          obtain ⟨g1, g2, g3⟩ := h x y t hr
          simp only [nodes.nodesL, Nat.mul_add, Seen.add, Counted] at h1 h2 h3 ⊢
          refine ⟨by omega, by omega, fun ht => ?_⟩
          have := h3 ht
          have := g3 ht
          omega

theorem mergeChildrenL_ok {i j : Nat} {takeB : Bool} {convA : Tree K V → Call (Tree K V)} {convB : Tree K W → Call (Tree K V)}
    {recM : Tree K V → Tree K W → Noted (Call (Tree K V))} {rec : Tree K V → Tree K W → Call (Tree K V)} (hr : ∀ x y, (recM x y).res = rec x y)
    (h : ∀ x y r, (recM x y).res = .ret r → (recM x y).seen.left = i * x.nodes ∧ (recM x y).seen.right ≤ j * y.nodes ∧
      (takeB = true → j * y.nodes ≤ (recM x y).seen.right)) (as : List (Tree K V)) (bs : List (Tree K W)) :
    (mergeChildrenL (pureOpL i j true takeB convA convB recM) as bs).res = mergeChildren (pureOp true takeB convA convB rec) as bs ∧
    ∀ ks, mergeChildren (pureOp true takeB convA convB rec) as bs = .ret ks →
      (mergeChildrenL (pureOpL i j true takeB convA convB recM) as bs).seen.left = i * nodes.nodesL as ∧
      (mergeChildrenL (pureOpL i j true takeB convA convB recM) as bs).seen.right ≤ j * nodes.nodesL bs ∧
      (takeB = true → j * nodes.nodesL bs ≤ (mergeChildrenL (pureOpL i j true takeB convA convB recM) as bs).seen.right) := by
  unfold mergeChildrenL mergeChildren
  cases hh : headed as && headed bs with
  | false => exact ⟨rfl, nofun⟩
  | true =>
    rw [Bool.and_eq_true] at hh
    have g := binaryMerge_fst (pureOpL_fst (i := i) (j := j) (takeA := true) (takeB := takeB) (convA := convA) (convB := convB) hr) as.length bs.length
      (({ a := as, b := bs, r := [] } : SliceMS (Tree K V) (Tree K W) (Tree K V)), Seen.zero)
    have k := binaryMerge_keeps (pureOpL_counts (i := i) (j := j) (takeB := takeB) (convA := convA) (convB := convB) h (i * nodes.nodesL as) (j * nodes.nodesL bs)) as.length bs.length
      (({ a := as, b := bs, r := [] } : SliceMS (Tree K V) (Tree K W) (Tree K V)), Seen.zero)
      ⟨by simp [Seen.zero], by simp [Seen.zero], fun _ => by simp⟩
    have d := (drive_atMost (C := leftC) (pureOp_marks (takeA := true) (takeB := takeB) (convA := convA) (convB := convB) (pa := fun x : Tree K V => x.pre ≠ [])
      (pb := fun y : Tree K W => y.pre ≠ []) (ca := fun _ => 0) (cb := fun _ => 0) (recM := fun x y => pure (rec x y)) (rec := rec) (fun _ h => h) (fun _ h => h)
      (fun x y _ _ => AtMost.pure _ _))
      as.length bs.length ({ a := as, b := bs, r := [] } : SliceMS (Tree K V) (Tree K W) (Tree K V)) as [] bs []
      (by simp [MergeState.aSlice]) (by simp [MergeState.bSlice]) rfl rfl (headed_pre hh.1) (headed_pre hh.2)).2
    simp only [if_true, SliceMS.merge, mergeAll]
    have e1 : (MergeState.aSlice (({ a := as, b := bs, r := [] } : SliceMS (Tree K V) (Tree K W) (Tree K V)), Seen.zero)).length = as.length := rfl
    have e2 : (MergeState.bSlice (({ a := as, b := bs, r := [] } : SliceMS (Tree K V) (Tree K W) (Tree K V)), Seen.zero)).length = bs.length := rfl
    have e3 : (MergeState.aSlice ({ a := as, b := bs, r := [] } : SliceMS (Tree K V) (Tree K W) (Tree K V))).length = as.length := rfl
    have e4 : (MergeState.bSlice ({ a := as, b := bs, r := [] } : SliceMS (Tree K V) (Tree K W) (Tree K V))).length = bs.length := rfl
    rw [e1, e2, e3, e4]
    simp only at g
    have ns := binaryMerge_noStop (pureOp_noStop (takeA := true) (takeB := takeB) (convA := convA) (convB := convB) (rec := rec)) as.length bs.length
      ({ a := as, b := bs, r := [] } : SliceMS (Tree K V) (Tree K W) (Tree K V))
    rw [← g] at d ns ⊢
    generalize binaryMerge (pureOpL i j true takeB convA convB recM) (({ a := as, b := bs, r := [] } : SliceMS (Tree K V) (Tree K W) (Tree K V)), Seen.zero) as.length bs.length = q at k d ns ⊢
    obtain ⟨⟨⟨a, b, r⟩, c⟩, fl⟩ := q
    refine ⟨rfl, fun ks hk => ?_⟩
    cases fl with
    | panic => cases hk
    | stop => exact absurd rfl ns
    | cont =>
      obtain ⟨d1, d2⟩ := d rfl
      obtain ⟨k1, k2, k3⟩ := k rfl
      simp only [MergeState.aSlice, MergeState.bSlice] at d1 d2
      subst d1; subst d2
      simp only [nodes.nodesL, Nat.mul_zero, Nat.add_zero] at k1 k2 k3 ⊢
      exact ⟨k1, k2, k3⟩

omit [Ord K] [DecidableEq K] in
theorem nodes_eq' (t : Tree K V) : t.nodes = 1 + nodes.nodesL t.kids := by cases t; rfl

theorem bindC_ret {α β : Type} {c : Call α} {k : α → Call β} {r : β} (h : bindC c k = .ret r) : ∃ x, c = .ret x ∧ k x = .ret r := by
  cases c with
  | panic => cases h
  | ret x => exact ⟨x, rfl, h⟩

/-- the calls of `outerGo` -/
theorem outerGoL_ok (f : V → V → Option V) : ∀ (fuel i j : Nat) (a : Tree K V) (b : Tree K V),
    (outerGoL f fuel i j a b).res = outerGo f fuel a b ∧ ∀ r, outerGo f fuel a b = .ret r →
      (outerGoL f fuel i j a b).seen.left = i * a.nodes ∧ (outerGoL f fuel i j a b).seen.right ≤ j * b.nodes ∧
      (true = true → j * b.nodes ≤ (outerGoL f fuel i j a b).seen.right)
  | 0, _, _, _, _ => ⟨rfl, nofun⟩
  | fuel + 1, i, j, a, b => by
    have ih := fun (i j : Nat) (x : Tree K V) (y : Tree K V) => outerGoL_ok f fuel i j x y
    have mo := fun (i j : Nat) (as : List (Tree K V)) (bs : List (Tree K V)) => mergeChildrenL_ok (i := i) (j := j) (takeB := true) (convA := materialize) (convB := materialize)
      (fun x y => (ih i j x y).1) (fun x y r hr => (ih i j x y).2 r ((ih i j x y).1 ▸ hr)) as bs
    have ea := nodes_eq' a
    have eb := nodes_eq' b
    rw [outerGoL, outerGo]
    unfold outerCasesL outerCases
    generalize commonPrefix a.pre b.pre = n
    by_cases h1 : n = a.pre.length ∧ n = b.pre.length
    · rw [if_pos h1, if_pos h1]
      obtain ⟨m1, m2⟩ := mo i j a.kids b.kids
      refine ⟨by simp only [noted_bind_res, noted_pure_res, m1]; rfl, fun r hr => ?_⟩
      obtain ⟨ks, hk, _⟩ := bindC_ret hr
      obtain ⟨g1, g2, g3⟩ := m2 ks hk
      simp only [noted_bind_seen, noted_pure_seen, seeL, seeR, Seen.add, Seen.zero, ea, eb, Nat.mul_add, Nat.mul_one]
      refine ⟨by omega, by omega, fun ht => ?_⟩
      have := g3 (by simpa using ht)
      omega
    · rw [if_neg h1, if_neg h1]
      by_cases h2 : n = a.pre.length
      · rw [if_pos h2, if_pos h2]
        cases hm : b.materializeShortened n with
        | panic => exact ⟨rfl, nofun⟩
        | ret b' =>
          obtain ⟨m1, m2⟩ := mo i 0 a.kids [b']
          refine ⟨by simp only [bindCM, bindC, noted_bind_res, noted_pure_res, m1]; rfl, fun r hr => ?_⟩
          obtain ⟨_, e, hr⟩ := bindC_ret hr
          cases e
          obtain ⟨ks, hk, _⟩ := bindC_ret hr
          obtain ⟨g1, g2, g3⟩ := m2 ks hk
          simp only [bindCM, noted_bind_seen, noted_pure_seen, seeL, seeR, Seen.add, Seen.zero, ea, copyCalls_eq, Nat.mul_add, Nat.mul_one]
          exact ⟨by omega, by omega, fun ht => by omega⟩
      · rw [if_neg h2, if_neg h2]
        by_cases h3 : n = b.pre.length
        · rw [if_pos h3, if_pos h3]
          cases hm : a.materializeShortened n with
          | panic => exact ⟨rfl, nofun⟩
          | ret a' =>
            obtain ⟨m1, m2⟩ := mo 0 j [a'] b.kids
            refine ⟨by simp only [bindCM, bindC, noted_bind_res, noted_pure_res, m1]; rfl, fun r hr => ?_⟩
            obtain ⟨_, e, hr⟩ := bindC_ret hr
            cases e
            obtain ⟨ks, hk, _⟩ := bindC_ret hr
            obtain ⟨g1, g2, g3⟩ := m2 ks hk
            simp only [bindCM, noted_bind_seen, noted_pure_seen, seeL, seeR, Seen.add, Seen.zero, eb, copyCalls_eq, Nat.mul_add, Nat.mul_one]
            refine ⟨by omega, by omega, fun ht => ?_⟩
            have := g3 (by simpa using ht)
            omega
        · rw [if_neg h3, if_neg h3]
          cases hm : a.materializeShortened n with
          | panic => exact ⟨rfl, nofun⟩
          | ret a' =>
            refine ⟨rfl, fun r _ => ?_⟩
            simp only [bindCM, noted_bind_seen, noted_pure_seen, seeL, seeR, Seen.add, Seen.zero, copyCalls_eq]
            exact ⟨by omega, by omega, fun _ => by omega⟩

/-- the calls of `leftGo` -/
theorem leftGoL_ok (f : V → Option W → Option V) : ∀ (fuel i j : Nat) (a : Tree K V) (b : Tree K W),
    (leftGoL f fuel i j a b).res = leftGo f fuel a b ∧ ∀ r, leftGo f fuel a b = .ret r →
      (leftGoL f fuel i j a b).seen.left = i * a.nodes ∧ (leftGoL f fuel i j a b).seen.right ≤ j * b.nodes ∧
      (false = true → j * b.nodes ≤ (leftGoL f fuel i j a b).seen.right)
  | 0, _, _, _, _ => ⟨rfl, nofun⟩
  | fuel + 1, i, j, a, b => by
    have ih := fun (i j : Nat) (x : Tree K V) (y : Tree K W) => leftGoL_ok f fuel i j x y
    have mo := fun (i j : Nat) (as : List (Tree K V)) (bs : List (Tree K W)) => mergeChildrenL_ok (i := i) (j := j) (takeB := false) (convA := materialize) (convB := noConverter)
      (fun x y => (ih i j x y).1) (fun x y r hr => (ih i j x y).2 r ((ih i j x y).1 ▸ hr)) as bs
    have ea := nodes_eq' a
    have eb := nodes_eq' b
    rw [leftGoL, leftGo]
    unfold leftCasesL leftCases
    generalize commonPrefix a.pre b.pre = n
    by_cases h1 : n = a.pre.length ∧ n = b.pre.length
    · rw [if_pos h1, if_pos h1]
      obtain ⟨m1, m2⟩ := mo i j a.kids b.kids
      refine ⟨by simp only [noted_bind_res, noted_pure_res, m1]; rfl, fun r hr => ?_⟩
      obtain ⟨ks, hk, _⟩ := bindC_ret hr
      obtain ⟨g1, g2, g3⟩ := m2 ks hk
      simp only [noted_bind_seen, noted_pure_seen, seeL, seeR, Seen.add, Seen.zero, ea, eb, Nat.mul_add, Nat.mul_one]
      refine ⟨by omega, by omega, fun ht => ?_⟩
      have := g3 (by simpa using ht)
      omega
    · rw [if_neg h1, if_neg h1]
      by_cases h2 : n = a.pre.length
      · rw [if_pos h2, if_pos h2]
        cases hm : b.materializeShortened n with
        | panic => exact ⟨rfl, nofun⟩
        | ret b' =>
          obtain ⟨m1, m2⟩ := mo i 0 a.kids [b']
          refine ⟨by simp only [bindCM, bindC, noted_bind_res, noted_pure_res, m1]; rfl, fun r hr => ?_⟩
          obtain ⟨_, e, hr⟩ := bindC_ret hr
          cases e
          obtain ⟨ks, hk, _⟩ := bindC_ret hr
          obtain ⟨g1, g2, g3⟩ := m2 ks hk
          simp only [bindCM, noted_bind_seen, noted_pure_seen, seeL, seeR, Seen.add, Seen.zero, ea, copyCalls_eq, Nat.mul_add, Nat.mul_one]
          exact ⟨by omega, by omega, fun ht => by omega⟩
      · rw [if_neg h2, if_neg h2]
        by_cases h3 : n = b.pre.length
        · rw [if_pos h3, if_pos h3]
          cases hm : a.materializeShortened n with
          | panic => exact ⟨rfl, nofun⟩
          | ret a' =>
            obtain ⟨m1, m2⟩ := mo 0 j [a'] b.kids
            refine ⟨by simp only [bindCM, bindC, noted_bind_res, noted_pure_res, m1]; rfl, fun r hr => ?_⟩
            obtain ⟨_, e, hr⟩ := bindC_ret hr
            cases e
            obtain ⟨ks, hk, _⟩ := bindC_ret hr
            obtain ⟨g1, g2, g3⟩ := m2 ks hk
            simp only [bindCM, noted_bind_seen, noted_pure_seen, seeL, seeR, Seen.add, Seen.zero, eb, copyCalls_eq, Nat.mul_add, Nat.mul_one]
            refine ⟨by omega, by omega, fun ht => ?_⟩
            have := g3 (by simpa using ht)
            omega
        · rw [if_neg h3, if_neg h3]
          refine ⟨rfl, fun r _ => ?_⟩
          simp only [noted_bind_seen, noted_pure_seen, seeL, Seen.add, Seen.zero, ea, copyCallsL_eq, Nat.mul_add, Nat.mul_one]
          exact ⟨by omega, by omega, nofun⟩
end
end Verif.Tree
