import Verif.Lemmas.RadixWork
import Verif.Lemmas.RadixCost
/-! Counting in the recursive merges: the combinations. -/
namespace Verif
namespace Tree
open Std

section
variable {K V W : Type}

/-! ### Materializing -/

mutual
theorem materializeShortened_ret : ∀ (t : Tree K V) (n : Nat) (t' : Tree K V), t.materializeShortened n = .ret t' →
    n < t.pre.length ∧ t' = { pre := t.pre.drop n, val := t.val, kids := t.kids }
  | ⟨p, v, ks⟩, n, t', h => by
    rw [materializeShortened] at h
    split at h
    · rename_i hn
      cases hk : materializeKids ks with
      | panic => rw [hk] at h; cases h
      | ret ks' =>
        rw [hk] at h
        cases h
        rw [materializeKids_ret ks ks' hk]
        exact ⟨hn, rfl⟩
    · cases h
theorem materializeKids_ret : ∀ (ks ks' : List (Tree K V)), materializeKids ks = .ret ks' → ks' = ks
  | [], ks', h => by rw [materializeKids] at h; cases h; rfl
  | c :: cs, ks', h => by
    rw [materializeKids] at h
    cases hc : materializeShortened c 0 with
    | panic => rw [hc] at h; cases h
    | ret c' =>
      rw [hc] at h
      cases hcs : materializeKids cs with
      | panic => rw [hcs] at h; cases h
      | ret cs' =>
        rw [hcs] at h
        cases h
        rw [materializeKids_ret cs cs' hcs, (materializeShortened_ret c 0 c' hc).2]
        cases c; rfl
end

/-! ### Bounds -/

/-- bounds of a call for a pair of trees with non-empty prefixes, and of the merge of a list of children -/
def callUse (L : Nat) (t : Tree K V) : Use := ⟨t.components, (t.nodes + t.components - 1) * L, 2 * t.nodes⟩
def listUse (L : Nat) (ks : List (Tree K V)) : Use :=
  ⟨components.componentsL ks, (nodes.nodesL ks + components.componentsL ks) * L, 2 * nodes.nodesL ks⟩
def rootUse (L : Nat) (t : Tree K V) : Use := ⟨t.components, (t.nodes + t.components) * L, 2 * t.nodes⟩

theorem nodes_pos (t : Tree K V) : 1 ≤ t.nodes := by cases t; rw [nodes]; omega

theorem sumUse_callUse (L : Nat) : ∀ ks : List (Tree K V), cmpsOnly (ks.length * L) + sumUse (callUse L) ks = listUse L ks
  | [] => by apply Use.ext' <;> simp [sumUse, listUse, components.componentsL, nodes.nodesL]
  | c :: cs => by
    have ih := sumUse_callUse L cs
    have h1 := congrArg Use.eqs ih
    have h2 := congrArg Use.cmps ih
    have h3 := congrArg Use.sorted ih
    simp only [Use.add_eqs, Use.add_cmps, Use.add_sorted, cmpsOnly_eqs, cmpsOnly_cmps, cmpsOnly_sorted, listUse] at h1 h2 h3
    have hn := nodes_pos c
    obtain ⟨j, hj⟩ : ∃ j, c.nodes = j + 1 := ⟨c.nodes - 1, by omega⟩
    apply Use.ext'
    · simp only [sumUse, Use.add_eqs, cmpsOnly_eqs, listUse, callUse, components.componentsL]; omega
    · simp only [sumUse, Use.add_cmps, cmpsOnly_cmps, listUse, callUse, components.componentsL, nodes.nodesL, List.length_cons]
      rw [hj, show j + 1 + c.components - 1 = j + c.components by omega]
      rw [show j + 1 + nodes.nodesL cs + (c.components + components.componentsL cs) =
        1 + (j + c.components) + (nodes.nodesL cs + components.componentsL cs) by omega]
      simp only [Nat.add_mul, Nat.one_mul] at h2 ⊢
      omega
    · simp only [sumUse, Use.add_sorted, cmpsOnly_sorted, listUse, callUse, nodes.nodesL]; omega

/-! ### Comparing heads, common prefixes -/

variable [Ord K] [DecidableEq K]

theorem headsCmp_spent (a : Tree K V) (b : Tree K W) (ha : a.pre ≠ []) (hb : b.pre ≠ []) :
    Spent (headsCmpM countCmp a b) (headCmp a b) (cmpsOnly 1) := by
  unfold headsCmpM headCmp
  cases hp : a.pre with
  | nil => exact absurd hp ha
  | cons x p =>
    cases hq : b.pre with
    | nil => exact absurd hq hb
    | cons y q => exact fun w => rfl

/-- `n` tests of equality -/
def eqsOnly (n : Nat) : Use := ⟨n, 0, 0⟩

theorem commonPrefix_spent : ∀ (p q : List K), ∃ k, Spent (commonPrefixM countEq p q) (commonPrefix p q) (eqsOnly k) ∧
    ((commonPrefix p q = p.length ∨ commonPrefix p q = q.length) → k = commonPrefix p q) ∧
    (commonPrefix p q < p.length → commonPrefix p q < q.length → k = commonPrefix p q + 1)
  | [], q => ⟨0, by cases q <;> exact Spent.pure _, by cases q <;> simp [commonPrefix], fun h => by simp [commonPrefix] at h⟩
  | x :: p, [] => ⟨0, Spent.pure _, by simp [commonPrefix], fun _ h => by simp [commonPrefix] at h⟩
  | x :: p, y :: q => by
    have h1 : Spent (countEq x y) (decide (x = y)) (eqsOnly 1) := fun w => rfl
    by_cases hxy : x = y
    · obtain ⟨k, h2, h3, h4⟩ := commonPrefix_spent p q
      rw [commonPrefix, if_pos hxy, commonPrefixM]
      refine ⟨1 + k, ?_, ?_, ?_⟩
      · have := Spent.bind h1 (f := fun b => if b then do
            let n ← commonPrefixM countEq p q
            pure (n + 1)
          else pure 0) (r' := commonPrefix p q + 1) (u' := eqsOnly k) (by
            simp only [hxy, decide_true, ↓reduceIte]
            exact Spent.map h2 (· + 1))
        rwa [show eqsOnly 1 + eqsOnly k = eqsOnly (1 + k) from rfl] at this
      · intro h
        simp only [List.length_cons] at h
        have := h3 (by omega)
        omega
      · intro h h'
        simp only [List.length_cons] at h h'
        have := h4 (by omega) (by omega)
        omega
    · rw [commonPrefix, if_neg hxy, commonPrefixM]
      refine ⟨1, ?_, ?_, fun _ _ => rfl⟩
      · have := Spent.bind h1 (f := fun b => if b then do
            let n ← commonPrefixM countEq p q
            pure (n + 1)
          else pure 0) (r' := 0) (u' := 0) (by
            rw [decide_eq_false hxy]
            exact Spent.pure _)
        rwa [Use.add_zero] at this
      · simp

/-! ### One step -/

/-- what the part of a step after comparing the prefixes may spend -/
def StepUse (LA LB : Nat) (n : Nat) (x : Tree K V) (y : Tree K W) (u : Use) : Prop :=
  (n = x.pre.length → n = y.pre.length → u ≤ listUse LA x.kids ∧ u ≤ listUse LB y.kids) ∧
  (n = x.pre.length → n < y.pre.length → u ≤ listUse LA x.kids ∧ u ≤ listUse LB [{ pre := y.pre.drop n, val := y.val, kids := y.kids }]) ∧
  (n < x.pre.length → n = y.pre.length → u ≤ listUse LA [{ pre := x.pre.drop n, val := x.val, kids := x.kids }] ∧ u ≤ listUse LB y.kids) ∧
  (n < x.pre.length → n < y.pre.length → u ≤ ⟨0, 0, 2⟩)

theorem StepUse.zero {LA LB n : Nat} {x : Tree K V} {y : Tree K W} : StepUse LA LB n x y 0 := by
  simp [StepUse, Use.le_def]

theorem listUse_single (L n : Nat) (x : Tree K V) (hn : n ≤ x.pre.length) :
    (listUse L [{ pre := x.pre.drop n, val := x.val, kids := x.kids }]) =
      ⟨x.components - n, (x.nodes + (x.components - n)) * L, 2 * x.nodes⟩ := by
  obtain ⟨p, v, ks⟩ := x
  simp only at hn
  simp only [listUse, nodes.nodesL, components.componentsL, nodes, components, List.length_drop]
  have : p.length - n + components.componentsL ks + 0 = p.length + components.componentsL ks - n := by omega
  rw [this]
  rfl

theorem stepUse_bound {LA LB k : Nat} {x : Tree K V} {y : Tree K W} {u : Use} (h : StepUse LA LB (commonPrefix x.pre y.pre) x y u)
    (hk1 : (commonPrefix x.pre y.pre = x.pre.length ∨ commonPrefix x.pre y.pre = y.pre.length) → k = commonPrefix x.pre y.pre)
    (hk2 : commonPrefix x.pre y.pre < x.pre.length → commonPrefix x.pre y.pre < y.pre.length → k = commonPrefix x.pre y.pre + 1) :
    (eqsOnly k + u ≤ rootUse LA x ∧ eqsOnly k + u ≤ rootUse LB y) ∧
    (x.pre ≠ [] → y.pre ≠ [] → eqsOnly k + u ≤ callUse LA x ∧ eqsOnly k + u ≤ callUse LB y) := by
  have l1 := commonPrefix_le_left x.pre y.pre
  have l2 := commonPrefix_le_right x.pre y.pre
  obtain ⟨g1, g2, g3, g4⟩ := h
  have s1 := listUse_single LA _ x l1
  have s2 := listUse_single LB _ y l2
  generalize commonPrefix x.pre y.pre = n at *
  have px : x.pre ≠ [] → 1 ≤ x.pre.length := fun h => List.length_pos_iff.2 h
  have py : y.pre ≠ [] → 1 ≤ y.pre.length := fun h => List.length_pos_iff.2 h
  have kx : listUse LA x.kids = ⟨x.components - x.pre.length, (x.nodes + x.components - 1 - x.pre.length) * LA, 2 * (x.nodes - 1)⟩ := by
    obtain ⟨p, v, ks⟩ := x
    apply Use.ext' <;> simp only [listUse, nodes, components]
    · omega
    · congr 1; omega
    · omega
  have ky : listUse LB y.kids = ⟨y.components - y.pre.length, (y.nodes + y.components - 1 - y.pre.length) * LB, 2 * (y.nodes - 1)⟩ := by
    obtain ⟨p, v, ks⟩ := y
    apply Use.ext' <;> simp only [listUse, nodes, components]
    · omega
    · congr 1; omega
    · omega
  have cx : x.pre.length ≤ x.components := by cases x; simp [components]
  have cy : y.pre.length ≤ y.components := by cases y; simp [components]
  have nx := nodes_pos x
  have ny := nodes_pos y
  have mx : ∀ i, 1 ≤ i → i ≤ x.components → (x.nodes + (x.components - i)) * LA ≤ (x.nodes + x.components - 1) * LA := fun i hi hi' => Nat.mul_le_mul_right _ (by omega)
  have my : ∀ i, 1 ≤ i → i ≤ y.components → (y.nodes + (y.components - i)) * LB ≤ (y.nodes + y.components - 1) * LB := fun i hi hi' => Nat.mul_le_mul_right _ (by omega)
  have mx0 : ∀ i, (x.nodes + (x.components - i)) * LA ≤ (x.nodes + x.components) * LA := fun i => Nat.mul_le_mul_right _ (by omega)
  have my0 : ∀ i, (y.nodes + (y.components - i)) * LB ≤ (y.nodes + y.components) * LB := fun i => Nat.mul_le_mul_right _ (by omega)
  have mx1 : ∀ i, (x.nodes + x.components - 1 - i) * LA ≤ (x.nodes + x.components - 1) * LA := fun i => Nat.mul_le_mul_right _ (by omega)
  have my1 : ∀ i, (y.nodes + y.components - 1 - i) * LB ≤ (y.nodes + y.components - 1) * LB := fun i => Nat.mul_le_mul_right _ (by omega)
  have mx2 : (x.nodes + x.components - 1) * LA ≤ (x.nodes + x.components) * LA := Nat.mul_le_mul_right _ (by omega)
  have my2 : (y.nodes + y.components - 1) * LB ≤ (y.nodes + y.components) * LB := Nat.mul_le_mul_right _ (by omega)
  rw [kx] at g1 g2
  rw [ky] at g1 g3
  rw [s1] at g3
  rw [s2] at g2
  simp only [Use.le_def, Use.add_eqs, Use.add_cmps, Use.add_sorted, eqsOnly, rootUse, callUse] at *
  have mxn := mx n
  have myn := my n
  have mx0n := mx0 n
  have my0n := my0 n
  have mx1n := mx1 x.pre.length
  have my1n := my1 y.pre.length
  clear mx my mx0 my0 mx1 my1 kx ky s1 s2
  generalize (x.nodes + x.components) * LA = M1 at *
  generalize (y.nodes + y.components) * LB = M2 at *
  generalize (x.nodes + x.components - 1) * LA = M3 at *
  generalize (y.nodes + y.components - 1) * LB = M4 at *
  generalize (x.nodes + x.components - 1 - x.pre.length) * LA = M5 at *
  generalize (y.nodes + y.components - 1 - y.pre.length) * LB = M6 at *
  generalize (x.nodes + (x.components - n)) * LA = M7 at *
  generalize (y.nodes + (y.components - n)) * LB = M8 at *
  rcases Nat.lt_or_eq_of_le l1 with h1 | h1 <;> rcases Nat.lt_or_eq_of_le l2 with h2 | h2
  · have := g4 h1 h2
    have := hk2 h1 h2
    refine ⟨⟨by omega, by omega⟩, fun _ _ => ⟨by omega, by omega⟩⟩
  · have := g3 h1 h2
    have := hk1 (.inr h2)
    refine ⟨⟨by omega, by omega⟩, fun p1 p2 => ?_⟩
    have := px p1
    have := py p2
    have := mxn (by omega) (by omega)
    exact ⟨by omega, by omega⟩
  · have := g2 h1 h2
    have := hk1 (.inl h1)
    refine ⟨⟨by omega, by omega⟩, fun p1 p2 => ?_⟩
    have := px p1
    have := py p2
    have := myn (by omega) (by omega)
    exact ⟨by omega, by omega⟩
  · have := g1 h1 h2
    have := hk1 (.inr h2)
    exact ⟨⟨by omega, by omega⟩, fun _ _ => ⟨by omega, by omega⟩⟩

/-! ### Merging children -/

/-- no empty prefix, at most `w` children per node -/
def Fit (w : Nat) (t : Tree K V) : Prop := t.pre ≠ [] ∧ Narrow w t

/-- a function on pairs of children, its counted version, and what it may spend -/
def Calls {R : Type} (wa wb LA LB : Nat) (recM : Tree K V → Tree K W → Counts R) (rec : Tree K V → Tree K W → R) : Prop :=
  ∀ x y, Fit wa x → Fit wb y → ∃ u, Spent (recM x y) (rec x y) u ∧ u ≤ callUse LA x ∧ u ≤ callUse LB y

theorem extendFromIter_step {A B : Type} (conv : B → Call A) : ∀ (n : Nat) (s : InPlaceMS A B), n ≤ s.b.length →
    (s.extendFromIter conv n).2 = .cont → (s.extendFromIter conv n).1.b = s.b.drop n ∧ (s.extendFromIter conv n).1.src = s.src
  | 0, s, _, _ => ⟨rfl, rfl⟩
  | n + 1, ⟨tgt, src, []⟩, h, _ => by simp at h
  | n + 1, ⟨tgt, src, x :: xs⟩, h, hc => by
    rw [InPlaceMS.extendFromIter] at hc ⊢
    simp only at hc ⊢
    cases hx : conv x with
    | panic => rw [hx] at hc; cases hc
    | ret y =>
      rw [hx] at hc
      exact extendFromIter_step conv n ⟨tgt ++ [y], src, xs⟩ (by simpa using h) hc

theorem skipB_step {A B : Type} : ∀ (n : Nat) (s : InPlaceMS A B), (s.skipB n).b = s.b.drop n ∧ (s.skipB n).src = s.src
  | 0, s => ⟨rfl, rfl⟩
  | n + 1, ⟨tgt, src, b⟩ => by
    rw [InPlaceMS.skipB]
    have := skipB_step n (⟨tgt, src, b.tail⟩ : InPlaceMS A B)
    refine ⟨this.1.trans ?_, this.2⟩
    cases b <;> simp

theorem consume_step {A B : Type} (s : InPlaceMS A B) (n : Nat) (take : Bool) (h : n ≤ s.src.length) :
    (s.consume n take).src = s.src.drop n ∧ (s.consume n take).b = s.b := by
  unfold InPlaceMS.consume
  rw [Nat.min_eq_left h]
  cases take <;> exact ⟨rfl, rfl⟩

theorem inPlaceOp_mirrors {wa wb LA LB : Nat} {takeA takeB : Bool} {conv : Tree K W → Call (Tree K V)}
    {recM : Tree K V → Tree K W → Counts (Tree K V × Flow)} {rec : Tree K V → Tree K W → Tree K V × Flow} (H : Calls wa wb LA LB recM rec) :
    Mirrors (inPlaceOpM countCmp takeA takeB conv recM) (inPlaceOp takeA takeB conv rec) (Fit wa) (Fit wb) (callUse LA) (callUse LB) components (fun _ => 0) where
  fromA := rfl
  fromB := rfl
  cmp x y hx hy := headsCmp_spent x y hx.1 hy.1
  collision s x as y bs hs hs' hx hy := by
    obtain ⟨u, h1, h2, h3⟩ := H x y hx hy
    obtain ⟨tgt, src, b⟩ := s
    obtain rfl : src = x :: as := hs
    obtain rfl : b = y :: bs := hs'
    exact ⟨u, Spent.map h1 (fun r => andThen (({ tgt := tgt, src := r.1 :: as, b := y :: bs } : InPlaceMS (Tree K V) (Tree K W)), r.2) fun s =>
        andThen ((InPlaceMS.mut conv).advanceA s 1 (!r.1.isEmpty)) fun s =>
        (InPlaceMS.mut conv).advanceB s 1 false), h2, h3, h2.1⟩
  stepA s n hn _ := consume_step s n takeA hn
  stepB s n hn hc := by
    cases takeB with
    | true => exact extendFromIter_step conv n s hn hc
    | false => exact skipB_step n s
  stepC s x as y bs hs hs' hc := by
    obtain ⟨tgt, src, b⟩ := s
    obtain rfl : src = x :: as := hs
    obtain rfl : b = y :: bs := hs'
    have e : (inPlaceOp takeA takeB conv rec).collision ⟨tgt, x :: as, y :: bs⟩ =
      andThen (({ tgt := tgt, src := (rec x y).1 :: as, b := y :: bs } : InPlaceMS (Tree K V) (Tree K W)), (rec x y).2) fun s =>
        andThen ((InPlaceMS.mut conv).advanceA s 1 (!(rec x y).1.isEmpty)) fun s =>
        (InPlaceMS.mut conv).advanceB s 1 false := rfl
    rw [e] at hc ⊢
    clear e
    generalize rec x y = R at hc ⊢
    obtain ⟨r1, fl⟩ := R
    cases fl with
    | stop => cases hc
    | panic => cases hc
    | cont =>
      have g := consume_step (⟨tgt, r1 :: as, y :: bs⟩ : InPlaceMS (Tree K V) (Tree K W)) 1 (!r1.isEmpty) (by simp)
      exact ⟨g.1, congrArg List.tail g.2⟩

theorem pureOp_mirrors {wa wb LA LB : Nat} {takeA takeB : Bool} {convA : Tree K V → Call (Tree K V)} {convB : Tree K W → Call (Tree K V)}
    {recM : Tree K V → Tree K W → Counts (Call (Tree K V))} {rec : Tree K V → Tree K W → Call (Tree K V)} (H : Calls wa wb LA LB recM rec) :
    Mirrors (pureOpM countCmp takeA takeB convA convB recM) (pureOp takeA takeB convA convB rec) (Fit wa) (Fit wb) (callUse LA) (callUse LB) components (fun _ => 0) where
  fromA := rfl
  fromB := rfl
  cmp x y hx hy := headsCmp_spent x y hx.1 hy.1
  collision s x as y bs hs hs' hx hy := by
    obtain ⟨u, h1, h2, h3⟩ := H x y hx hy
    obtain ⟨a, b, r⟩ := s
    obtain rfl : a = x :: as := hs
    obtain rfl : b = y :: bs := hs'
    refine ⟨u, ?_, h2, h3, h2.1⟩
    have := Spent.bind h1 (f := fun c => match c with
      | .panic => pure (({ a := as, b := bs, r := r } : SliceMS (Tree K V) (Tree K W) (Tree K V)), Flow.panic)
      | .ret t => pure ({ a := as, b := bs, r := if t.isEmpty then r else r ++ [t] }, Flow.cont))
      (r' := match rec x y with
        | .panic => ({ a := as, b := bs, r := r }, Flow.panic)
        | .ret t => ({ a := as, b := bs, r := if t.isEmpty then r else r ++ [t] }, Flow.cont)) (u' := 0) (by cases rec x y <;> exact Spent.pure _)
    rw [Use.add_zero] at this
    exact this
  stepA s n hn hc := by
    have e : (pureOp takeA takeB convA convB rec).fromA s n = (SliceMS.mut convA convB).advanceA s n takeA := rfl
    have hl : ¬ s.a.length < n := Nat.not_lt.2 hn
    rw [e]
    simp only [SliceMS.mut, if_neg hl]
    cases takeA <;> exact ⟨rfl, rfl⟩
  stepB s n hn hc := by
    have e : (pureOp takeA takeB convA convB rec).fromB s n = (SliceMS.mut convA convB).advanceB s n takeB := rfl
    have hl : ¬ s.b.length < n := Nat.not_lt.2 hn
    rw [e]
    simp only [SliceMS.mut, if_neg hl]
    cases takeB <;> exact ⟨rfl, rfl⟩
  stepC s x as y bs hs hs' hc := by
    obtain ⟨a, b, r⟩ := s
    obtain rfl : a = x :: as := hs
    obtain rfl : b = y :: bs := hs'
    simp only [pureOp] at hc ⊢
    cases hr : rec x y with
    | panic => rw [hr] at hc; cases hc
    | ret t => exact ⟨rfl, rfl⟩

theorem headed_fit {w : Nat} {ks : List (Tree K V)} (h : headed ks = true) (hw : ∀ c ∈ ks, Narrow w c) : ∀ c ∈ ks, Fit w c := fun c hc => by
  obtain ⟨x, p, e⟩ := headed_mem h hc
  exact ⟨by rw [e]; simp, hw c hc⟩

theorem searches_le {LA LB wa wb an bn : Nat} (hLA : LA = Nat.log2 wb + 2) (hLB : LB = (Nat.log2 wa + 1) * (Nat.log2 wb + 2)) (ha : an ≤ wa) (hb : bn ≤ wb) :
    searchesA an bn ≤ an * LA ∧ searchesB an bn ≤ bn * LB := by
  subst hLA hLB
  refine ⟨Nat.mul_le_mul_left _ (Nat.add_le_add_right (log2_mono hb) 2), ?_⟩
  unfold searchesB pivots
  have h1 := log2_mono ha
  have h2 := log2_mono hb
  have e : bn * ((Nat.log2 wa + 1) * (Nat.log2 wb + 2)) = (Nat.log2 wa + 1) * (bn * (Nat.log2 wb + 2)) := Nat.mul_left_comm ..
  rw [e]
  refine Nat.mul_le_mul ?_ (Nat.mul_le_mul_left _ (by omega))
  split <;> omega

/-- merging two lists of children -/
theorem driveAll_spent {σ : Type} [MergeState σ (Tree K V) (Tree K W)] {opM : MergeOpM Counts σ (Tree K V) (Tree K W)}
    {op : MergeOp σ (Tree K V) (Tree K W)} {wa wb LA LB : Nat} (hLA : LA = Nat.log2 wb + 2) (hLB : LB = (Nat.log2 wa + 1) * (Nat.log2 wb + 2))
    (H : Mirrors opM op (Fit wa) (Fit wb) (callUse LA) (callUse LB) components (fun _ => 0)) {s : σ} {as : List (Tree K V)} {bs : List (Tree K W)}
    (ha : MergeState.aSlice s = as) (hb : MergeState.bSlice s = bs) (fa : ∀ x ∈ as, Fit wa x) (fb : ∀ y ∈ bs, Fit wb y)
    (la : as.length ≤ wa) (lb : bs.length ≤ wb) :
    ∃ u, Spent (driveAllM opM s) (mergeAll op s) u ∧ u ≤ listUse LA as ∧ u ≤ listUse LB bs := by
  obtain ⟨u, h1, h2, h3, _⟩ := drive_spent H as.length bs.length s as [] bs [] (by rw [ha]; simp) (by rw [hb]; simp) rfl rfl fa fb
  obtain ⟨g1, g2⟩ := searches_le hLA hLB la lb
  refine ⟨u, ?_, ?_, ?_⟩
  · unfold driveAllM mergeAll
    rw [ha, hb]
    exact h1
  · rw [← sumUse_callUse]
    simp only [Use.le_def, Use.add_eqs, Use.add_cmps, Use.add_sorted, cmpsOnly_eqs, cmpsOnly_cmps, cmpsOnly_sorted] at *
    omega
  · rw [← sumUse_callUse]
    simp only [Use.le_def, Use.add_eqs, Use.add_cmps, Use.add_sorted, cmpsOnly_eqs, cmpsOnly_cmps, cmpsOnly_sorted] at *
    omega

theorem Use.zero_le' (u : Use) : (0 : Use) ≤ u := ⟨Nat.zero_le _, Nat.zero_le _, Nat.zero_le _⟩

theorem childrenWith_spent {opM : MergeOpM Counts (InPlaceMS (Tree K V) (Tree K W)) (Tree K V) (Tree K W)}
    {op : MergeOp (InPlaceMS (Tree K V) (Tree K W)) (Tree K V) (Tree K W)} {wa wb LA LB : Nat} (hLA : LA = Nat.log2 wb + 2)
    (hLB : LB = (Nat.log2 wa + 1) * (Nat.log2 wb + 2)) (H : Mirrors opM op (Fit wa) (Fit wb) (callUse LA) (callUse LB) components (fun _ => 0))
    {t : Tree K V} {rhs : List (Tree K W)} (na : ∀ x ∈ t.kids, Narrow wa x) (nb : ∀ y ∈ rhs, Narrow wb y) (la : t.kids.length ≤ wa) (lb : rhs.length ≤ wb) :
    ∃ u, Spent (childrenWithM opM t rhs) (childrenWith op t rhs) u ∧ u ≤ listUse LA t.kids ∧ u ≤ listUse LB rhs := by
  unfold childrenWithM childrenWith
  cases hh : headed t.kids && headed rhs with
  | false => exact ⟨0, Spent.pure _, Use.zero_le' _, Use.zero_le' _⟩
  | true =>
    rw [Bool.and_eq_true] at hh
    obtain ⟨u, h1, h2, h3⟩ := driveAll_spent hLA hLB H (s := ({ tgt := [], src := t.kids, b := rhs } : InPlaceMS (Tree K V) (Tree K W))) rfl rfl
      (headed_fit hh.1 na) (headed_fit hh.2 nb) la lb
    simp only [↓reduceIte]
    exact ⟨u, Spent.map h1 (fun r => (({ t with kids := r.1.tgt } : Tree K V), r.2)), h2, h3⟩

theorem mergeChildren_spent {opM : MergeOpM Counts (SliceMS (Tree K V) (Tree K W) (Tree K V)) (Tree K V) (Tree K W)}
    {op : MergeOp (SliceMS (Tree K V) (Tree K W) (Tree K V)) (Tree K V) (Tree K W)} {wa wb LA LB : Nat} (hLA : LA = Nat.log2 wb + 2)
    (hLB : LB = (Nat.log2 wa + 1) * (Nat.log2 wb + 2)) (H : Mirrors opM op (Fit wa) (Fit wb) (callUse LA) (callUse LB) components (fun _ => 0))
    {as : List (Tree K V)} {rhs : List (Tree K W)} (na : ∀ x ∈ as, Narrow wa x) (nb : ∀ y ∈ rhs, Narrow wb y) (la : as.length ≤ wa) (lb : rhs.length ≤ wb) :
    ∃ u, Spent (mergeChildrenM opM as rhs) (mergeChildren op as rhs) u ∧ u ≤ listUse LA as ∧ u ≤ listUse LB rhs := by
  unfold mergeChildrenM mergeChildren
  cases hh : headed as && headed rhs with
  | false => exact ⟨0, Spent.pure _, Use.zero_le' _, Use.zero_le' _⟩
  | true =>
    rw [Bool.and_eq_true] at hh
    obtain ⟨u, h1, h2, h3⟩ := driveAll_spent hLA hLB H (s := ({ a := as, b := rhs, r := [] } : SliceMS (Tree K V) (Tree K W) (Tree K V))) rfl rfl
      (headed_fit hh.1 na) (headed_fit hh.2 nb) la lb
    refine ⟨u, ?_, h2, h3⟩
    have := Spent.bind h1 (f := fun r => match r.2 with
      | .panic => pure Call.panic
      | _ => pure (Call.ret r.1.r)) (r' := match (mergeAll op { a := as, b := rhs, r := [] }).2 with
      | .panic => .panic
      | _ => .ret (mergeAll op { a := as, b := rhs, r := [] }).1.r) (u' := 0) (by
        cases (mergeAll op { a := as, b := rhs, r := [] }).2 <;> exact Spent.pure _)
    rw [Use.add_zero] at this
    exact this

/-! ### The cases -/

theorem narrow_split {w : Nat} {t : Tree K V} (n : Nat) (h : Narrow w t) : Narrow w { pre := t.pre.drop n, val := t.val, kids := t.kids } :=
  .mk (narrow_iff.1 h).1 (narrow_iff.1 h).2

/-- a step of an in-place combination: `op` is the merge of children -/
structure InStep (wa wb LA LB : Nat) (opM : MergeOpM Counts (InPlaceMS (Tree K V) (Tree K W)) (Tree K V) (Tree K W))
    (op : MergeOp (InPlaceMS (Tree K V) (Tree K W)) (Tree K V) (Tree K W)) (x : Tree K V) (y : Tree K W) : Prop where
  kids : ∀ v, ∃ u, Spent (childrenWithM opM { x with val := v } y.kids) (childrenWith op { x with val := v } y.kids) u ∧
    u ≤ listUse LA x.kids ∧ u ≤ listUse LB y.kids
  shortB : ∀ v n, ∃ u, Spent (childrenWithM opM { x with val := v } [{ pre := y.pre.drop n, val := y.val, kids := y.kids }])
    (childrenWith op { x with val := v } [{ pre := y.pre.drop n, val := y.val, kids := y.kids }]) u ∧
    u ≤ listUse LA x.kids ∧ u ≤ listUse LB [{ pre := y.pre.drop n, val := y.val, kids := y.kids }]
  splitA : ∀ p v n, ∃ u, Spent (childrenWithM opM { pre := p, val := v, kids := [{ pre := x.pre.drop n, val := x.val, kids := x.kids }] } y.kids)
    (childrenWith op { pre := p, val := v, kids := [{ pre := x.pre.drop n, val := x.val, kids := x.kids }] } y.kids) u ∧
    u ≤ listUse LA [{ pre := x.pre.drop n, val := x.val, kids := x.kids }] ∧ u ≤ listUse LB y.kids

theorem InStep.kids0 {wa wb LA LB : Nat} {opM : MergeOpM Counts (InPlaceMS (Tree K V) (Tree K W)) (Tree K V) (Tree K W)}
    {op : MergeOp (InPlaceMS (Tree K V) (Tree K W)) (Tree K V) (Tree K W)} {x : Tree K V} {y : Tree K W} (H : InStep wa wb LA LB opM op x y) :
    ∃ u, Spent (childrenWithM opM x y.kids) (childrenWith op x y.kids) u ∧ u ≤ listUse LA x.kids ∧ u ≤ listUse LB y.kids := by
  have := H.kids x.val
  cases x; exact this

theorem InStep.shortB0 {wa wb LA LB : Nat} {opM : MergeOpM Counts (InPlaceMS (Tree K V) (Tree K W)) (Tree K V) (Tree K W)}
    {op : MergeOp (InPlaceMS (Tree K V) (Tree K W)) (Tree K V) (Tree K W)} {x : Tree K V} {y : Tree K W} (H : InStep wa wb LA LB opM op x y) (n : Nat) :
    ∃ u, Spent (childrenWithM opM x [{ pre := y.pre.drop n, val := y.val, kids := y.kids }])
      (childrenWith op x [{ pre := y.pre.drop n, val := y.val, kids := y.kids }]) u ∧
      u ≤ listUse LA x.kids ∧ u ≤ listUse LB [{ pre := y.pre.drop n, val := y.val, kids := y.kids }] := by
  have := H.shortB x.val n
  cases x; exact this

theorem inStep {wa wb LA LB : Nat} (hLA : LA = Nat.log2 wb + 2) (hLB : LB = (Nat.log2 wa + 1) * (Nat.log2 wb + 2)) (ha : 1 ≤ wa) (hb : 1 ≤ wb)
    {opM : MergeOpM Counts (InPlaceMS (Tree K V) (Tree K W)) (Tree K V) (Tree K W)} {op : MergeOp (InPlaceMS (Tree K V) (Tree K W)) (Tree K V) (Tree K W)}
    (H : Mirrors opM op (Fit wa) (Fit wb) (callUse LA) (callUse LB) components (fun _ => 0)) {x : Tree K V} {y : Tree K W} (hx : Narrow wa x) (hy : Narrow wb y) :
    InStep wa wb LA LB opM op x y where
  kids v := childrenWith_spent hLA hLB H (t := { x with val := v }) (narrow_iff.1 hx).2 (narrow_iff.1 hy).2 (narrow_iff.1 hx).1 (narrow_iff.1 hy).1
  shortB v n := childrenWith_spent hLA hLB H (t := { x with val := v }) (narrow_iff.1 hx).2
    (fun z hz => by rw [List.mem_singleton] at hz; subst hz; exact narrow_split n hy) (narrow_iff.1 hx).1 hb
  splitA p v n := childrenWith_spent hLA hLB H (t := { pre := p, val := v, kids := [{ pre := x.pre.drop n, val := x.val, kids := x.kids }] })
    (fun z hz => by rw [List.mem_singleton] at hz; subst hz; exact narrow_split n hx) (narrow_iff.1 hy).2 ha (narrow_iff.1 hy).1

theorem andThen_val {x : Tree K V} {r : Option V × Flow} {kM : Tree K V → Counts (Tree K V × Flow)} {k : Tree K V → Tree K V × Flow} {P : Use → Prop} (h0 : P 0)
    (h : ∀ v, ∃ u, Spent (kM { x with val := v }) (k { x with val := v }) u ∧ P u) :
    ∃ u, Spent (andThenM (x.withVal r) kM) (andThen (x.withVal r) k) u ∧ P u :=
  Spent.andThen h0 (fun _ => h _)

theorem andThen_split {x : Tree K V} {n : Nat} {kM : Tree K V → Counts (Tree K V × Flow)} {k : Tree K V → Tree K V × Flow} {P : Use → Prop} (h0 : P 0)
    (h : ∃ u, Spent (kM { pre := x.pre.take n, val := none, kids := [{ pre := x.pre.drop n, val := x.val, kids := x.kids }] })
      (k { pre := x.pre.take n, val := none, kids := [{ pre := x.pre.drop n, val := x.val, kids := x.kids }] }) u ∧ P u) :
    ∃ u, Spent (andThenM (x.split n) kM) (andThen (x.split n) k) u ∧ P u := by
  apply Spent.andThen h0
  unfold split
  split
  · exact fun _ => h
  · intro h; cases h

theorem withMat_spent {y : Tree K W} {n : Nat} {t : Tree K V} {kM : Tree K W → Counts (Tree K V × Flow)} {k : Tree K W → Tree K V × Flow} {P : Use → Prop}
    (h0 : P 0) (h : ∃ u, Spent (kM { pre := y.pre.drop n, val := y.val, kids := y.kids }) (k { pre := y.pre.drop n, val := y.val, kids := y.kids }) u ∧ P u) :
    ∃ u, Spent (withMatM (y.materializeShortened n) t kM) (withMat (y.materializeShortened n) t k) u ∧ P u := by
  unfold withMatM withMat
  cases hm : y.materializeShortened n with
  | panic => exact ⟨0, Spent.pure _, h0⟩
  | ret y' =>
    rw [(materializeShortened_ret y n y' hm).2]
    exact h

theorem sort_spent (ks : List (Tree K V)) : Spent (countSort ks) (sortKids ks) ⟨0, 0, ks.length⟩ := fun w => rfl

/-- the four situations -/
theorem stepUse_cases {β : Type} {LA LB n : Nat} {x : Tree K V} {y : Tree K W} {c1 c2 c3 c4 : Counts β} {r1 r2 r3 r4 : β}
    (h1 : ∃ u, Spent c1 r1 u ∧ u ≤ listUse LA x.kids ∧ u ≤ listUse LB y.kids)
    (h2 : ∃ u, Spent c2 r2 u ∧ u ≤ listUse LA x.kids ∧ u ≤ listUse LB [{ pre := y.pre.drop n, val := y.val, kids := y.kids }])
    (h3 : ∃ u, Spent c3 r3 u ∧ u ≤ listUse LA [{ pre := x.pre.drop n, val := x.val, kids := x.kids }] ∧ u ≤ listUse LB y.kids)
    (h4 : ∃ u, Spent c4 r4 u ∧ u ≤ ⟨0, 0, 2⟩) :
    ∃ u, Spent (if n = x.pre.length ∧ n = y.pre.length then c1 else if n = x.pre.length then c2 else if n = y.pre.length then c3 else c4)
      (if n = x.pre.length ∧ n = y.pre.length then r1 else if n = x.pre.length then r2 else if n = y.pre.length then r3 else r4) u ∧
      (n ≤ x.pre.length → n ≤ y.pre.length → StepUse LA LB n x y u) := by
  obtain ⟨u1, s1, a1, b1⟩ := h1
  obtain ⟨u2, s2, a2, b2⟩ := h2
  obtain ⟨u3, s3, a3, b3⟩ := h3
  obtain ⟨u4, s4, a4⟩ := h4
  by_cases e1 : n = x.pre.length <;> by_cases e2 : n = y.pre.length
  · simp only [e1 ▸ e2, e1, and_self, ↓reduceIte]
    exact ⟨u1, s1, fun _ _ => ⟨fun _ _ => ⟨a1, b1⟩, fun _ _ => by omega, fun _ _ => by omega, fun _ _ => by omega⟩⟩
  · simp only [e2, and_false, if_false, if_pos e1]
    exact ⟨u2, s2, fun _ _ => ⟨fun _ _ => by omega, fun _ _ => ⟨a2, b2⟩, fun _ _ => by omega, fun _ _ => by omega⟩⟩
  · simp only [e1, false_and, if_false, if_pos e2]
    exact ⟨u3, s3, fun _ _ => ⟨fun _ _ => by omega, fun _ _ => by omega, fun _ _ => ⟨a3, b3⟩, fun _ _ => by omega⟩⟩
  · simp only [e1, e2, false_and, if_false]
    exact ⟨u4, s4, fun _ _ => ⟨fun _ _ => by omega, fun _ _ => by omega, fun _ _ => by omega, fun _ _ => a4⟩⟩

/-- the same with the second and third situation in the other order -/
theorem ite_order {β : Type} {n l m : Nat} (c1 c2 c3 c4 : β) :
    (if n = l ∧ n = m then c1 else if n = m then c3 else if n = l then c2 else c4) =
    (if n = l ∧ n = m then c1 else if n = l then c2 else if n = m then c3 else c4) := by
  by_cases h1 : n = l
  · by_cases h2 : n = m
    · rw [if_pos ⟨h1, h2⟩, if_pos ⟨h1, h2⟩]
    · simp only [h2, and_false, if_false]
  · simp only [h1, false_and, if_false]

theorem zero2 : (0 : Use) ≤ ⟨0, 0, 2⟩ := ⟨Nat.le_refl _, Nat.le_refl _, by decide⟩

variable {wa wb LA LB : Nat}

theorem outerWithCases_spent {opM : MergeOpM Counts (InPlaceMS (Tree K V) (Tree K V)) (Tree K V) (Tree K V)}
    {op : MergeOp (InPlaceMS (Tree K V) (Tree K V)) (Tree K V) (Tree K V)} {x y : Tree K V} (H : InStep wa wb LA LB opM op x y) (f : MutFn V V) (n : Nat) :
    ∃ u, Spent (outerWithCasesM countSort opM f n x y) (outerWithCases op f n x y) u ∧ (n ≤ x.pre.length → n ≤ y.pre.length → StepUse LA LB n x y u) := by
  unfold outerWithCasesM outerWithCases
  apply stepUse_cases
  · exact andThen_val ⟨Use.zero_le' _, Use.zero_le' _⟩ H.kids
  · exact withMat_spent ⟨Use.zero_le' _, Use.zero_le' _⟩ (H.shortB0 n)
  · exact andThen_split ⟨Use.zero_le' _, Use.zero_le' _⟩ (andThen_val ⟨Use.zero_le' _, Use.zero_le' _⟩ (fun v => H.splitA _ v n))
  · refine andThen_split zero2 (withMat_spent zero2 ?_)
    split
    · exact ⟨_, Spent.map (sort_spent _) (fun ks => (({ pre := x.pre.take n, val := none, kids := ks } : Tree K V), Flow.cont)),
        ⟨Nat.le_refl _, Nat.le_refl _, Nat.le_refl _⟩⟩
    · exact ⟨0, Spent.pure _, zero2⟩

theorem innerWithCases_spent {opM : MergeOpM Counts (InPlaceMS (Tree K V) (Tree K W)) (Tree K V) (Tree K W)}
    {op : MergeOp (InPlaceMS (Tree K V) (Tree K W)) (Tree K V) (Tree K W)} {x : Tree K V} {y : Tree K W} (H : InStep wa wb LA LB opM op x y)
    (f : MutFn V W) (n : Nat) :
    ∃ u, Spent (innerWithCasesM opM f n x y) (innerWithCases op f n x y) u ∧ (n ≤ x.pre.length → n ≤ y.pre.length → StepUse LA LB n x y u) := by
  unfold innerWithCasesM innerWithCases
  apply stepUse_cases
  · exact andThen_val ⟨Use.zero_le' _, Use.zero_le' _⟩ H.kids
  · exact withMat_spent ⟨Use.zero_le' _, Use.zero_le' _⟩ (H.shortB none n)
  · exact andThen_split ⟨Use.zero_le' _, Use.zero_le' _⟩ (H.splitA _ none n)
  · exact ⟨0, Spent.pure _, zero2⟩

theorem leftWithCases_spent {opM : MergeOpM Counts (InPlaceMS (Tree K V) (Tree K W)) (Tree K V) (Tree K W)}
    {op : MergeOp (InPlaceMS (Tree K V) (Tree K W)) (Tree K V) (Tree K W)} {x : Tree K V} {y : Tree K W} (H : InStep wa wb LA LB opM op x y)
    (f : MutFn V W) (n : Nat) :
    ∃ u, Spent (leftWithCasesM opM f n x y) (leftWithCases op f n x y) u ∧ (n ≤ x.pre.length → n ≤ y.pre.length → StepUse LA LB n x y u) := by
  unfold leftWithCasesM leftWithCases
  apply stepUse_cases
  · exact andThen_val ⟨Use.zero_le' _, Use.zero_le' _⟩ H.kids
  · exact withMat_spent ⟨Use.zero_le' _, Use.zero_le' _⟩ (H.shortB0 n)
  · exact andThen_split ⟨Use.zero_le' _, Use.zero_le' _⟩ (H.splitA _ none n)
  · exact ⟨0, Spent.pure _, zero2⟩

theorem removePrefixCases_spent {opM : MergeOpM Counts (InPlaceMS (Tree K V) (Tree K W)) (Tree K V) (Tree K W)}
    {op : MergeOp (InPlaceMS (Tree K V) (Tree K W)) (Tree K V) (Tree K W)} {x : Tree K V} {y : Tree K W} (H : InStep wa wb LA LB opM op x y)
    (f : W → Bool) (n : Nat) :
    ∃ u, Spent (removePrefixCasesM opM f n x y) (removePrefixCases op f n x y) u ∧ (n ≤ x.pre.length → n ≤ y.pre.length → StepUse LA LB n x y u) := by
  unfold removePrefixCasesM removePrefixCases
  rw [ite_order, ite_order]
  apply stepUse_cases
  · cases selected f y.val with
    | true => exact ⟨0, Spent.pure _, Use.zero_le' _, Use.zero_le' _⟩
    | false => exact H.kids0
  · exact withMat_spent ⟨Use.zero_le' _, Use.zero_le' _⟩ (H.shortB0 n)
  · cases selected f y.val with
    | true => exact ⟨0, Spent.pure _, Use.zero_le' _, Use.zero_le' _⟩
    | false =>
      simp only [Bool.false_eq_true, Bool.not_false, ↓reduceIte]
      exact andThen_split ⟨Use.zero_le' _, Use.zero_le' _⟩ (H.splitA _ none n)
  · exact ⟨0, Spent.pure _, zero2⟩

theorem retainPrefixCases_spent {opM : MergeOpM Counts (InPlaceMS (Tree K V) (Tree K W)) (Tree K V) (Tree K W)}
    {op : MergeOp (InPlaceMS (Tree K V) (Tree K W)) (Tree K V) (Tree K W)} {x : Tree K V} {y : Tree K W} (H : InStep wa wb LA LB opM op x y)
    (f : W → Bool) (n : Nat) :
    ∃ u, Spent (retainPrefixCasesM opM f n x y) (retainPrefixCases op f n x y) u ∧ (n ≤ x.pre.length → n ≤ y.pre.length → StepUse LA LB n x y u) := by
  unfold retainPrefixCasesM retainPrefixCases
  rw [ite_order, ite_order]
  apply stepUse_cases
  · cases selected f y.val with
    | true => exact ⟨0, Spent.pure _, Use.zero_le' _, Use.zero_le' _⟩
    | false => exact H.kids none
  · exact withMat_spent ⟨Use.zero_le' _, Use.zero_le' _⟩ (H.shortB none n)
  · cases selected f y.val with
    | true => exact ⟨0, Spent.pure _, Use.zero_le' _, Use.zero_le' _⟩
    | false =>
      simp only [Bool.false_eq_true, Bool.not_false, ↓reduceIte]
      exact andThen_split ⟨Use.zero_le' _, Use.zero_le' _⟩ (H.splitA _ none n)
  · exact ⟨0, Spent.pure _, zero2⟩

/-! ### Into a new tree -/

/-- a step of a combination into a new tree -/
structure NewStep (LA LB : Nat) (opM : MergeOpM Counts (SliceMS (Tree K V) (Tree K W) (Tree K V)) (Tree K V) (Tree K W))
    (op : MergeOp (SliceMS (Tree K V) (Tree K W) (Tree K V)) (Tree K V) (Tree K W)) (x : Tree K V) (y : Tree K W) : Prop where
  kids : ∃ u, Spent (mergeChildrenM opM x.kids y.kids) (mergeChildren op x.kids y.kids) u ∧
    u ≤ listUse LA x.kids ∧ u ≤ listUse LB y.kids
  shortB : ∀ n, ∃ u, Spent (mergeChildrenM opM x.kids [{ pre := y.pre.drop n, val := y.val, kids := y.kids }])
    (mergeChildren op x.kids [{ pre := y.pre.drop n, val := y.val, kids := y.kids }]) u ∧
    u ≤ listUse LA x.kids ∧ u ≤ listUse LB [{ pre := y.pre.drop n, val := y.val, kids := y.kids }]
  shortA : ∀ n, ∃ u, Spent (mergeChildrenM opM [{ pre := x.pre.drop n, val := x.val, kids := x.kids }] y.kids)
    (mergeChildren op [{ pre := x.pre.drop n, val := x.val, kids := x.kids }] y.kids) u ∧
    u ≤ listUse LA [{ pre := x.pre.drop n, val := x.val, kids := x.kids }] ∧ u ≤ listUse LB y.kids

theorem newStep (hLA : LA = Nat.log2 wb + 2) (hLB : LB = (Nat.log2 wa + 1) * (Nat.log2 wb + 2)) (ha : 1 ≤ wa) (hb : 1 ≤ wb)
    {opM : MergeOpM Counts (SliceMS (Tree K V) (Tree K W) (Tree K V)) (Tree K V) (Tree K W)}
    {op : MergeOp (SliceMS (Tree K V) (Tree K W) (Tree K V)) (Tree K V) (Tree K W)}
    (H : Mirrors opM op (Fit wa) (Fit wb) (callUse LA) (callUse LB) components (fun _ => 0)) {x : Tree K V} {y : Tree K W} (hx : Narrow wa x) (hy : Narrow wb y) :
    NewStep LA LB opM op x y where
  kids := mergeChildren_spent hLA hLB H (narrow_iff.1 hx).2 (narrow_iff.1 hy).2 (narrow_iff.1 hx).1 (narrow_iff.1 hy).1
  shortB n := mergeChildren_spent hLA hLB H (narrow_iff.1 hx).2
    (fun z hz => by rw [List.mem_singleton] at hz; subst hz; exact narrow_split n hy) (narrow_iff.1 hx).1 hb
  shortA n := mergeChildren_spent hLA hLB H
    (fun z hz => by rw [List.mem_singleton] at hz; subst hz; exact narrow_split n hx) (narrow_iff.1 hy).2 ha (narrow_iff.1 hy).1

theorem bindC_mat {T β : Type} {y : Tree K T} {n : Nat} {kM : Tree K T → Counts (Call β)} {k : Tree K T → Call β} {P : Use → Prop} (h0 : P 0)
    (h : ∃ u, Spent (kM { pre := y.pre.drop n, val := y.val, kids := y.kids }) (k { pre := y.pre.drop n, val := y.val, kids := y.kids }) u ∧ P u) :
    ∃ u, Spent (bindCM (y.materializeShortened n) kM) (bindC (y.materializeShortened n) k) u ∧ P u := by
  unfold bindCM bindC
  cases hm : y.materializeShortened n with
  | panic => exact ⟨0, Spent.pure _, h0⟩
  | ret y' =>
    rw [(materializeShortened_ret y n y' hm).2]
    exact h

theorem bindC_map {α β : Type} {c : Counts (Call α)} {r : Call α} {P : Use → Prop} (g : α → Call β) (h : ∃ u, Spent c r u ∧ P u) :
    ∃ u, Spent (do let ks ← c; pure (bindC ks g)) (bindC r g) u ∧ P u := by
  obtain ⟨u, h1, h2⟩ := h
  exact ⟨u, Spent.map h1 (fun ks => bindC ks g), h2⟩

theorem outerCases_spent {opM : MergeOpM Counts (SliceMS (Tree K V) (Tree K V) (Tree K V)) (Tree K V) (Tree K V)}
    {op : MergeOp (SliceMS (Tree K V) (Tree K V) (Tree K V)) (Tree K V) (Tree K V)} {x y : Tree K V} (H : NewStep LA LB opM op x y)
    (f : V → V → Option V) (n : Nat) :
    ∃ u, Spent (outerCasesM countSort opM f n x y) (outerCases op f n x y) u ∧ (n ≤ x.pre.length → n ≤ y.pre.length → StepUse LA LB n x y u) := by
  unfold outerCasesM outerCases
  apply stepUse_cases
  · exact bindC_map _ H.kids
  · exact bindC_mat ⟨Use.zero_le' _, Use.zero_le' _⟩ (bindC_map _ (H.shortB n))
  · exact bindC_mat ⟨Use.zero_le' _, Use.zero_le' _⟩ (bindC_map _ (H.shortA n))
  · refine bindC_mat zero2 (bindC_mat zero2 ?_)
    split
    · exact ⟨_, Spent.map (sort_spent _) (mkNode (x.pre.take n) none), ⟨Nat.le_refl _, Nat.le_refl _, Nat.le_refl _⟩⟩
    · exact ⟨0, Spent.pure _, zero2⟩

theorem innerCases_spent {opM : MergeOpM Counts (SliceMS (Tree K V) (Tree K W) (Tree K V)) (Tree K V) (Tree K W)}
    {op : MergeOp (SliceMS (Tree K V) (Tree K W) (Tree K V)) (Tree K V) (Tree K W)} {x : Tree K V} {y : Tree K W} (H : NewStep LA LB opM op x y)
    (f : V → W → Option V) (n : Nat) :
    ∃ u, Spent (innerCasesM opM f n x y) (innerCases op f n x y) u ∧ (n ≤ x.pre.length → n ≤ y.pre.length → StepUse LA LB n x y u) := by
  unfold innerCasesM innerCases
  apply stepUse_cases
  · exact bindC_map _ H.kids
  · exact bindC_mat ⟨Use.zero_le' _, Use.zero_le' _⟩ (bindC_map _ (H.shortB n))
  · exact bindC_mat ⟨Use.zero_le' _, Use.zero_le' _⟩ (bindC_map _ (H.shortA n))
  · exact ⟨0, Spent.pure _, zero2⟩

theorem leftCases_spent {opM : MergeOpM Counts (SliceMS (Tree K V) (Tree K W) (Tree K V)) (Tree K V) (Tree K W)}
    {op : MergeOp (SliceMS (Tree K V) (Tree K W) (Tree K V)) (Tree K V) (Tree K W)} {x : Tree K V} {y : Tree K W} (H : NewStep LA LB opM op x y)
    (f : V → Option W → Option V) (n : Nat) :
    ∃ u, Spent (leftCasesM opM f n x y) (leftCases op f n x y) u ∧ (n ≤ x.pre.length → n ≤ y.pre.length → StepUse LA LB n x y u) := by
  unfold leftCasesM leftCases
  apply stepUse_cases
  · exact bindC_map _ H.kids
  · exact bindC_mat ⟨Use.zero_le' _, Use.zero_le' _⟩ (bindC_map _ (H.shortB n))
  · exact bindC_mat ⟨Use.zero_le' _, Use.zero_le' _⟩ (bindC_map _ (H.shortA n))
  · exact ⟨0, Spent.pure _, zero2⟩

/-! ### All levels -/

/-- what a call spends, at the root and below -/
def Bounded {R : Type} (LA LB : Nat) (x : Tree K V) (y : Tree K W) (c : Counts R) (r : R) : Prop :=
  ∃ u, Spent c r u ∧ (u ≤ rootUse LA x ∧ u ≤ rootUse LB y) ∧ (x.pre ≠ [] → y.pre ≠ [] → u ≤ callUse LA x ∧ u ≤ callUse LB y)

theorem bounded_zero {R : Type} {x : Tree K V} {y : Tree K W} (r : R) : Bounded LA LB x y (pure r) r :=
  ⟨0, Spent.pure _, ⟨Use.zero_le' _, Use.zero_le' _⟩, fun _ _ => ⟨Use.zero_le' _, Use.zero_le' _⟩⟩

theorem bounded_step {R : Type} {x : Tree K V} {y : Tree K W} {cM : Nat → Counts R} {c : Nat → R}
    (h : ∃ u, Spent (cM (commonPrefix x.pre y.pre)) (c (commonPrefix x.pre y.pre)) u ∧
      (commonPrefix x.pre y.pre ≤ x.pre.length → commonPrefix x.pre y.pre ≤ y.pre.length → StepUse LA LB (commonPrefix x.pre y.pre) x y u)) :
    Bounded LA LB x y (commonPrefixM countEq x.pre y.pre >>= cM) (c (commonPrefix x.pre y.pre)) := by
  obtain ⟨u, h1, h2⟩ := h
  obtain ⟨k, g1, g2, g3⟩ := commonPrefix_spent x.pre y.pre
  exact ⟨_, Spent.bind g1 h1, stepUse_bound (h2 (commonPrefix_le_left ..) (commonPrefix_le_right ..)) g2 g3⟩

theorem bounded_map {R S : Type} {x : Tree K V} {y : Tree K W} {c : Counts R} {r : R} (g : R → S) (h : Bounded LA LB x y c r) :
    Bounded LA LB x y (c >>= fun r => pure (g r)) (g r) := by
  obtain ⟨u, h1, h2⟩ := h
  exact ⟨u, Spent.map h1 g, h2⟩

theorem finish_step {x : Tree K V} {y : Tree K W} {cM : Nat → Counts (Tree K V × Flow)} {c : Nat → Tree K V × Flow} {n : Nat}
    (h : ∃ u, Spent (cM n) (c n) u ∧ (n ≤ x.pre.length → n ≤ y.pre.length → StepUse LA LB n x y u)) :
    ∃ u, Spent ((fun n => do let r ← cM n; pure (finish r)) n) ((fun n => finish (c n)) n) u ∧
      (n ≤ x.pre.length → n ≤ y.pre.length → StepUse LA LB n x y u) := by
  obtain ⟨u, h1, h2⟩ := h
  exact ⟨u, Spent.map h1 finish, h2⟩

theorem Bounded.calls {R : Type} {recM : Tree K V → Tree K W → Counts R} {rec : Tree K V → Tree K W → R}
    (h : ∀ x y, Narrow wa x → Narrow wb y → Bounded LA LB x y (recM x y) (rec x y)) : Calls wa wb LA LB recM rec := fun x y hx hy => by
  obtain ⟨u, h1, _, h2⟩ := h x y hx.2 hy.2
  exact ⟨u, h1, h2 hx.1 hy.1⟩

variable (hLA : LA = Nat.log2 wb + 2) (hLB : LB = (Nat.log2 wa + 1) * (Nat.log2 wb + 2)) (ha : 1 ≤ wa) (hb : 1 ≤ wb)
include hLA hLB ha hb

theorem outerWithGo_bounded (f : MutFn V V) : ∀ fuel (x y : Tree K V), Narrow wa x → Narrow wb y →
    Bounded LA LB x y (outerWithGoM countEq countCmp countSort f fuel x y) (outerWithGo f fuel x y)
  | 0, x, y, _, _ => bounded_zero _
  | fuel + 1, x, y, hx, hy => bounded_step
      (cM := fun n => do let r ← outerWithCasesM countSort (inPlaceOpM countCmp true true materialize (outerWithGoM countEq countCmp countSort f fuel)) f n x y; pure (finish r))
      (c := fun n => finish (outerWithCases (outerWithOp (outerWithGo f fuel)) f n x y)) (finish_step (cM := fun n => outerWithCasesM countSort (inPlaceOpM countCmp true true materialize (outerWithGoM countEq countCmp countSort f fuel)) f n x y)
      (c := fun n => outerWithCases (outerWithOp (outerWithGo f fuel)) f n x y) (outerWithCases_spent
      (inStep hLA hLB ha hb (inPlaceOp_mirrors (Bounded.calls (outerWithGo_bounded f fuel))) hx hy) f _))

theorem innerWithGo_bounded (f : MutFn V W) : ∀ fuel (x : Tree K V) (y : Tree K W), Narrow wa x → Narrow wb y →
    Bounded LA LB x y (innerWithGoM countEq countCmp f fuel x y) (innerWithGo f fuel x y)
  | 0, x, y, _, _ => bounded_zero _
  | fuel + 1, x, y, hx, hy => bounded_step
      (cM := fun n => do let r ← innerWithCasesM (inPlaceOpM countCmp false false noConverter (innerWithGoM countEq countCmp f fuel)) f n x y; pure (finish r))
      (c := fun n => finish (innerWithCases (innerWithOp (innerWithGo f fuel)) f n x y)) (finish_step (cM := fun n => innerWithCasesM (inPlaceOpM countCmp false false noConverter (innerWithGoM countEq countCmp f fuel)) f n x y)
      (c := fun n => innerWithCases (innerWithOp (innerWithGo f fuel)) f n x y) (innerWithCases_spent
      (inStep hLA hLB ha hb (inPlaceOp_mirrors (Bounded.calls (innerWithGo_bounded f fuel))) hx hy) f _))

theorem leftWithGo_bounded (f : MutFn V W) : ∀ fuel (x : Tree K V) (y : Tree K W), Narrow wa x → Narrow wb y →
    Bounded LA LB x y (leftWithGoM countEq countCmp f fuel x y) (leftWithGo f fuel x y)
  | 0, x, y, _, _ => bounded_zero _
  | fuel + 1, x, y, hx, hy => bounded_step
      (cM := fun n => do let r ← leftWithCasesM (inPlaceOpM countCmp true false noConverter (leftWithGoM countEq countCmp f fuel)) f n x y; pure (finish r))
      (c := fun n => finish (leftWithCases (leftWithOp (leftWithGo f fuel)) f n x y)) (finish_step (cM := fun n => leftWithCasesM (inPlaceOpM countCmp true false noConverter (leftWithGoM countEq countCmp f fuel)) f n x y)
      (c := fun n => leftWithCases (leftWithOp (leftWithGo f fuel)) f n x y) (leftWithCases_spent
      (inStep hLA hLB ha hb (inPlaceOp_mirrors (Bounded.calls (leftWithGo_bounded f fuel))) hx hy) f _))

theorem removePrefixGo_bounded (f : W → Bool) : ∀ fuel (x : Tree K V) (y : Tree K W), Narrow wa x → Narrow wb y →
    Bounded LA LB x y (removePrefixGoM countEq countCmp f fuel x y) (removePrefixGo f fuel x y)
  | 0, x, y, _, _ => bounded_zero _
  | fuel + 1, x, y, hx, hy => bounded_step
      (cM := fun n => do let r ← removePrefixCasesM (inPlaceOpM countCmp true false noConverter (removePrefixGoM countEq countCmp f fuel)) f n x y; pure (finish r))
      (c := fun n => finish (removePrefixCases (removePrefixOp (removePrefixGo f fuel)) f n x y)) (finish_step (cM := fun n => removePrefixCasesM (inPlaceOpM countCmp true false noConverter (removePrefixGoM countEq countCmp f fuel)) f n x y)
      (c := fun n => removePrefixCases (removePrefixOp (removePrefixGo f fuel)) f n x y) (removePrefixCases_spent
      (inStep hLA hLB ha hb (inPlaceOp_mirrors (Bounded.calls (removePrefixGo_bounded f fuel))) hx hy) f _))

theorem retainPrefixGo_bounded (f : W → Bool) : ∀ fuel (x : Tree K V) (y : Tree K W), Narrow wa x → Narrow wb y →
    Bounded LA LB x y (retainPrefixGoM countEq countCmp f fuel x y) (retainPrefixGo f fuel x y)
  | 0, x, y, _, _ => bounded_zero _
  | fuel + 1, x, y, hx, hy => bounded_step
      (cM := fun n => do let r ← retainPrefixCasesM (inPlaceOpM countCmp false false noConverter (retainPrefixGoM countEq countCmp f fuel)) f n x y; pure (finish r))
      (c := fun n => finish (retainPrefixCases (retainPrefixOp (retainPrefixGo f fuel)) f n x y)) (finish_step (cM := fun n => retainPrefixCasesM (inPlaceOpM countCmp false false noConverter (retainPrefixGoM countEq countCmp f fuel)) f n x y)
      (c := fun n => retainPrefixCases (retainPrefixOp (retainPrefixGo f fuel)) f n x y) (retainPrefixCases_spent
      (inStep hLA hLB ha hb (inPlaceOp_mirrors (Bounded.calls (retainPrefixGo_bounded f fuel))) hx hy) f _))

theorem outerGo_bounded (f : V → V → Option V) : ∀ fuel (x y : Tree K V), Narrow wa x → Narrow wb y →
    Bounded LA LB x y (outerGoM countEq countCmp countSort f fuel x y) (outerGo f fuel x y)
  | 0, x, y, _, _ => bounded_zero _
  | fuel + 1, x, y, hx, hy => bounded_step
      (cM := fun n => outerCasesM countSort (pureOpM countCmp true true materialize materialize (outerGoM countEq countCmp countSort f fuel)) f n x y)
      (c := fun n => outerCases (outerOp (outerGo f fuel)) f n x y) (outerCases_spent
      (newStep hLA hLB ha hb (pureOp_mirrors (Bounded.calls (outerGo_bounded f fuel))) hx hy) f _)

theorem innerGo_bounded (f : V → W → Option V) : ∀ fuel (x : Tree K V) (y : Tree K W), Narrow wa x → Narrow wb y →
    Bounded LA LB x y (innerGoM countEq countCmp f fuel x y) (innerGo f fuel x y)
  | 0, x, y, _, _ => bounded_zero _
  | fuel + 1, x, y, hx, hy => bounded_step
      (cM := fun n => innerCasesM (pureOpM countCmp false false materialize noConverter (innerGoM countEq countCmp f fuel)) f n x y)
      (c := fun n => innerCases (innerOp (innerGo f fuel)) f n x y) (innerCases_spent
      (newStep hLA hLB ha hb (pureOp_mirrors (Bounded.calls (innerGo_bounded f fuel))) hx hy) f _)

theorem leftGo_bounded (f : V → Option W → Option V) : ∀ fuel (x : Tree K V) (y : Tree K W), Narrow wa x → Narrow wb y →
    Bounded LA LB x y (leftGoM countEq countCmp f fuel x y) (leftGo f fuel x y)
  | 0, x, y, _, _ => bounded_zero _
  | fuel + 1, x, y, hx, hy => bounded_step
      (cM := fun n => leftCasesM (pureOpM countCmp true false materialize noConverter (leftGoM countEq countCmp f fuel)) f n x y)
      (c := fun n => leftCases (leftOp (leftGo f fuel)) f n x y) (leftCases_spent
      (newStep hLA hLB ha hb (pureOp_mirrors (Bounded.calls (leftGo_bounded f fuel))) hx hy) f _)

end
end Tree
end Verif
