import Verif.Model.LazyReadsInPlace
import Verif.Lemmas.LazyReadsCopy
/-! Counting the calls of `children()` on the operand of the in-place operations. -/
namespace Verif.Tree

/-- `m` returns `r`, and if that is no panic, counts at most `N` calls on the right, and exactly `N` under the condition `ex` -/
def Cnt {α : Type} (N : Nat) (ex : Prop) (m : Noted (α × Flow)) (r : α × Flow) : Prop :=
  m.res = r ∧ (r.2 = .cont → m.seen.right ≤ N ∧ (ex → N ≤ m.seen.right))

section
variable {α : Type} {N : Nat} {ex : Prop}

theorem Cnt.pure0 (r : α × Flow) : Cnt 0 ex (pure r) r := ⟨rfl, fun _ => ⟨Nat.le_refl _, fun _ => Nat.zero_le _⟩⟩
theorem Cnt.weaken {m : Noted (α × Flow)} {r : α × Flow} (h : Cnt N ex m r) {N' : Nat} (hn : N ≤ N') : Cnt N' False m r :=
  ⟨h.1, fun hr => ⟨Nat.le_trans (h.2 hr).1 hn, nofun⟩⟩
theorem Cnt.cast {m : Noted (α × Flow)} {r : α × Flow} (h : Cnt N ex m r) {N' : Nat} (hn : N = N') : Cnt N' ex m r := hn ▸ h
theorem Cnt.see {m : Noted (α × Flow)} {r : α × Flow} (h : Cnt N ex m r) (k : Nat) : Cnt (k + N) ex (do seeR k; m) r := by
  refine ⟨h.1, fun hr => ?_⟩
  obtain ⟨h1, h2⟩ := h.2 hr
  simp only [noted_bind_seen, seeR, Seen.add]
  exact ⟨by omega, fun he => by have := h2 he; omega⟩
theorem Cnt.andThen {r : α × Flow} {kM : α → Noted (α × Flow)} {k : α → α × Flow} (h : ∀ s, Cnt N ex (kM s) (k s)) : Cnt N ex (andThenM r kM) (andThen r k) := by
  obtain ⟨s, fl⟩ := r
  cases fl with
  | cont => exact h s
  | stop => exact ⟨rfl, nofun⟩
  | panic => exact ⟨rfl, nofun⟩
end

section
variable {K V W : Type} [Ord K] [DecidableEq K] {N : Nat} {ex : Prop}

theorem Cnt.mat {m : Call (Tree K W)} {t : Tree K V} {kM : Tree K W → Noted (Tree K V × Flow)} {k : Tree K W → Tree K V × Flow} (h : ∀ x, Cnt N ex (kM x) (k x)) :
    Cnt N ex (withMatL m t kM) (withMat m t k) := by
  cases m with
  | panic => exact ⟨rfl, nofun⟩
  | ret x => exact h x

theorem Cnt.finish {m : Noted (Tree K V × Flow)} {r : Tree K V × Flow} (h : Cnt N ex m r) : Cnt N ex (finishL m) (finish r) := by
  refine ⟨by show Verif.Tree.finish m.res = _; rw [h.1], fun hr => ?_⟩
  have hc : r.2 = .cont := by
    obtain ⟨t, fl⟩ := r
    cases fl with
    | cont => rfl
    | stop => cases hr
    | panic => cases hr
  have := h.2 hc
  simp only [finishL, noted_bind_seen, noted_pure_seen, Seen.add, Seen.zero, Nat.add_zero]
  exact this

theorem skipB_eq {A B : Type} : ∀ (n : Nat) (s : InPlaceMS A B), s.skipB n = { s with b := s.b.drop n }
  | 0, _ => rfl
  | n + 1, s => by rw [InPlaceMS.skipB, skipB_eq n]; cases s with | mk t a b => simp
theorem extend_b {A B : Type} (conv : B → Call A) : ∀ (n : Nat) (s : InPlaceMS A B), (s.extendFromIter conv n).2 = .cont →
    (s.extendFromIter conv n).1.b = s.b.drop n ∧ (s.extendFromIter conv n).1.src = s.src
  | 0, _, _ => ⟨rfl, rfl⟩
  | n + 1, ⟨t, a, b⟩, h => by
    cases b with
    | nil => exact ⟨rfl, rfl⟩
    | cons x xs =>
      simp only [InPlaceMS.extendFromIter] at h ⊢
      cases hx : conv x with
      | panic => rw [hx] at h; cases h
      | ret y =>
        rw [hx] at h
        exact extend_b conv n _ h

theorem advB {conv : Tree K W → Call (Tree K V)} {s : InPlaceMS (Tree K V) (Tree K W)} {n : Nat} {take : Bool} (h : ((InPlaceMS.mut conv).advanceB s n take).2 = .cont) :
    ((InPlaceMS.mut conv).advanceB s n take).1.b = s.b.drop n ∧ ((InPlaceMS.mut conv).advanceB s n take).1.src = s.src := by
  cases take with
  | true => exact extend_b conv n s h
  | false =>
    show (s.skipB n).b = _ ∧ (s.skipB n).src = _
    rw [skipB_eq]
    exact ⟨rfl, rfl⟩

theorem inPlaceOpL_fst {j : Nat} {takeA takeB : Bool} {conv : Tree K W → Call (Tree K V)} {recM : Tree K V → Tree K W → Noted (Tree K V × Flow)}
    {rec : Tree K V → Tree K W → Tree K V × Flow} (h : ∀ x y, (recM x y).res = rec x y) :
    FstOp (inPlaceOpL j takeA takeB conv recM) (inPlaceOp takeA takeB conv rec) where
  cmp _ _ := rfl
  fromA _ _ := rfl
  fromB _ _ := rfl
  collision s := by
    obtain ⟨⟨t, a, b⟩, c⟩ := s
    unfold inPlaceOpL inPlaceOp
    cases a with
    | nil => rfl
    | cons x as =>
      cases b with
      | nil => rfl
      | cons y bs => simp only [h x y]

/-- what a collision leaves -/
theorem collision_ok {takeA takeB : Bool} {conv : Tree K W → Call (Tree K V)} {rec : Tree K V → Tree K W → Tree K V × Flow} {s : InPlaceMS (Tree K V) (Tree K W)}
    (hc : ((inPlaceOp takeA takeB conv rec).collision s).2 = .cont) :
    ∃ x as y bs, s.src = x :: as ∧ s.b = y :: bs ∧ (rec x y).2 = .cont ∧ ((inPlaceOp takeA takeB conv rec).collision s).1.src = as ∧
      ((inPlaceOp takeA takeB conv rec).collision s).1.b = bs := by
  obtain ⟨t, a, b⟩ := s
  cases a with
  | nil => cases hc
  | cons x as =>
    cases b with
    | nil => cases hc
    | cons y bs =>
      refine ⟨x, as, y, bs, rfl, rfl, ?_⟩
      simp only [inPlaceOp] at hc ⊢
      obtain ⟨h1, e1⟩ := andThen_cont hc
      simp only at h1
      rw [e1] at hc ⊢
      obtain ⟨h2, e2⟩ := andThen_cont hc
      rw [e2]
      refine ⟨h1, ?_⟩
      simp only [InPlaceMS.mut, Bool.false_eq_true, if_false, skipB_eq, InPlaceMS.consume]
      cases (rec x y).1.isEmpty <;> simp

/-- so far, all calls for the elements that are gone have been counted -/
def CountedB (j : Nat) (ex : Prop) (T : Nat) (s : InPlaceMS (Tree K V) (Tree K W) × Seen) : Prop :=
  s.2.right + j * nodes.nodesL s.1.b ≤ T ∧ (ex → T ≤ s.2.right + j * nodes.nodesL s.1.b)

theorem inPlaceOpL_counts {j : Nat} {takeA takeB : Bool} {conv : Tree K W → Call (Tree K V)} {recM : Tree K V → Tree K W → Noted (Tree K V × Flow)}
    (h : ∀ x y, (recM x y).res.2 = .cont → (recM x y).seen.right ≤ j * y.nodes ∧ (takeB = true → j * y.nodes ≤ (recM x y).seen.right)) (T : Nat) :
    KeepsCont (CountedB j (takeB = true) T) (inPlaceOpL j takeA takeB conv recM) where
  fromA s n hs hc := by
    have e : ((inPlaceOpL j takeA takeB conv recM).fromA s n).1.1.b = s.1.b := by
      simp only [inPlaceOpL, InPlaceMS.mut, InPlaceMS.consume]
      cases takeA <;> rfl
    unfold CountedB
    rw [e]
    exact hs
  fromB s n hs hc := by
    obtain ⟨h2, h3⟩ := hs
    obtain ⟨⟨t, a, b⟩, c⟩ := s
    have e := nodes_take_drop n b
    simp only at h2 h3
    rw [e, Nat.mul_add] at h2 h3
    have hb := (advB (conv := conv) (s := ⟨t, a, b⟩) (n := n) (take := takeB) hc).1
    simp only at hb
    unfold CountedB inPlaceOpL
    simp only [hb, Seen.add, copyCallsL_eq]
    cases takeB with
    | true =>
      have h3 := h3 rfl
      simp only [if_true, if_pos]
      exact ⟨by omega, fun _ => by omega⟩
    | false =>
      simp only [Bool.false_eq_true, if_false, Nat.add_zero]
      exact ⟨by omega, nofun⟩
  collision s hs hc := by
    have hp := (inPlaceOpL_fst (j := j) (takeA := takeA) (takeB := takeB) (conv := conv) (recM := recM) (rec := fun x y => (recM x y).res) (fun _ _ => rfl)).collision s
    have hp2 : ((inPlaceOp takeA takeB conv fun x y => (recM x y).res).collision s.1).2 = .cont := by rw [← hp]; exact hc
    obtain ⟨x, as, y, bs, e1, e2, e3, e4, e5⟩ := collision_ok hp2
    obtain ⟨h2, h3⟩ := hs
    obtain ⟨g2, g3⟩ := h x y e3
    have e6 : ((inPlaceOpL j takeA takeB conv recM).collision s).1.1.b = bs := by rw [← e5, ← hp]
    have e7 : ((inPlaceOpL j takeA takeB conv recM).collision s).1.2 = s.2.add (recM x y).seen := by
      unfold inPlaceOpL
      simp only [e1, e2]
    unfold CountedB
    rw [e6, e7]
    rw [e2] at h2 h3
    simp only [nodes.nodesL, Nat.mul_add, Seen.add] at h2 h3 ⊢
    refine ⟨by omega, fun ht => ?_⟩
    have := h3 ht
    have := g3 ht
    omega

theorem inPlace_marks {takeA takeB : Bool} {conv : Tree K W → Call (Tree K V)} {rec : Tree K V → Tree K W → Tree K V × Flow} :
    Marks rightC (⟨headsCmpM quietCmp, (inPlaceOp takeA takeB conv rec).fromA, (inPlaceOp takeA takeB conv rec).fromB, fun s => pure ((inPlaceOp takeA takeB conv rec).collision s)⟩ :
      MergeOpM Noted (InPlaceMS (Tree K V) (Tree K W)) (Tree K V) (Tree K W)) (inPlaceOp takeA takeB conv rec) (fun x => x.pre ≠ []) (fun y => y.pre ≠ []) (fun _ => 0) (fun _ => 0) where
  fromA := rfl
  fromB := rfl
  cmp x y hx hy := headsCmp_quiet x y hx hy
  collision s x as y bs _ _ _ _ := AtMost.pure _ _
  stepA s n hn hc := by
    have e : min n s.src.length = n := Nat.min_eq_left hn
    simp only [inPlaceOp, InPlaceMS.mut, InPlaceMS.consume, e]
    cases takeA <;> exact ⟨rfl, rfl⟩
  stepB s n hn hc := by
    obtain ⟨h1, h2⟩ := advB (conv := conv) (s := s) (n := n) (take := takeB) hc
    exact ⟨h1, h2⟩
  stepC s x as y bs hs hs' hc := by
    obtain ⟨x', as', y', bs', e1, e2, _, e4, e5⟩ := collision_ok hc
    have e1' : s.src = x :: as := hs
    have e2' : s.b = y :: bs := hs'
    rw [e1] at e1'
    rw [e2] at e2'
    cases e1'
    cases e2'
    exact ⟨e4, e5⟩

theorem childrenWithL_ok {j : Nat} {takeA takeB : Bool} {conv : Tree K W → Call (Tree K V)} {recM : Tree K V → Tree K W → Noted (Tree K V × Flow)}
    {rec : Tree K V → Tree K W → Tree K V × Flow} (h : ∀ x y, Cnt (j * y.nodes) (takeB = true) (recM x y) (rec x y)) (t : Tree K V) (rhs : List (Tree K W)) :
    Cnt (j * nodes.nodesL rhs) (takeB = true) (childrenWithL (inPlaceOpL j takeA takeB conv recM) t rhs) (childrenWith (inPlaceOp takeA takeB conv rec) t rhs) := by
  unfold childrenWithL childrenWith
  cases hh : headed t.kids && headed rhs with
  | false => exact ⟨rfl, nofun⟩
  | true =>
    rw [Bool.and_eq_true] at hh
    have g := binaryMerge_fst (inPlaceOpL_fst (j := j) (takeA := takeA) (takeB := takeB) (conv := conv) (fun x y => (h x y).1)) t.kids.length rhs.length
      (({ tgt := [], src := t.kids, b := rhs } : InPlaceMS (Tree K V) (Tree K W)), Seen.zero)
    have k := binaryMerge_keeps (inPlaceOpL_counts (j := j) (takeA := takeA) (takeB := takeB) (conv := conv) (recM := recM)
      (fun x y hc => (h x y).2 ((h x y).1 ▸ hc)) (j * nodes.nodesL rhs)) t.kids.length rhs.length
      (({ tgt := [], src := t.kids, b := rhs } : InPlaceMS (Tree K V) (Tree K W)), Seen.zero)
      ⟨by simp [Seen.zero], fun _ => by simp⟩
    have d := (drive_atMost (C := rightC) (inPlace_marks (takeA := takeA) (takeB := takeB) (conv := conv) (rec := rec))
      t.kids.length rhs.length ({ tgt := [], src := t.kids, b := rhs } : InPlaceMS (Tree K V) (Tree K W)) t.kids [] rhs []
      (by simp [MergeState.aSlice]) (by simp [MergeState.bSlice]) rfl rfl (headed_pre hh.1) (headed_pre hh.2)).2
    simp only [if_true, InPlaceMS.merge, mergeAll]
    have e1 : (MergeState.aSlice (({ tgt := [], src := t.kids, b := rhs } : InPlaceMS (Tree K V) (Tree K W)), Seen.zero)).length = t.kids.length := rfl
    have e2 : (MergeState.bSlice (({ tgt := [], src := t.kids, b := rhs } : InPlaceMS (Tree K V) (Tree K W)), Seen.zero)).length = rhs.length := rfl
    have e3 : (MergeState.aSlice ({ tgt := [], src := t.kids, b := rhs } : InPlaceMS (Tree K V) (Tree K W))).length = t.kids.length := rfl
    have e4 : (MergeState.bSlice ({ tgt := [], src := t.kids, b := rhs } : InPlaceMS (Tree K V) (Tree K W))).length = rhs.length := rfl
    rw [e1, e2, e3, e4]
    simp only at g
    rw [← g] at d ⊢
    generalize binaryMerge (inPlaceOpL j takeA takeB conv recM) (({ tgt := [], src := t.kids, b := rhs } : InPlaceMS (Tree K V) (Tree K W)), Seen.zero) t.kids.length rhs.length = q at k d ⊢
    obtain ⟨⟨⟨tg, a, b⟩, c⟩, fl⟩ := q
    refine ⟨rfl, fun hk => ?_⟩
    simp only at hk
    subst hk
    obtain ⟨d1, d2⟩ := d rfl
    obtain ⟨k2, k3⟩ := k rfl
    simp only [MergeState.aSlice, MergeState.bSlice] at d1 d2
    subst d1; subst d2
    simp only [nodes.nodesL, Nat.mul_zero, Nat.add_zero] at k2 k3 ⊢
    exact ⟨k2, k3⟩

/-- `do seeR j; childrenWith(that.children())` -/
theorem see_children {j : Nat} {takeA takeB : Bool} {conv : Tree K W → Call (Tree K V)} {recM : Nat → Tree K V → Tree K W → Noted (Tree K V × Flow)}
    {rec : Tree K V → Tree K W → Tree K V × Flow} (h : ∀ j x y, Cnt (j * y.nodes) (takeB = true) (recM j x y) (rec x y)) (self : Tree K V) (that : Tree K W) :
    Cnt (j * that.nodes) (takeB = true) (do seeR j; childrenWithL (inPlaceOpL j takeA takeB conv (recM j)) self that.kids) (childrenWith (inPlaceOp takeA takeB conv rec) self that.kids) :=
  ((childrenWithL_ok (h j) self that.kids).see j).cast (by rw [nodes_eq' that, Nat.mul_add, Nat.mul_one])

/-- `childrenWith(&[that.materialize_shortened(n)])` -/
theorem see_copy {j : Nat} {takeA takeB : Bool} {conv : Tree K W → Call (Tree K V)} {recM : Nat → Tree K V → Tree K W → Noted (Tree K V × Flow)}
    {rec : Tree K V → Tree K W → Tree K V × Flow} (h : ∀ j x y, Cnt (j * y.nodes) (takeB = true) (recM j x y) (rec x y)) (t self : Tree K V) (that : Tree K W) (n : Nat) :
    Cnt (j * that.nodes) (takeB = true) (do seeR (j * that.copyCalls); withMatL (that.materializeShortened n) t fun that => childrenWithL (inPlaceOpL 0 takeA takeB conv (recM 0)) self [that])
      (withMat (that.materializeShortened n) t fun that => childrenWith (inPlaceOp takeA takeB conv rec) self [that]) :=
  ((Cnt.mat (N := 0) fun x => (childrenWithL_ok (h 0) self [x]).cast (Nat.zero_mul _)).see (j * that.copyCalls)).cast (by rw [copyCalls_eq, Nat.add_zero])

theorem outerWithGoL_ok (f : MutFn V V) : ∀ (fuel j : Nat) (self that : Tree K V), Cnt (j * that.nodes) (true = true) (outerWithGoL f fuel j self that) (outerWithGo f fuel self that)
  | 0, _, _, _ => ⟨rfl, nofun⟩
  | fuel + 1, j, self, that => by
    have ih := outerWithGoL_ok f fuel
    rw [outerWithGoL, outerWithGo]
    refine Cnt.finish ?_
    unfold outerWithCasesL outerWithCases outerWithOp
    generalize commonPrefix self.pre that.pre = n
    split
    · exact Cnt.andThen fun s => see_children ih s that
    · split
      · exact see_copy ih self self that n
      · split
        · exact Cnt.andThen fun s => Cnt.andThen fun s => see_children ih s that
        · refine Cnt.andThen fun s => ?_
          exact ((Cnt.mat (N := 0) fun x => Cnt.pure0 _).see (j * that.copyCalls)).cast (by rw [copyCalls_eq, Nat.add_zero])

theorem innerWithGoL_ok (f : MutFn V W) : ∀ (fuel j : Nat) (self : Tree K V) (that : Tree K W), Cnt (j * that.nodes) (false = true) (innerWithGoL f fuel j self that) (innerWithGo f fuel self that)
  | 0, _, _, _ => ⟨rfl, nofun⟩
  | fuel + 1, j, self, that => by
    have ih := innerWithGoL_ok f fuel
    rw [innerWithGoL, innerWithGo]
    refine Cnt.finish ?_
    unfold innerWithCasesL innerWithCases innerWithOp
    generalize commonPrefix self.pre that.pre = n
    split
    · exact Cnt.andThen fun s => see_children ih s that
    · split
      · exact see_copy ih _ _ that n
      · split
        · exact Cnt.andThen fun s => see_children ih s that
        · exact ⟨rfl, fun _ => ⟨Nat.zero_le _, nofun⟩⟩

theorem leftWithGoL_ok (f : MutFn V W) : ∀ (fuel j : Nat) (self : Tree K V) (that : Tree K W), Cnt (j * that.nodes) (false = true) (leftWithGoL f fuel j self that) (leftWithGo f fuel self that)
  | 0, _, _, _ => ⟨rfl, nofun⟩
  | fuel + 1, j, self, that => by
    have ih := leftWithGoL_ok f fuel
    rw [leftWithGoL, leftWithGo]
    refine Cnt.finish ?_
    unfold leftWithCasesL leftWithCases leftWithOp
    generalize commonPrefix self.pre that.pre = n
    split
    · exact Cnt.andThen fun s => see_children ih s that
    · split
      · exact see_copy ih _ _ that n
      · split
        · exact Cnt.andThen fun s => see_children ih s that
        · exact ⟨rfl, fun _ => ⟨Nat.zero_le _, nofun⟩⟩

theorem removePrefixGoL_ok (f : W → Bool) : ∀ (fuel j : Nat) (self : Tree K V) (that : Tree K W),
    Cnt (j * that.nodes) (false = true) (removePrefixGoL f fuel j self that) (removePrefixGo f fuel self that)
  | 0, _, _, _ => ⟨rfl, nofun⟩
  | fuel + 1, j, self, that => by
    have ih := removePrefixGoL_ok f fuel
    rw [removePrefixGoL, removePrefixGo]
    refine Cnt.finish ?_
    unfold removePrefixCasesL removePrefixCases removePrefixOp
    generalize commonPrefix self.pre that.pre = n
    split
    · split
      · exact ⟨rfl, fun _ => ⟨Nat.zero_le _, nofun⟩⟩
      · exact see_children ih _ that
    · split
      · split
        · exact ⟨rfl, fun _ => ⟨Nat.zero_le _, nofun⟩⟩
        · exact Cnt.andThen fun s => see_children ih s that
      · split
        · exact see_copy ih _ _ that n
        · exact ⟨rfl, fun _ => ⟨Nat.zero_le _, nofun⟩⟩

theorem retainPrefixGoL_ok (f : W → Bool) : ∀ (fuel j : Nat) (self : Tree K V) (that : Tree K W),
    Cnt (j * that.nodes) (false = true) (retainPrefixGoL f fuel j self that) (retainPrefixGo f fuel self that)
  | 0, _, _, _ => ⟨rfl, nofun⟩
  | fuel + 1, j, self, that => by
    have ih := retainPrefixGoL_ok f fuel
    rw [retainPrefixGoL, retainPrefixGo]
    refine Cnt.finish ?_
    unfold retainPrefixCasesL retainPrefixCases retainPrefixOp
    generalize commonPrefix self.pre that.pre = n
    split
    · split
      · exact see_children ih _ that
      · exact ⟨rfl, fun _ => ⟨Nat.zero_le _, nofun⟩⟩
    · split
      · split
        · exact Cnt.andThen fun s => see_children ih s that
        · exact ⟨rfl, fun _ => ⟨Nat.zero_le _, nofun⟩⟩
      · split
        · exact see_copy ih _ _ that n
        · exact ⟨rfl, fun _ => ⟨Nat.zero_le _, nofun⟩⟩
end
end Verif.Tree
