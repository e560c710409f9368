import Verif.Lemmas.RadixLockGo
/-! The stateful in-place merge of siblings as a plain recursion. -/
namespace Verif
namespace Tree
open Std

section
variable {A B R S : Type _}

/-- merge of two sorted lists where only pairs touch the state -/
def joinE (cmp : A → B → Ordering) (g : A → Option R) (fc : A → B → S → Emit R × S) : List A → List B → S → Emit R × S
  | [], _, c => (([], .cont), c)
  | a :: as, [], c => (((a :: as).filterMap g, .cont), c)
  | a :: as, b :: bs, c =>
    match cmp a b with
    | .lt => (((g a).toList ++ (joinE cmp g fc as (b :: bs) c).1.1, (joinE cmp g fc as (b :: bs) c).1.2), (joinE cmp g fc as (b :: bs) c).2)
    | .gt => joinE cmp g fc (a :: as) bs c
    | .eq =>
      if (fc a b c).1.2 = .cont then
        (((fc a b c).1.1 ++ (joinE cmp g fc as bs (fc a b c).2).1.1, (joinE cmp g fc as bs (fc a b c).2).1.2), (joinE cmp g fc as bs (fc a b c).2).2)
      else fc a b c
termination_by as bs => as.length + bs.length

variable {cmp : A → B → Ordering} {g : A → Option R} {fc : A → B → S → Emit R × S}

theorem joinE_nil_right (as : List A) (c : S) : joinE cmp g fc as [] c = ((as.filterMap g, .cont), c) := by
  cases as <;> simp [joinE]

theorem joinE_a (n : Nat) {as : List A} {bs : List B} (h : ∀ x ∈ as.take n, ∀ y ∈ bs, cmp x y = .lt) (c : S) :
    joinE cmp g fc as bs c =
      (((as.take n).filterMap g ++ (joinE cmp g fc (as.drop n) bs c).1.1, (joinE cmp g fc (as.drop n) bs c).1.2), (joinE cmp g fc (as.drop n) bs c).2) := by
  induction n generalizing as with
  | zero => simp
  | succ n ih =>
    cases as with
    | nil => simp
    | cons a as =>
      cases bs with
      | nil =>
        simp only [joinE_nil_right]
        rw [← List.filterMap_append, List.take_append_drop]
      | cons b bs =>
        rw [joinE, h a (by simp) b (by simp)]
        simp only
        rw [ih fun x hx => h x (by simp [hx])]
        simp only [List.take_succ_cons, List.drop_succ_cons, List.filterMap_cons]
        cases g a <;> simp

theorem joinE_b (n : Nat) {as : List A} {bs : List B} (h : ∀ y ∈ bs.take n, ∀ x ∈ as, cmp x y = .gt) (c : S) :
    joinE cmp g fc as bs c = joinE cmp g fc as (bs.drop n) c := by
  cases as with
  | nil => simp [joinE]
  | cons a as =>
    induction n generalizing bs with
    | zero => rfl
    | succ n ih =>
      cases bs with
      | nil => rfl
      | cons b bs =>
        rw [joinE, h b (by simp) a (by simp)]
        exact ih fun y hy => h y (by simp [hy])
end

section
variable {K V W S σ : Type _} [Ord K] [MergeState σ (Tree K V) (Tree K W)]
  {op : MergeOp (σ × S) (Tree K V) (Tree K W)} {out : σ → List (Tree K V)} {g : Tree K V → Option (Tree K V)}
  {fc : Tree K V → Tree K W → S → Emit (Tree K V) × S}

theorem collect_ret_all (l : List (Tree K V)) : collect (fun x => Emit.ret (g x)) l = (l.filterMap g, .cont) := by
  induction l with
  | nil => rfl
  | cons x l ih =>
    rw [collect, ih, List.filterMap_cons]
    cases g x <;> rfl

omit [Ord K] in
theorem collect_nothing (l : List (Tree K W)) : collect (fun _ => (([], .cont) : Emit (Tree K V))) l = ([], .cont) := by
  induction l with
  | nil => rfl
  | cons x l ih => rw [collect, ih]; rfl

theorem run_joinE (impl : OpE op out (fun x => Emit.ret (g x)) (fun _ => ([], .cont)) fc) {as : List (Tree K V)} {bs : List (Tree K W)}
    {evs : List Ev} (hl : Legal headCmp as bs evs) :
    ∀ (s : σ × S) (as2 : List (Tree K V)) (bs2 : List (Tree K W)), MergeState.aSlice s.1 = as ++ as2 → MergeState.bSlice s.1 = bs ++ bs2 →
      out (runEvs op s evs).1.1 = out s.1 ++ (joinE headCmp g fc as bs s.2).1.1 ∧ (runEvs op s evs).2 = (joinE headCmp g fc as bs s.2).1.2 ∧
        (runEvs op s evs).1.2 = (joinE headCmp g fc as bs s.2).2 := by
  induction hl with
  | done => intro s _ _ _ _; simp [runEvs, joinE]
  | @a as bs evs n h1 hn hlt _ ih =>
    intro s as2 bs2 ha hb
    have step := impl.fromA s n h1 (by rw [ha]; simp; omega)
    rw [ha, List.take_append_of_le_length hn, List.drop_append_of_le_length hn, collect_ret_all] at step
    rw [joinE_a n hlt, runEvs]
    obtain ⟨s1, s2, s3, s4, s5⟩ := step
    rcases hr : op.fromA s n with ⟨⟨m, c⟩, fl⟩
    rw [hr] at s1 s2 s3 s4 s5
    simp only at s1 s2 s3 s4 s5
    subst s1 s3
    obtain ⟨i1, i2, i3⟩ := ih (m, s.2) as2 bs2 (s4 rfl) (by rw [s5 rfl, hb])
    simp only [Verif.andThen]
    refine ⟨?_, i2, i3⟩
    rw [i1, s2, List.append_assoc]
  | @b as bs evs n h1 hn hlt _ ih =>
    intro s as2 bs2 ha hb
    have step := impl.fromB s n h1 (by rw [hb]; simp; omega)
    rw [hb, List.take_append_of_le_length hn, List.drop_append_of_le_length hn, collect_nothing] at step
    rw [joinE_b n hlt, runEvs]
    obtain ⟨s1, s2, s3, s4, s5⟩ := step
    rcases hr : op.fromB s n with ⟨⟨m, c⟩, fl⟩
    rw [hr] at s1 s2 s3 s4 s5
    simp only at s1 s2 s3 s4 s5
    subst s1 s3
    obtain ⟨i1, i2, i3⟩ := ih (m, s.2) as2 bs2 (by rw [s4 rfl, ha]) (s5 rfl)
    simp only [Verif.andThen]
    refine ⟨?_, i2, i3⟩
    rw [i1, s2, List.append_nil]
  | @c x y as bs evs he _ ih =>
    intro s as2 bs2 ha hb
    have step := impl.collision s x (as ++ as2) y (bs ++ bs2) (by simpa using ha) (by simpa using hb)
    rw [joinE, he, runEvs]
    simp only
    obtain ⟨s1, s2, s3, s4, s5⟩ := step
    rcases hr : op.collision s with ⟨⟨m, c⟩, fl⟩
    rw [hr] at s1 s2 s3 s4 s5
    simp only at s1 s2 s3 s4 s5
    rw [← s1, ← s3]
    cases fl with
    | cont =>
      obtain ⟨i1, i2, i3⟩ := ih (m, c) as2 bs2 (s4 rfl) (s5 rfl)
      simp only [Verif.andThen, ↓reduceIte]
      refine ⟨?_, i2, i3⟩
      rw [i1, s2, List.append_assoc]
    | stop => simp [Verif.andThen, s2, ← s1, s3]
    | panic => simp [Verif.andThen, s2, ← s1, s3]

variable [TransOrd K] [LawfulEqOrd K]

/-- the merge of the children -/
theorem childrenWithE_eq (takeA : Bool) (conv : Tree K W → Call (Tree K V)) (rec : Tree K V → Tree K W → S → (Tree K V × S) × Flow)
    (t : Tree K V) (c : S) {rhs : List (Tree K W)} (ka : Kids t.kids) (kb : Kids rhs) :
    childrenWithE (inPlaceOpE takeA false conv rec) (t, c) rhs =
      ((⟨t.pre, t.val, (joinE headCmp (fun x => if takeA then some x else none) (fun x y c => recEmitE (rec x y c)) t.kids rhs c).1.1⟩,
        (joinE headCmp (fun x => if takeA then some x else none) (fun x y c => recEmitE (rec x y c)) t.kids rhs c).2),
        (joinE headCmp (fun x => if takeA then some x else none) (fun x y c => recEmitE (rec x y c)) t.kids rhs c).1.2) := by
  have impl := inPlaceOpE_opE takeA false conv rec
  simp only [Bool.false_eq_true, ↓reduceIte] at impl
  obtain ⟨evs, h1, h2⟩ := mergeAll_eq_plan impl.slices (ka := hd) (kb := hd) (by intro a b; rw [impl.cmp]; rfl)
    (({ tgt := [], src := t.kids, b := rhs } : InPlaceMS _ _), c) trivial ka.asc kb.asc
  rw [impl.cmp] at h1
  obtain ⟨i1, i2, i3⟩ := run_joinE impl h1 (({ tgt := [], src := t.kids, b := rhs } : InPlaceMS _ _), c) [] [] (List.append_nil _).symm
    (List.append_nil _).symm
  rw [← h2] at i1 i2 i3
  simp only [List.nil_append] at i1 i2 i3
  unfold childrenWithE
  simp only [ka.headed, kb.headed, Bool.and_self, ↓reduceIte, InPlaceMS.mergeE]
  rw [i1, i2, i3]
  rfl

end
end Tree
end Verif
