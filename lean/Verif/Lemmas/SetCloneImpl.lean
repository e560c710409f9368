import Verif.Lemmas.SetClone
/-! The callbacks of the operators and joins, with clones that have effects. -/
namespace Verif
open Std
namespace CloneMerge

section loops
variable {A B X R S : Type _} {h : Closure S X (Option R)}

/-- one more call at the front -/
theorem answersOf_cons (x : X) (l : List X) (c : S) : answersOf h (x :: l) c =
    match h x c with
    | (.panic, c') => ([], c', .panic)
    | (.ret o, c') => (o.toList ++ (answersOf h l c').1, (answersOf h l c').2) := by
  simp only [answersOf, callEach]
  rcases h x c with ⟨o | _, c'⟩
  · cases o <;> rfl
  · rfl

@[simp] theorem answersOf_nil (c : S) : answersOf h [] c = ([], c, .cont) := rfl

theorem loopA {l : A → X} {g : A → S → Call (Option R) × S} (hg : ∀ x c, h (l x) c = g x c) (n : Nat) :
    ∀ (s : SliceMS A B R × S), n ≤ s.1.a.length →
    GSpec (fun m => m.r) h s (SliceMS.loopAE g s n) ((s.1.a.take n).map l) (s.1.a.drop n) s.1.b := by
  induction n with
  | zero => intro s _; exact GSpec.refl s
  | succ n ih =>
    rintro ⟨⟨a, b, r⟩, c⟩ hn
    cases a with
    | nil => simp at hn
    | cons x xs =>
      simp only [SliceMS.loopAE, List.take_succ_cons, List.drop_succ_cons, List.map_cons]
      rcases hc : g x c with ⟨o | _, c'⟩
      · have := ih ({ a := xs, b := b, r := r ++ o.toList }, c') (by simpa using hn)
        exact ⟨by rw [this.out]; simp [answersOf_cons, hg, hc], by rw [this.st]; simp [answersOf_cons, hg, hc],
          by rw [this.flow]; simp [answersOf_cons, hg, hc], this.a, this.b⟩
      · exact ⟨by simp [answersOf_cons, hg, hc], by simp [answersOf_cons, hg, hc], by simp [answersOf_cons, hg, hc], by simp, by simp⟩

theorem loopB {l : B → X} {g : B → S → Call (Option R) × S} (hg : ∀ x c, h (l x) c = g x c) (n : Nat) :
    ∀ (s : SliceMS A B R × S), n ≤ s.1.b.length →
    GSpec (fun m => m.r) h s (SliceMS.loopBE g s n) ((s.1.b.take n).map l) s.1.a (s.1.b.drop n) := by
  induction n with
  | zero => intro s _; exact GSpec.refl s
  | succ n ih =>
    rintro ⟨⟨a, b, r⟩, c⟩ hn
    cases b with
    | nil => simp at hn
    | cons x xs =>
      simp only [SliceMS.loopBE, List.take_succ_cons, List.drop_succ_cons, List.map_cons]
      rcases hc : g x c with ⟨o | _, c'⟩
      · have := ih ({ a := a, b := xs, r := r ++ o.toList }, c') (by simpa using hn)
        exact ⟨by rw [this.out]; simp [answersOf_cons, hg, hc], by rw [this.st]; simp [answersOf_cons, hg, hc],
          by rw [this.flow]; simp [answersOf_cons, hg, hc], this.a, this.b⟩
      · exact ⟨by simp [answersOf_cons, hg, hc], by simp [answersOf_cons, hg, hc], by simp [answersOf_cons, hg, hc], by simp, by simp⟩

theorem both {l : A → B → X} {g : A → B → S → Call (Option R) × S} (hg : ∀ x y c, h (l x y) c = g x y c)
    (s : SliceMS A B R × S) (x : A) (as : List A) (y : B) (bs : List B) (ha : s.1.a = x :: as) (hb : s.1.b = y :: bs) :
    GSpec (fun m => m.r) h s (SliceMS.bothE g s) [l x y] as bs := by
  obtain ⟨⟨a, b, r⟩, c⟩ := s
  simp only at ha hb
  subst ha hb
  simp only [SliceMS.bothE]
  rcases hc : g x y c with ⟨o | _, c'⟩
  · exact ⟨by simp [answersOf_cons, hg, hc, answersOf_nil], by simp [answersOf_cons, hg, hc, answersOf_nil],
      by simp [answersOf_cons, hg, hc, answersOf_nil], fun _ => rfl, fun _ => rfl⟩
  · exact ⟨by simp [answersOf_cons, hg, hc], by simp [answersOf_cons, hg, hc], by simp [answersOf_cons, hg, hc], by simp, by simp⟩

theorem placeLoopA {h : Closure S X (Option A)} {l : A → X} {g : A → S → Call (Option A) × S} (hg : ∀ x c, h (l x) c = g x c) (n : Nat) :
    ∀ (s : InPlaceMS A B × S), n ≤ s.1.src.length →
    GSpec (fun m => m.tgt) h s (InPlaceMS.loopAE g s n) ((s.1.src.take n).map l) (s.1.src.drop n) s.1.b := by
  induction n with
  | zero => intro s _; exact GSpec.refl s
  | succ n ih =>
    rintro ⟨⟨r, a, b⟩, c⟩ hn
    cases a with
    | nil => simp at hn
    | cons x xs =>
      simp only [InPlaceMS.loopAE, List.take_succ_cons, List.drop_succ_cons, List.map_cons]
      rcases hc : g x c with ⟨o | _, c'⟩
      · have := ih ({ src := xs, b := b, tgt := r ++ o.toList }, c') (by simpa using hn)
        exact ⟨by rw [this.out]; simp [answersOf_cons, hg, hc], by rw [this.st]; simp [answersOf_cons, hg, hc],
          by rw [this.flow]; simp [answersOf_cons, hg, hc], this.a, this.b⟩
      · exact ⟨by simp [answersOf_cons, hg, hc], by simp [answersOf_cons, hg, hc], by simp [answersOf_cons, hg, hc], by simp, by simp⟩

theorem placeLoopB {h : Closure S X (Option A)} {l : B → X} {g : B → S → Call (Option A) × S} (hg : ∀ x c, h (l x) c = g x c) (n : Nat) :
    ∀ (s : InPlaceMS A B × S), n ≤ s.1.b.length →
    GSpec (fun m => m.tgt) h s (InPlaceMS.loopBE g s n) ((s.1.b.take n).map l) s.1.src (s.1.b.drop n) := by
  induction n with
  | zero => intro s _; exact GSpec.refl s
  | succ n ih =>
    rintro ⟨⟨r, a, b⟩, c⟩ hn
    cases b with
    | nil => simp at hn
    | cons x xs =>
      simp only [InPlaceMS.loopBE, List.take_succ_cons, List.drop_succ_cons, List.map_cons]
      rcases hc : g x c with ⟨o | _, c'⟩
      · have := ih ({ src := a, b := xs, tgt := r ++ o.toList }, c') (by simpa using hn)
        exact ⟨by rw [this.out]; simp [answersOf_cons, hg, hc], by rw [this.st]; simp [answersOf_cons, hg, hc],
          by rw [this.flow]; simp [answersOf_cons, hg, hc], this.a, this.b⟩
      · exact ⟨by simp [answersOf_cons, hg, hc], by simp [answersOf_cons, hg, hc], by simp [answersOf_cons, hg, hc], by simp, by simp⟩

theorem placeBoth {h : Closure S X (Option A)} {l : A → B → X} {g : A → B → S → Call (Option A) × S} (hg : ∀ x y c, h (l x y) c = g x y c)
    (s : InPlaceMS A B × S) (x : A) (as : List A) (y : B) (bs : List B) (ha : s.1.src = x :: as) (hb : s.1.b = y :: bs) :
    GSpec (fun m => m.tgt) h s (InPlaceMS.bothE g s) [l x y] as bs := by
  obtain ⟨⟨r, a, b⟩, c⟩ := s
  simp only at ha hb
  subst ha hb
  simp only [InPlaceMS.bothE]
  rcases hc : g x y c with ⟨o | _, c'⟩
  · exact ⟨by simp [answersOf_cons, hg, hc, answersOf_nil], by simp [answersOf_cons, hg, hc, answersOf_nil],
      by simp [answersOf_cons, hg, hc, answersOf_nil], fun _ => rfl, fun _ => rfl⟩
  · exact ⟨by simp [answersOf_cons, hg, hc], by simp [answersOf_cons, hg, hc], by simp [answersOf_cons, hg, hc], by simp, by simp⟩

/-- a callback that calls nothing -/
theorem quietly {σ : Type _} [MergeState σ A B] {out : σ → List R} {s : σ × S} {m' : σ} {args : List X} {a' : List A} {b' : List B}
    (ho : out m' = out s.1) (ha : MergeState.aSlice m' = a') (hb : MergeState.bSlice m' = b')
    (hn : ∀ x ∈ args, ∀ c, h x c = (.ret none, c)) : GSpec out h s ((m', s.2), .cont) args a' b' := by
  have e := callEach_nothing h args hn s.2
  exact ⟨by simp [answersOf, e, ho], by simp [answersOf, e], by simp [answersOf, e], fun _ => ha, fun _ => hb⟩

/-- elements pushed one by one -/
theorem pushAll_answers {l : A → X} {cl : A → S → Call R × S} (hg : ∀ x c, h (l x) c = answering cl x c) :
    ∀ (xs : List A) (r : List R) (c : S), pushAllC cl (r, c) xs =
      ((r ++ (answersOf h (xs.map l) c).1, (answersOf h (xs.map l) c).2.1), (answersOf h (xs.map l) c).2.2) := by
  intro xs
  induction xs with
  | nil => intro r c; simp [pushAllC, answersOf, callEach]
  | cons x xs ih =>
    intro r c
    simp only [pushAllC, List.map_cons, answersOf_cons, hg, answering]
    rcases cl x c with ⟨o | _, c'⟩
    · simp [ih]
    · simp

theorem extend_answers {h : Closure S X (Option A)} {l : B → X} {cl : B → S → Call A × S} (hg : ∀ x c, h (l x) c = answering cl x c) :
    ∀ (n : Nat) (s : InPlaceMS A B × S), n ≤ s.1.b.length →
    GSpec (fun m => m.tgt) h s (InPlaceMS.extendFromIterC cl s n) ((s.1.b.take n).map l) s.1.src (s.1.b.drop n) := by
  intro n
  induction n with
  | zero => intro s _; exact GSpec.refl s
  | succ n ih =>
    rintro ⟨⟨r, a, b⟩, c⟩ hn
    cases b with
    | nil => simp at hn
    | cons x xs =>
      simp only [InPlaceMS.extendFromIterC, List.take_succ_cons, List.drop_succ_cons, List.map_cons]
      rcases hc : cl x c with ⟨y | _, c'⟩
      · have := ih ({ src := a, b := xs, tgt := r ++ [y] }, c') (by simpa using hn)
        exact ⟨by rw [this.out]; simp [answersOf_cons, hg, answering, hc], by rw [this.st]; simp [answersOf_cons, hg, answering, hc],
          by rw [this.flow]; simp [answersOf_cons, hg, answering, hc], this.a, this.b⟩
      · exact ⟨by simp [answersOf_cons, hg, answering, hc], by simp [answersOf_cons, hg, answering, hc], by simp [answersOf_cons, hg, answering, hc], by simp, by simp⟩

end loops

/-! ### What the merge states do -/
section advance
variable {A B X R S : Type _}

theorem slice_takeA {h : Closure S X (Option R)} {l : A → X} {ca : A → S → Call R × S} {cb : B → S → Call R × S} (hg : ∀ x c, h (l x) c = answering ca x c)
    (s : SliceMS A B R × S) (n : Nat) (hn : n ≤ s.1.a.length) :
    GSpec (fun m => m.r) h s ((SliceMS.mutC ca cb).advanceA s n true) ((s.1.a.take n).map l) (s.1.a.drop n) s.1.b := by
  have : ¬ s.1.a.length < n := by omega
  simp only [SliceMS.mutC, this, ↓reduceIte, pushAll_answers hg]
  exact ⟨rfl, rfl, rfl, fun _ => rfl, fun _ => rfl⟩

theorem slice_takeB {h : Closure S X (Option R)} {l : B → X} {ca : A → S → Call R × S} {cb : B → S → Call R × S} (hg : ∀ x c, h (l x) c = answering cb x c)
    (s : SliceMS A B R × S) (n : Nat) (hn : n ≤ s.1.b.length) :
    GSpec (fun m => m.r) h s ((SliceMS.mutC ca cb).advanceB s n true) ((s.1.b.take n).map l) s.1.a (s.1.b.drop n) := by
  have : ¬ s.1.b.length < n := by omega
  simp only [SliceMS.mutC, this, ↓reduceIte, pushAll_answers hg]
  exact ⟨rfl, rfl, rfl, fun _ => rfl, fun _ => rfl⟩

theorem slice_dropA {h : Closure S X (Option R)} {ca : A → S → Call R × S} {cb : B → S → Call R × S} {args : List X} (hg : ∀ x ∈ args, ∀ c, h x c = (.ret none, c))
    (s : SliceMS A B R × S) (n : Nat) (hn : n ≤ s.1.a.length) :
    GSpec (fun m => m.r) h s ((SliceMS.mutC ca cb).advanceA s n false) args (s.1.a.drop n) s.1.b := by
  have : ¬ s.1.a.length < n := by omega
  simp only [SliceMS.mutC, this, ↓reduceIte, Bool.false_eq_true]
  exact quietly rfl rfl rfl hg

theorem slice_dropB {h : Closure S X (Option R)} {ca : A → S → Call R × S} {cb : B → S → Call R × S} {args : List X} (hg : ∀ x ∈ args, ∀ c, h x c = (.ret none, c))
    (s : SliceMS A B R × S) (n : Nat) (hn : n ≤ s.1.b.length) :
    GSpec (fun m => m.r) h s ((SliceMS.mutC ca cb).advanceB s n false) args s.1.a (s.1.b.drop n) := by
  have : ¬ s.1.b.length < n := by omega
  simp only [SliceMS.mutC, this, ↓reduceIte, Bool.false_eq_true]
  exact quietly rfl rfl rfl hg

/-- elements that stay -/
theorem answers_keep {h : Closure S X (Option A)} {l : A → X} (hg : ∀ x c, h (l x) c = (.ret (some x), c)) (xs : List A) (c : S) :
    answersOf h (xs.map l) c = (xs, c, .cont) := by
  induction xs with
  | nil => rfl
  | cons x xs ih => simp [answersOf_cons, hg, ih]

theorem place_takeA {h : Closure S X (Option A)} {l : A → X} {cl : B → S → Call A × S} (hg : ∀ x c, h (l x) c = (.ret (some x), c))
    (s : InPlaceMS A B × S) (n : Nat) (hn : n ≤ s.1.src.length) :
    GSpec (fun m => m.tgt) h s ((InPlaceMS.mutC cl).advanceA s n true) ((s.1.src.take n).map l) (s.1.src.drop n) s.1.b := by
  have e := answers_keep hg (s.1.src.take n) s.2
  simp only [InPlaceMS.mutC, InPlaceMS.consume, ↓reduceIte, Nat.min_eq_left hn]
  exact ⟨by rw [e], by rw [e], by rw [e], fun _ => rfl, fun _ => rfl⟩

theorem place_dropA {h : Closure S X (Option A)} {cl : B → S → Call A × S} {args : List X} (hg : ∀ x ∈ args, ∀ c, h x c = (.ret none, c))
    (s : InPlaceMS A B × S) (n : Nat) (hn : n ≤ s.1.src.length) :
    GSpec (fun m => m.tgt) h s ((InPlaceMS.mutC cl).advanceA s n false) args (s.1.src.drop n) s.1.b := by
  simp only [InPlaceMS.mutC, InPlaceMS.consume, ↓reduceIte, Nat.min_eq_left hn, Bool.false_eq_true]
  exact quietly rfl rfl rfl hg

theorem skipB_eq (n : Nat) : ∀ (m : InPlaceMS A B), m.skipB n = { m with b := m.b.drop n } := by
  induction n with
  | zero => intro m; rfl
  | succ n ih => intro m; rw [InPlaceMS.skipB, ih]; simp

theorem place_dropB {h : Closure S X (Option A)} {cl : B → S → Call A × S} {args : List X} (hg : ∀ x ∈ args, ∀ c, h x c = (.ret none, c))
    (s : InPlaceMS A B × S) (n : Nat) :
    GSpec (fun m => m.tgt) h s ((InPlaceMS.mutC cl).advanceB s n false) args s.1.src (s.1.b.drop n) := by
  simp only [InPlaceMS.mutC, ↓reduceIte, Bool.false_eq_true, skipB_eq]
  exact quietly rfl rfl rfl hg

theorem place_takeB {h : Closure S X (Option A)} {l : B → X} {cl : B → S → Call A × S} (hg : ∀ x c, h (l x) c = answering cl x c)
    (s : InPlaceMS A B × S) (n : Nat) (hn : n ≤ s.1.b.length) :
    GSpec (fun m => m.tgt) h s ((InPlaceMS.mutC cl).advanceB s n true) ((s.1.b.take n).map l) s.1.src (s.1.b.drop n) :=
  extend_answers hg n s hn

end advance

/-! ### Sets -/
section sets
variable {T S : Type _} [Ord T]

/-- the elements of two sets as join arguments -/
def setSides : Sides T T (OuterJoinArg T Unit Unit) := ⟨fun x => .left x (), fun y => .right y (), fun x _ => .both x () ()⟩

theorem joinRef_map {A B A' B' R : Type _} {cmp : A' → B' → Ordering} {fa : A' → Emit R} {fb : B' → Emit R} {fc : A' → B' → Emit R} (p : A → A') (q : B → B') :
    ∀ (a : List A) (b : List B), joinRef cmp fa fb fc (a.map p) (b.map q) =
      joinRef (fun x y => cmp (p x) (q y)) (fun x => fa (p x)) (fun y => fb (q y)) (fun x y => fc (p x) (q y)) a b := by
  intro a b
  fun_induction joinRef (fun x y => cmp (p x) (q y)) (fun x => fa (p x)) (fun y => fb (q y)) (fun x y => fc (p x) (q y)) a b with
  | case1 bs => rw [List.map_nil, joinRef_nil_left, collect_map]
  | case2 x as => rw [List.map_nil, joinRef_nil_right, collect_map]
  | case3 x as y bs hc ih => rw [List.map_cons, List.map_cons, joinRef, hc, ← ih]; rfl
  | case4 x as y bs hc ih => rw [List.map_cons, List.map_cons, joinRef, hc, ← ih]; rfl
  | case5 x as y bs hc ih => rw [List.map_cons, List.map_cons, joinRef, hc, ← ih]

/-- a set as a map -/
abbrev pairs (l : List T) : List (T × Unit) := l.map fun x => (x, ())

theorem setSides_args (a b : List T) : sidesOf setSides compare a b = joinArgs (pairs a) (pairs b) := by
  have := congrArg Prod.fst (joinRef_one (pairs a) (pairs b))
  rw [joinRef_map] at this
  exact this

/-- the closures behind the operators -/
def unionFn (cl : Closure S T T) : Closure S (OuterJoinArg T Unit Unit) (Option T) := fun x c => answering cl x.key c
def interFn (cl : Closure S T T) : Closure S (OuterJoinArg T Unit Unit) (Option T)
  | .both x _ _, c => answering cl x c
  | _, c => (.ret none, c)
def xorFn (cl : Closure S T T) : Closure S (OuterJoinArg T Unit Unit) (Option T)
  | .left x _, c => answering cl x c
  | .right x _, c => answering cl x c
  | .both _ _ _, c => (.ret none, c)
def diffFn (cl : Closure S T T) : Closure S (OuterJoinArg T Unit Unit) (Option T)
  | .left x _, c => answering cl x c
  | _, c => (.ret none, c)
def orAssignFn (cl : Closure S T T) : Closure S (OuterJoinArg T Unit Unit) (Option T)
  | .left x _, c => (.ret (some x), c)
  | .right x _, c => answering cl x c
  | .both x _ _, c => (.ret (some x), c)
def xorAssignFn (cl : Closure S T T) : Closure S (OuterJoinArg T Unit Unit) (Option T)
  | .left x _, c => (.ret (some x), c)
  | .right x _, c => answering cl x c
  | .both _ _ _, c => (.ret none, c)
def andAssignFn : Closure S (OuterJoinArg T Unit Unit) (Option T)
  | .both x _ _, c => (.ret (some x), c)
  | _, c => (.ret none, c)
def subAssignFn : Closure S (OuterJoinArg T Unit Unit) (Option T)
  | .left x _, c => (.ret (some x), c)
  | _, c => (.ret none, c)

theorem map_quiet {A X R S : Type _} {h : Closure S X (Option R)} {l : A → X} (hl : ∀ x c, h (l x) c = (.ret none, c)) (xs : List A) :
    ∀ x ∈ xs.map l, ∀ c, h x c = (.ret none, c) := by
  intro x hx c
  obtain ⟨y, _, rfl⟩ := List.mem_map.1 hx
  exact hl y c

theorem slice_coll_take {h : Closure S (OuterJoinArg T Unit Unit) (Option T)} {cl : T → S → Call T × S} (hg : ∀ x c, h (.both x () ()) c = answering cl x c)
    (s : SliceMS T T T × S) (x : T) (as : List T) (y : T) (bs : List T) (ha : s.1.a = x :: as) (hb : s.1.b = y :: bs) :
    GSpec (fun m => m.r) h s (andThen ((SliceMS.mutC cl cl).advanceA s 1 true) fun s => (SliceMS.mutC cl cl).advanceB s 1 false)
      [.both x () ()] as bs := by
  have h1 := slice_takeA (l := fun x => OuterJoinArg.both x () ()) (ca := cl) (cb := cl) hg s 1 (by rw [ha]; simp)
  rw [ha, hb] at h1
  refine h1.andThen (as2 := []) fun hc => ?_
  have e1 := h1.a hc
  have e2 := h1.b hc
  simp only [MergeState.aSlice, MergeState.bSlice] at e1 e2
  have h2 := slice_dropB (h := h) (ca := cl) (cb := cl) (args := []) (by simp) ((SliceMS.mutC cl cl).advanceA s 1 true).1 1 (by rw [e2]; simp)
  rw [e1, e2] at h2
  exact h2

theorem slice_coll_drop {h : Closure S (OuterJoinArg T Unit Unit) (Option T)} {cl : T → S → Call T × S} (hg : ∀ x c, h (.both x () ()) c = (.ret none, c))
    (s : SliceMS T T T × S) (x : T) (as : List T) (y : T) (bs : List T) (ha : s.1.a = x :: as) (hb : s.1.b = y :: bs) :
    GSpec (fun m => m.r) h s (andThen ((SliceMS.mutC cl cl).advanceA s 1 false) fun s => (SliceMS.mutC cl cl).advanceB s 1 false)
      [.both x () ()] as bs := by
  have h1 := slice_dropA (h := h) (args := [.both x () ()]) (ca := cl) (cb := cl) (by simp [hg]) s 1 (by rw [ha]; simp)
  rw [ha, hb] at h1
  refine h1.andThen (as2 := []) fun hc => ?_
  have e1 := h1.a hc
  have e2 := h1.b hc
  simp only [MergeState.aSlice, MergeState.bSlice] at e1 e2
  have h2 := slice_dropB (h := h) (ca := cl) (cb := cl) (args := []) (by simp) ((SliceMS.mutC cl cl).advanceA s 1 false).1 1 (by rw [e2]; simp)
  rw [e1, e2] at h2
  exact h2

theorem place_coll_take {h : Closure S (OuterJoinArg T Unit Unit) (Option T)} {cl : T → S → Call T × S} (hg : ∀ x c, h (.both x () ()) c = (.ret (some x), c))
    (s : InPlaceMS T T × S) (x : T) (as : List T) (y : T) (bs : List T) (ha : s.1.src = x :: as) (hb : s.1.b = y :: bs) :
    GSpec (fun m => m.tgt) h s (andThen ((InPlaceMS.mutC cl).advanceA s 1 true) fun s => (InPlaceMS.mutC cl).advanceB s 1 false)
      [.both x () ()] as bs := by
  have h1 := place_takeA (l := fun x => OuterJoinArg.both x () ()) (cl := cl) hg s 1 (by rw [ha]; simp)
  rw [ha, hb] at h1
  refine h1.andThen (as2 := []) fun hc => ?_
  have e1 := h1.a hc
  have e2 := h1.b hc
  simp only [MergeState.aSlice, MergeState.bSlice] at e1 e2
  have h2 := place_dropB (h := h) (cl := cl) (args := []) (by simp) ((InPlaceMS.mutC cl).advanceA s 1 true).1 1
  rw [e1, e2] at h2
  exact h2

theorem place_coll_drop {h : Closure S (OuterJoinArg T Unit Unit) (Option T)} {cl : T → S → Call T × S} (hg : ∀ x c, h (.both x () ()) c = (.ret none, c))
    (s : InPlaceMS T T × S) (x : T) (as : List T) (y : T) (bs : List T) (ha : s.1.src = x :: as) (hb : s.1.b = y :: bs) :
    GSpec (fun m => m.tgt) h s (andThen ((InPlaceMS.mutC cl).advanceA s 1 false) fun s => (InPlaceMS.mutC cl).advanceB s 1 false)
      [.both x () ()] as bs := by
  have h1 := place_dropA (h := h) (args := [.both x () ()]) (cl := cl) (by simp [hg]) s 1 (by rw [ha]; simp)
  rw [ha, hb] at h1
  refine h1.andThen (as2 := []) fun hc => ?_
  have e1 := h1.a hc
  have e2 := h1.b hc
  simp only [MergeState.aSlice, MergeState.bSlice] at e1 e2
  have h2 := place_dropB (h := h) (cl := cl) (args := []) (by simp) ((InPlaceMS.mutC cl).advanceA s 1 false).1 1
  rw [e1, e2] at h2
  exact h2

variable (cl : T → S → Call T × S)

theorem union_impl : GImpl setSides (setUnionOp (SliceMS.mutC cl cl)) (fun s => s.r) (unionFn cl) where
  fromA s n hn := slice_takeA (ca := cl) (cb := cl) (l := fun x => OuterJoinArg.left x ()) (fun _ _ => rfl) s n hn
  fromB s n hn := slice_takeB (ca := cl) (cb := cl) (l := fun x => OuterJoinArg.right x ()) (fun _ _ => rfl) s n hn
  collision s x as y bs ha hb := slice_coll_take (cl := cl) (fun _ _ => rfl) s x as y bs ha hb
theorem inter_impl : GImpl setSides (setIntersectionOp (SliceMS.mutC cl cl)) (fun s => s.r) (interFn cl) where
  fromA s n hn := slice_dropA (ca := cl) (cb := cl) (map_quiet (h := interFn cl) (l := fun x => OuterJoinArg.left x ()) (fun _ _ => rfl) _) s n hn
  fromB s n hn := slice_dropB (ca := cl) (cb := cl) (map_quiet (h := interFn cl) (l := fun x => OuterJoinArg.right x ()) (fun _ _ => rfl) _) s n hn
  collision s x as y bs ha hb := slice_coll_take (cl := cl) (fun _ _ => rfl) s x as y bs ha hb
theorem xor_impl : GImpl setSides (setXorOp (SliceMS.mutC cl cl)) (fun s => s.r) (xorFn cl) where
  fromA s n hn := slice_takeA (ca := cl) (cb := cl) (l := fun x => OuterJoinArg.left x ()) (fun _ _ => rfl) s n hn
  fromB s n hn := slice_takeB (ca := cl) (cb := cl) (l := fun x => OuterJoinArg.right x ()) (fun _ _ => rfl) s n hn
  collision s x as y bs ha hb := slice_coll_drop (cl := cl) (fun _ _ => rfl) s x as y bs ha hb
theorem diff_impl : GImpl setSides (setDiffOp (SliceMS.mutC cl cl)) (fun s => s.r) (diffFn cl) where
  fromA s n hn := slice_takeA (ca := cl) (cb := cl) (l := fun x => OuterJoinArg.left x ()) (fun _ _ => rfl) s n hn
  fromB s n hn := slice_dropB (ca := cl) (cb := cl) (map_quiet (h := diffFn cl) (l := fun x => OuterJoinArg.right x ()) (fun _ _ => rfl) _) s n hn
  collision s x as y bs ha hb := slice_coll_drop (cl := cl) (fun _ _ => rfl) s x as y bs ha hb
theorem orAssign_impl : GImpl setSides (setUnionOp (InPlaceMS.mutC cl)) (fun s => s.tgt) (orAssignFn cl) where
  fromA s n hn := place_takeA (cl := cl) (l := fun x => OuterJoinArg.left x ()) (fun _ _ => rfl) s n hn
  fromB s n hn := place_takeB (cl := cl) (l := fun x => OuterJoinArg.right x ()) (fun _ _ => rfl) s n hn
  collision s x as y bs ha hb := place_coll_take (cl := cl) (fun _ _ => rfl) s x as y bs ha hb
theorem xorAssign_impl : GImpl setSides (setXorOp (InPlaceMS.mutC cl)) (fun s => s.tgt) (xorAssignFn cl) where
  fromA s n hn := place_takeA (cl := cl) (l := fun x => OuterJoinArg.left x ()) (fun _ _ => rfl) s n hn
  fromB s n hn := place_takeB (cl := cl) (l := fun x => OuterJoinArg.right x ()) (fun _ _ => rfl) s n hn
  collision s x as y bs ha hb := place_coll_drop (cl := cl) (fun _ _ => rfl) s x as y bs ha hb
theorem andAssign_impl : GImpl setSides (setIntersectionOp (InPlaceMS.mutC cl)) (fun s => s.tgt) andAssignFn where
  fromA s n hn := place_dropA (cl := cl) (map_quiet (h := andAssignFn) (l := fun x => OuterJoinArg.left x ()) (fun _ _ => rfl) _) s n hn
  fromB s n _ := place_dropB (cl := cl) (map_quiet (h := andAssignFn) (l := fun x => OuterJoinArg.right x ()) (fun _ _ => rfl) _) s n
  collision s x as y bs ha hb := place_coll_take (cl := cl) (fun _ _ => rfl) s x as y bs ha hb
theorem subAssign_impl : GImpl setSides (setDiffOp (InPlaceMS.mutC cl)) (fun s => s.tgt) subAssignFn where
  fromA s n hn := place_takeA (cl := cl) (l := fun x => OuterJoinArg.left x ()) (fun _ _ => rfl) s n hn
  fromB s n _ := place_dropB (cl := cl) (map_quiet (h := subAssignFn) (l := fun x => OuterJoinArg.right x ()) (fun _ _ => rfl) _) s n
  collision s x as y bs ha hb := place_coll_drop (cl := cl) (fun _ _ => rfl) s x as y bs ha hb

end sets

/-! ### Maps -/
section maps
variable {K V W R S : Type _} [Ord K]

/-- the entries of two maps as join arguments -/
def mapSides : Sides (K × V) (K × W) (OuterJoinArg K V W) := ⟨fun x => .left x.1 x.2, fun y => .right y.1 y.2, fun x y => .both x.1 x.2 y.2⟩

theorem mapSides_args (a : List (K × V)) (b : List (K × W)) : sidesOf mapSides (fun x y => compare x.1 y.1) a b = joinArgs a b := by
  have := congrArg Prod.fst (joinRef_one a b)
  exact this

theorem cloneKeyed_eq {X : Type _} (key : X → K) (cl : Closure S K K) (f : Closure S X (Option R)) (x : X) (c : S) :
    thenKey (fun x => cl (key x)) f x c = cloneKeyed cl (key x) (f x c) := by
  simp only [thenKey, cloneKeyed]
  rcases f x c with ⟨(_ | r) | _, c'⟩
  · rfl
  · rcases h : cl (key x) c' with ⟨_ | _, _⟩ <;> simp [h]
  · rfl

theorem keyed_eq {X : Type _} (mk : Closure S X K) (k : K) (f : Closure S X (Option R)) (x : X) (hk : ∀ c, mk x c = (.ret k, c)) (c : S) :
    thenKey mk f x c = keyed k (f x c) := by
  simp only [thenKey, keyed]
  rcases f x c with ⟨(_ | _) | _, _⟩
  · rfl
  · simp [hk, Call.withKey]
  · rfl

theorem cloneKeyed_eq' {X : Type _} (mk : Closure S X K) (cl : Closure S K K) (k : K) (f : Closure S X (Option R)) (x : X)
    (hk : ∀ c, mk x c = cl k c) (c : S) : thenKey mk f x c = cloneKeyed cl k (f x c) := by
  simp only [thenKey, cloneKeyed, hk]
  rcases f x c with ⟨(_ | r) | _, c'⟩
  · rfl
  · rcases h : cl k c' with ⟨_ | _, _⟩ <;> simp [h]
  · rfl

variable (cl : Closure S K K)

theorem outerJoin_impl (f : Closure S (OuterJoinArg K V W) (Option R)) :
    GImpl mapSides (outerJoinOpCl cl f) (fun s => s.r) (thenKey (fun x => cl x.key) f) where
  fromA s n hn := loopA (h := thenKey (fun x => cl x.key) f) (l := fun x : K × V => OuterJoinArg.left x.1 x.2) (fun x c => cloneKeyed_eq OuterJoinArg.key cl f (.left x.1 x.2) c) n s hn
  fromB s n hn := loopB (h := thenKey (fun x => cl x.key) f) (l := fun x : K × W => OuterJoinArg.right x.1 x.2) (fun x c => cloneKeyed_eq OuterJoinArg.key cl f (.right x.1 x.2) c) n s hn
  collision s x as y bs ha hb := both (h := thenKey (fun x => cl x.key) f) (l := fun (x : K × V) (y : K × W) => OuterJoinArg.both x.1 x.2 y.2) (fun x y c => cloneKeyed_eq OuterJoinArg.key cl f (.both x.1 x.2 y.2) c) s x as y bs ha hb

theorem drop_a {A B X R S : Type _} {h : Closure S X (Option R)} {s : SliceMS A B R × S} {n : Nat} {args : List X} (hn : n ≤ s.1.a.length)
    (hg : ∀ x ∈ args, ∀ c, h x c = (.ret none, c)) : GSpec (fun m => m.r) h s (quiet (fun m => m.dropA n) s) args (s.1.a.drop n) s.1.b := by
  have := SliceMS.dropA_spec n s.1 hn
  have e := callEach_nothing h args hg s.2
  exact ⟨by simp only [answersOf, e]; simpa [quiet] using this.out, by simp [answersOf, e, quiet], by simp only [answersOf, e]; exact this.flow, this.a, this.b⟩

theorem drop_b {A B X R S : Type _} {h : Closure S X (Option R)} {s : SliceMS A B R × S} {n : Nat} {args : List X} (hn : n ≤ s.1.b.length)
    (hg : ∀ x ∈ args, ∀ c, h x c = (.ret none, c)) : GSpec (fun m => m.r) h s (quiet (fun m => m.dropB n) s) args s.1.a (s.1.b.drop n) := by
  have := SliceMS.dropB_spec n s.1 hn
  have e := callEach_nothing h args hg s.2
  exact ⟨by simp only [answersOf, e]; simpa [quiet] using this.out, by simp [answersOf, e, quiet], by simp only [answersOf, e]; exact this.flow, this.a, this.b⟩

theorem leftJoin_impl (f : Closure S (K × V × Option W) (Option R)) :
    GImpl mapSides (leftJoinOpCl cl f) (fun s => s.r) (skipping leftSel (thenKey (fun x => cl x.1) f)) where
  fromA s n hn := loopA (h := skipping leftSel (thenKey (fun x => cl x.1) f)) (l := fun x : K × V => OuterJoinArg.left x.1 x.2) (fun x c => cloneKeyed_eq Prod.fst cl f (x.1, x.2, none) c) n s hn
  fromB s n hn := drop_b hn (map_quiet (h := skipping leftSel (thenKey (fun x => cl x.1) f)) (l := fun x : K × W => OuterJoinArg.right x.1 x.2) (fun _ _ => rfl) _)
  collision s x as y bs ha hb := both (h := skipping leftSel (thenKey (fun x => cl x.1) f)) (l := fun (x : K × V) (y : K × W) => OuterJoinArg.both x.1 x.2 y.2) (fun x y c => cloneKeyed_eq Prod.fst cl f (x.1, x.2, some y.2) c) s x as y bs ha hb

theorem rightJoin_impl (f : Closure S (K × Option V × W) (Option R)) :
    GImpl mapSides (rightJoinOpCl cl f) (fun s => s.r) (skipping rightSel (thenKey (fun x => cl x.1) f)) where
  fromA s n hn := drop_a hn (map_quiet (h := skipping rightSel (thenKey (fun x => cl x.1) f)) (l := fun x : K × V => OuterJoinArg.left x.1 x.2) (fun _ _ => rfl) _)
  fromB s n hn := loopB (h := skipping rightSel (thenKey (fun x => cl x.1) f)) (l := fun x : K × W => OuterJoinArg.right x.1 x.2) (fun x c => cloneKeyed_eq Prod.fst cl f (x.1, none, x.2) c) n s hn
  collision s x as y bs ha hb := both (h := skipping rightSel (thenKey (fun x => cl x.1) f)) (l := fun (x : K × V) (y : K × W) => OuterJoinArg.both x.1 x.2 y.2) (fun x y c => cloneKeyed_eq Prod.fst cl f (x.1, some x.2, y.2) c) s x as y bs ha hb

theorem innerJoin_impl (f : Closure S (K × V × W) (Option R)) :
    GImpl mapSides (innerJoinOpCl cl f) (fun s => s.r) (skipping innerSel (thenKey (fun x => cl x.1) f)) where
  fromA s n hn := drop_a hn (map_quiet (h := skipping innerSel (thenKey (fun x => cl x.1) f)) (l := fun x : K × V => OuterJoinArg.left x.1 x.2) (fun _ _ => rfl) _)
  fromB s n hn := drop_b hn (map_quiet (h := skipping innerSel (thenKey (fun x => cl x.1) f)) (l := fun x : K × W => OuterJoinArg.right x.1 x.2) (fun _ _ => rfl) _)
  collision s x as y bs ha hb := both (h := skipping innerSel (thenKey (fun x => cl x.1) f)) (l := fun (x : K × V) (y : K × W) => OuterJoinArg.both x.1 x.2 y.2) (fun x y c => cloneKeyed_eq Prod.fst cl f (x.1, x.2, y.2) c) s x as y bs ha hb

theorem outerJoinWith_impl (f : Closure S (OuterJoinArg K V W) (Option V)) :
    GImpl mapSides (outerJoinWithOpCl cl f) (fun s => s.tgt) (thenKey (outerKey cl) f) where
  fromA s n hn := placeLoopA (h := thenKey (outerKey cl) f) (l := fun x : K × V => OuterJoinArg.left x.1 x.2) (fun x c => keyed_eq (outerKey cl) x.1 f (.left x.1 x.2) (fun _ => rfl) c) n s hn
  fromB s n hn := placeLoopB (h := thenKey (outerKey cl) f) (l := fun x : K × W => OuterJoinArg.right x.1 x.2) (fun x c => cloneKeyed_eq' (outerKey cl) cl x.1 f (.right x.1 x.2) (fun _ => rfl) c) n s hn
  collision s x as y bs ha hb := placeBoth (h := thenKey (outerKey cl) f) (l := fun (x : K × V) (y : K × W) => OuterJoinArg.both x.1 x.2 y.2) (fun x y c => keyed_eq (outerKey cl) x.1 f (.both x.1 x.2 y.2) (fun _ => rfl) c) s x as y bs ha hb

theorem rightJoinWith_impl (f : Closure S (K × Option V × W) (Option V)) :
    GImpl mapSides (rightJoinWithOpCl cl f) (fun s => s.tgt) (skipping rightSel (thenKey (rightKey cl) f)) where
  fromA s n hn := by
    have : (s.1.consume n false) = { s.1 with src := s.1.src.drop n } := by
      simp only [InPlaceMS.consume, Bool.false_eq_true, ↓reduceIte]
      rw [Nat.min_eq_left (show n ≤ s.1.src.length from hn)]
    show GSpec _ _ s ((s.1.consume n false, s.2), .cont) _ _ _
    rw [this]
    exact quietly rfl rfl rfl (map_quiet (h := skipping rightSel (thenKey (rightKey cl) f)) (l := fun x : K × V => OuterJoinArg.left x.1 x.2) (fun _ _ => rfl) _)
  fromB s n hn := placeLoopB (h := skipping rightSel (thenKey (rightKey cl) f)) (l := fun x : K × W => OuterJoinArg.right x.1 x.2) (fun x c => cloneKeyed_eq' (rightKey cl) cl x.1 f (x.1, none, x.2) (fun _ => rfl) c) n s hn
  collision s x as y bs ha hb := placeBoth (h := skipping rightSel (thenKey (rightKey cl) f)) (l := fun (x : K × V) (y : K × W) => OuterJoinArg.both x.1 x.2 y.2)
    (fun x y c => keyed_eq (rightKey cl) x.1 f (x.1, some x.2, y.2) (fun _ => rfl) c) s x as y bs ha hb

end maps

end CloneMerge
end Verif
