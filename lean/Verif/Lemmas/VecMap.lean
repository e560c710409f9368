import Verif.Spec.MapHistory
import Verif.Lemmas.SetOps
/-! What the `VecMap` operations compute. -/
namespace Verif
open Std

/-! ### The callback loops -/
section loops
variable {A B R : Type _}

theorem SliceMS.loopA_spec (g : A → Call (Option R)) (n : Nat) : ∀ (s : SliceMS A B R), n ≤ s.a.length →
    StepSpec (fun s => s.r) (fun _ => True) s (s.loopA g n) (collect (fun x => (g x).emitOpt) (s.a.take n)) (s.a.drop n) s.b := by
  induction n with
  | zero => intro s _; exact ⟨rfl, by simp [collect, loopA], fun _ => rfl, fun _ => rfl, fun _ => trivial⟩
  | succ n ih =>
    rintro ⟨a, b, r⟩ hn
    cases a with
    | nil => simp at hn
    | cons x xs =>
      simp only [loopA, List.take_succ_cons, List.drop_succ_cons, collect]
      cases hc : g x with
      | panic => exact ⟨rfl, by simp [Call.emitOpt, Emit.seq], by simp, by simp, by simp⟩
      | ret o =>
        simp only [Call.emitOpt_ret, Emit.seq]
        have := ih { a := xs, b := b, r := r ++ o.toList } (by simpa using hn)
        exact ⟨this.flow, by rw [this.out]; simp, this.a, this.b, this.inv⟩

theorem SliceMS.loopB_spec (g : B → Call (Option R)) (n : Nat) : ∀ (s : SliceMS A B R), n ≤ s.b.length →
    StepSpec (fun s => s.r) (fun _ => True) s (s.loopB g n) (collect (fun x => (g x).emitOpt) (s.b.take n)) s.a (s.b.drop n) := by
  induction n with
  | zero => intro s _; exact ⟨rfl, by simp [collect, loopB], fun _ => rfl, fun _ => rfl, fun _ => trivial⟩
  | succ n ih =>
    rintro ⟨a, b, r⟩ hn
    cases b with
    | nil => simp at hn
    | cons x xs =>
      simp only [loopB, List.take_succ_cons, List.drop_succ_cons, collect]
      cases hc : g x with
      | panic => exact ⟨rfl, by simp [Call.emitOpt, Emit.seq], by simp, by simp, by simp⟩
      | ret o =>
        simp only [Call.emitOpt_ret, Emit.seq]
        have := ih { a := a, b := xs, r := r ++ o.toList } (by simpa using hn)
        exact ⟨this.flow, by rw [this.out]; simp, this.a, this.b, this.inv⟩

theorem SliceMS.both_spec (g : A → B → Call (Option R)) (s : SliceMS A B R) (x : A) (as : List A) (y : B) (bs : List B)
    (ha : s.a = x :: as) (hb : s.b = y :: bs) :
    StepSpec (fun s => s.r) (fun _ => True) s (s.both g) ((g x y).emitOpt) as bs := by
  obtain ⟨a, b, r⟩ := s
  subst ha hb
  simp only [both]
  cases hc : g x y with
  | panic => exact ⟨rfl, by simp, by simp, by simp, by simp⟩
  | ret o => exact ⟨rfl, rfl, fun _ => rfl, fun _ => rfl, fun _ => trivial⟩

theorem SliceMS.dropA_spec (n : Nat) (s : SliceMS A B R) (hn : n ≤ s.a.length) :
    StepSpec (fun s => s.r) (fun _ => True) s (s.dropA n) ([], .cont) (s.a.drop n) s.b := by
  have : ¬ s.a.length < n := by omega
  simp only [dropA, this, ↓reduceIte]
  exact ⟨rfl, by simp, fun _ => rfl, fun _ => rfl, fun _ => trivial⟩
theorem SliceMS.dropB_spec (n : Nat) (s : SliceMS A B R) (hn : n ≤ s.b.length) :
    StepSpec (fun s => s.r) (fun _ => True) s (s.dropB n) ([], .cont) s.a (s.b.drop n) := by
  have : ¬ s.b.length < n := by omega
  simp only [dropB, this, ↓reduceIte]
  exact ⟨rfl, by simp, fun _ => rfl, fun _ => rfl, fun _ => trivial⟩

theorem InPlaceMS.loopA_spec (g : A → Call (Option A)) (n : Nat) : ∀ (s : InPlaceMS A B), n ≤ s.src.length →
    StepSpec (fun s => s.tgt) (fun _ => True) s (s.loopA g n) (collect (fun x => (g x).emitOpt) (s.src.take n)) (s.src.drop n) s.b := by
  induction n with
  | zero => intro s _; exact ⟨rfl, by simp [collect, loopA], fun _ => rfl, fun _ => rfl, fun _ => trivial⟩
  | succ n ih =>
    rintro ⟨t, a, b⟩ hn
    cases a with
    | nil => simp at hn
    | cons x xs =>
      simp only [loopA, List.take_succ_cons, List.drop_succ_cons, collect]
      cases hc : g x with
      | panic => exact ⟨rfl, by simp [Call.emitOpt, Emit.seq], by simp, by simp, by simp⟩
      | ret o =>
        simp only [Call.emitOpt_ret, Emit.seq]
        have := ih { src := xs, b := b, tgt := t ++ o.toList } (by simpa using hn)
        exact ⟨this.flow, by rw [this.out]; simp, this.a, this.b, this.inv⟩

theorem InPlaceMS.loopB_spec (g : B → Call (Option A)) (n : Nat) : ∀ (s : InPlaceMS A B), n ≤ s.b.length →
    StepSpec (fun s => s.tgt) (fun _ => True) s (s.loopB g n) (collect (fun x => (g x).emitOpt) (s.b.take n)) s.src (s.b.drop n) := by
  induction n with
  | zero => intro s _; exact ⟨rfl, by simp [collect, loopB], fun _ => rfl, fun _ => rfl, fun _ => trivial⟩
  | succ n ih =>
    rintro ⟨t, a, b⟩ hn
    cases b with
    | nil => simp at hn
    | cons x xs =>
      simp only [loopB, List.take_succ_cons, List.drop_succ_cons, collect]
      cases hc : g x with
      | panic => exact ⟨rfl, by simp [Call.emitOpt, Emit.seq], by simp, by simp, by simp⟩
      | ret o =>
        simp only [Call.emitOpt_ret, Emit.seq]
        have := ih { src := a, b := xs, tgt := t ++ o.toList } (by simpa using hn)
        exact ⟨this.flow, by rw [this.out]; simp, this.a, this.b, this.inv⟩

theorem InPlaceMS.both_spec (g : A → B → Call (Option A)) (s : InPlaceMS A B) (x : A) (as : List A) (y : B) (bs : List B)
    (ha : s.src = x :: as) (hb : s.b = y :: bs) :
    StepSpec (fun s => s.tgt) (fun _ => True) s (s.both g) ((g x y).emitOpt) as bs := by
  obtain ⟨t, a, b⟩ := s
  subst ha hb
  simp only [both]
  cases hc : g x y with
  | panic => exact ⟨rfl, by simp, by simp, by simp, by simp⟩
  | ret o => exact ⟨rfl, rfl, fun _ => rfl, fun _ => rfl, fun _ => trivial⟩

theorem InPlaceMS.dropB_spec (n : Nat) (s : InPlaceMS A B) (hn : n ≤ s.b.length) :
    StepSpec (fun s => s.tgt) (fun _ => True) s (s.dropB n) ([], .cont) s.src (s.b.drop n) := by
  have : ¬ s.b.length < n := by omega
  simp only [dropB, this, ↓reduceIte]
  exact ⟨rfl, by simp, fun _ => rfl, fun _ => rfl, fun _ => trivial⟩

end loops

/-! ### The joins as merges with one closure on join arguments -/
section impl
variable {K V W R : Type _} [Ord K]

/-- what one join argument emits -/
def argEmit (h : OuterJoinArg K V W → Call (Option R)) (arg : OuterJoinArg K V W) : Emit (K × R) :=
  ((h arg).withKey arg.key).emitOpt

/-- left, right and inner joins as outer joins -/
def leftArg (f : K → V → Option W → Call (Option R)) : OuterJoinArg K V W → Call (Option R)
  | .left k v => f k v none
  | .right _ _ => .ret none
  | .both k v w => f k v (some w)
def rightArg (f : K → Option V → W → Call (Option R)) : OuterJoinArg K V W → Call (Option R)
  | .left _ _ => .ret none
  | .right k w => f k none w
  | .both k v w => f k (some v) w
def innerArg (f : K → V → W → Call (Option R)) : OuterJoinArg K V W → Call (Option R)
  | .left _ _ => .ret none
  | .right _ _ => .ret none
  | .both k v w => f k v w

/-- the three callbacks of a join closure -/
abbrev ArgImpl {σ : Type _} [MergeState σ (K × V) (K × W)] (op : MergeOp σ (K × V) (K × W)) (out : σ → List (K × R))
    (h : OuterJoinArg K V W → Call (Option R)) : Prop :=
  Implements op out (fun _ => True) (fun x => argEmit h (.left x.1 x.2)) (fun y => argEmit h (.right y.1 y.2))
    (fun x y => argEmit h (.both x.1 x.2 y.2))

theorem outerJoinOp_impl (f : OuterJoinArg K V W → Call (Option R)) : ArgImpl (outerJoinOp f) (fun s => s.r) f where
  fromA s n _ _ hn := SliceMS.loopA_spec _ n s hn
  fromB s n _ _ hn := SliceMS.loopB_spec _ n s hn
  collision s a as b bs _ ha hb := SliceMS.both_spec _ s a as b bs ha hb

theorem leftJoinOp_impl (f : K → V → Option W → Call (Option R)) : ArgImpl (leftJoinOp f) (fun s => s.r) (leftArg f) where
  fromA s n _ _ hn := SliceMS.loopA_spec _ n s hn
  fromB s n _ _ hn := by
    have := SliceMS.dropB_spec n s hn
    rwa [← collect_nothing (R := K × R) ((MergeState.bSlice s : List (K × W)).take n)] at this
  collision s a as b bs _ ha hb := SliceMS.both_spec _ s a as b bs ha hb

theorem rightJoinOp_impl (f : K → Option V → W → Call (Option R)) : ArgImpl (rightJoinOp f) (fun s => s.r) (rightArg f) where
  fromA s n _ _ hn := by
    have := SliceMS.dropA_spec n s hn
    rwa [← collect_nothing (R := K × R) ((MergeState.aSlice s : List (K × V)).take n)] at this
  fromB s n _ _ hn := SliceMS.loopB_spec _ n s hn
  collision s a as b bs _ ha hb := SliceMS.both_spec _ s a as b bs ha hb

theorem innerJoinOp_impl (f : K → V → W → Call (Option R)) : ArgImpl (innerJoinOp f) (fun s => s.r) (innerArg f) where
  fromA s n _ _ hn := by
    have := SliceMS.dropA_spec n s hn
    rwa [← collect_nothing (R := K × R) ((MergeState.aSlice s : List (K × V)).take n)] at this
  fromB s n _ _ hn := by
    have := SliceMS.dropB_spec n s hn
    rwa [← collect_nothing (R := K × R) ((MergeState.bSlice s : List (K × W)).take n)] at this
  collision s a as b bs _ ha hb := SliceMS.both_spec _ s a as b bs ha hb

theorem consume_false_spec (n : Nat) (s : InPlaceMS (K × V) (K × W)) (hn : n ≤ s.src.length) :
    StepSpec (fun s => s.tgt) (fun _ => True) s (s.consume n false, .cont) ([], .cont) (s.src.drop n) s.b := by
  simp only [InPlaceMS.consume, Nat.min_eq_left hn]
  exact ⟨rfl, by simp, fun _ => rfl, fun _ => rfl, fun _ => trivial⟩

theorem outerJoinWithOp_impl (f : OuterJoinArg K V W → Call (Option V)) : ArgImpl (outerJoinWithOp f) (fun s => s.tgt) f where
  fromA s n _ _ hn := InPlaceMS.loopA_spec _ n s hn
  fromB s n _ _ hn := InPlaceMS.loopB_spec _ n s hn
  collision s a as b bs _ ha hb := InPlaceMS.both_spec _ s a as b bs ha hb

theorem leftJoinWithOp_impl (f : K → V → Option W → Call (Option V)) : ArgImpl (leftJoinWithOp f) (fun s => s.tgt) (leftArg f) where
  fromA s n _ _ hn := InPlaceMS.loopA_spec _ n s hn
  fromB s n _ _ hn := by
    have := InPlaceMS.dropB_spec n s hn
    rwa [← collect_nothing (R := K × V) ((MergeState.bSlice s : List (K × W)).take n)] at this
  collision s a as b bs _ ha hb := InPlaceMS.both_spec _ s a as b bs ha hb

theorem rightJoinWithOp_impl (f : K → Option V → W → Call (Option V)) :
    ArgImpl (rightJoinWithOp f) (fun s => s.tgt) (rightArg f) where
  fromA s n _ _ hn := by
    have := consume_false_spec n s hn
    rwa [← collect_nothing (R := K × V) ((MergeState.aSlice s : List (K × V)).take n)] at this
  fromB s n _ _ hn := InPlaceMS.loopB_spec _ n s hn
  collision s a as b bs _ ha hb := InPlaceMS.both_spec _ s a as b bs ha hb

theorem innerJoinWithOp_impl (f : K → V → W → Call (Option V)) : ArgImpl (innerJoinWithOp f) (fun s => s.tgt) (innerArg f) where
  fromA s n _ _ hn := by
    have := consume_false_spec n s hn
    rwa [← collect_nothing (R := K × V) ((MergeState.aSlice s : List (K × V)).take n)] at this
  fromB s n _ _ hn := by
    have := InPlaceMS.dropB_spec n s hn
    rwa [← collect_nothing (R := K × V) ((MergeState.bSlice s : List (K × W)).take n)] at this
  collision s a as b bs _ ha hb := InPlaceMS.both_spec _ s a as b bs ha hb

end impl

/-! ### The sequence of join arguments -/
section args
variable {K V W R : Type _} [Ord K]

/-- the join arguments in the order in which they are processed -/
def joinArgs (a : List (K × V)) (b : List (K × W)) : List (OuterJoinArg K V W) :=
  joinList (fun x y => compare x.1 y.1) (fun x => some (.left x.1 x.2)) (fun y => some (.right y.1 y.2))
    (fun x y => some (.both x.1 x.2 y.2)) a b

theorem collect_map {A B : Type _} (g : A → B) (h : B → Emit R) (l : List A) :
    collect h (l.map g) = collect (fun x => h (g x)) l := by
  induction l with
  | nil => rfl
  | cons x l ih => simp [collect, ih]

theorem filterMap_some_map {A B : Type _} (g : A → B) (l : List A) : l.filterMap (fun x => some (g x)) = l.map g := by
  induction l with
  | nil => rfl
  | cons x l ih => simp [ih]

theorem joinRef_args (h : OuterJoinArg K V W → Emit R) (a : List (K × V)) (b : List (K × W)) :
    joinRef (fun x y => compare x.1 y.1) (fun x => h (.left x.1 x.2)) (fun y => h (.right y.1 y.2))
      (fun x y => h (.both x.1 x.2 y.2)) a b = collect h (joinArgs a b) := by
  unfold joinArgs
  fun_induction joinRef (fun (x : K × V) (y : K × W) => compare x.1 y.1) (fun x => h (.left x.1 x.2)) (fun y => h (.right y.1 y.2))
      (fun x y => h (.both x.1 x.2 y.2)) a b with
  | case1 bs => rw [joinList_nil_left, filterMap_some_map, collect_map]
  | case2 x as => rw [joinList_nil_right, filterMap_some_map, collect_map]
  | case3 x as y bs hc ih => rw [joinList_cons, hc]; simp only [Option.toList, List.singleton_append, collect]; rw [← ih]
  | case4 x as y bs hc ih => rw [joinList_cons, hc]; simp only [Option.toList, List.singleton_append, collect]; rw [← ih]
  | case5 x as y bs hc ih => rw [joinList_cons, hc]; simp only [Option.toList, List.singleton_append, collect]; rw [← ih]

variable [TransOrd K]

theorem joinArgs_keyOk (a : List (K × V)) (b : List (K × W)) :
    KeyOk (Prod.fst : K × V → K) (Prod.fst : K × W → K) (OuterJoinArg.key : OuterJoinArg K V W → K)
      (fun x => some (.left x.1 x.2)) (fun y => some (.right y.1 y.2)) (fun x y => some (.both x.1 x.2 y.2)) a b :=
  ⟨fun a _ r h => by cases h; exact cmp_self _, fun a _ r h => by cases h; exact cmp_self _,
   fun a _ b _ _ r h => by cases h; exact cmp_self _⟩

theorem joinArgs_asc {a : List (K × V)} {b : List (K × W)} (ha : AscendingBy Prod.fst a) (hb : AscendingBy Prod.fst b) :
    AscendingBy OuterJoinArg.key (joinArgs a b) :=
  joinList_ascending (fun _ _ => rfl) a b ha hb (joinArgs_keyOk a b)

theorem joinArgs_find {a : List (K × V)} {b : List (K × W)} (ha : AscendingBy Prod.fst a) (hb : AscendingBy Prod.fst b) (k : K) :
    findBy OuterJoinArg.key (joinArgs a b) k = pointJoin (fun x => some (.left x.1 x.2)) (fun y => some (.right y.1 y.2))
      (fun x y => some (.both x.1 x.2 y.2)) (findBy Prod.fst a k) (findBy Prod.fst b k) :=
  findBy_joinList (fun _ _ => rfl) a b ha hb (joinArgs_keyOk a b) k

theorem findBy_maps {l : List (K × V)} (h : AscendingBy Prod.fst l) {k : K} {v : V} :
    (∃ k', findBy Prod.fst l k = some (k', v)) ↔ Maps l k v := by
  unfold Maps
  constructor
  · rintro ⟨k', e⟩; exact ⟨k', findBy_some_mem e⟩
  · rintro ⟨k', hm, e⟩; exact ⟨k', h.findBy_eq_some.2 ⟨hm, e⟩⟩

omit [TransOrd K] in
theorem findBy_none_hasKey {l : List (K × V)} {k : K} : findBy Prod.fst l k = none ↔ ¬ HasKey l k := by
  rw [findBy_none]
  unfold HasKey Maps
  constructor
  · rintro h ⟨v, k', hm, e⟩; exact h (k', v) hm e
  · intro h x hx e; exact h ⟨x.2, x.1, hx, e⟩

theorem mem_joinArgs {a : List (K × V)} {b : List (K × W)} (ha : AscendingBy Prod.fst a) (hb : AscendingBy Prod.fst b)
    (arg : OuterJoinArg K V W) : arg ∈ joinArgs a b ↔ Offers a b arg := by
  have h : arg ∈ joinArgs a b ↔ findBy OuterJoinArg.key (joinArgs a b) arg.key = some arg := by
    rw [(joinArgs_asc ha hb).findBy_eq_some]; simp [cmp_self]
  rw [h, joinArgs_find ha hb]
  cases arg with
  | left k v =>
    simp only [OuterJoinArg.key, Offers, ← findBy_none_hasKey]
    cases h1 : findBy Prod.fst a k with
    | none =>
      have : (k, v) ∉ a := fun hm => findBy_none.1 h1 _ hm (cmp_self _)
      cases h2 : findBy Prod.fst b k <;> simp [pointJoin, this]
    | some x =>
      have hx : (k, v) ∈ a ↔ x = (k, v) := by
        constructor
        · intro hm
          have := ha.findBy_eq_some.2 ⟨hm, cmp_self k⟩
          rw [h1] at this; exact Option.some.inj this
        · rintro rfl; exact (findBy_some_mem h1).1
      cases h2 : findBy Prod.fst b k with
      | none => simp [pointJoin, hx, Prod.ext_iff]
      | some y => simp [pointJoin]
  | right k v =>
    simp only [OuterJoinArg.key, Offers, ← findBy_none_hasKey]
    cases h1 : findBy Prod.fst b k with
    | none =>
      have : (k, v) ∉ b := fun hm => findBy_none.1 h1 _ hm (cmp_self _)
      cases h2 : findBy Prod.fst a k <;> simp [pointJoin, this]
    | some x =>
      have hx : (k, v) ∈ b ↔ x = (k, v) := by
        constructor
        · intro hm
          have := hb.findBy_eq_some.2 ⟨hm, cmp_self k⟩
          rw [h1] at this; exact Option.some.inj this
        · rintro rfl; exact (findBy_some_mem h1).1
      cases h2 : findBy Prod.fst a k with
      | none => simp [pointJoin, hx, Prod.ext_iff]
      | some y => simp [pointJoin]
  | both k v w =>
    simp only [OuterJoinArg.key, Offers, ← findBy_maps hb]
    cases h1 : findBy Prod.fst a k with
    | none =>
      have : (k, v) ∉ a := fun hm => findBy_none.1 h1 _ hm (cmp_self _)
      cases h2 : findBy Prod.fst b k <;> simp [pointJoin, this]
    | some x =>
      have hx : (k, v) ∈ a ↔ x = (k, v) := by
        constructor
        · intro hm
          have := ha.findBy_eq_some.2 ⟨hm, cmp_self k⟩
          rw [h1] at this; exact Option.some.inj this
        · rintro rfl; exact (findBy_some_mem h1).1
      cases h2 : findBy Prod.fst b k with
      | none => simp [pointJoin]
      | some y =>
        obtain ⟨y1, y2⟩ := y
        simp [pointJoin, hx, Prod.ext_iff, and_assoc]

end args

/-! ### Processing the arguments -/
section run
variable {K V W R : Type _} [Ord K]

/-- result of a closure that returns normally -/
def argRes (g : OuterJoinArg K V W → Option R) (arg : OuterJoinArg K V W) : Option (K × R) := (g arg).map (fun r => (arg.key, r))

omit [Ord K] in
theorem argEmit_pure (g : OuterJoinArg K V W → Option R) : argEmit (fun x => .ret (g x)) = fun arg => Emit.ret (argRes g arg) := by
  funext arg
  simp only [argEmit, argRes]
  cases g arg <;> rfl

omit [Ord K] in
theorem collect_pure (g : OuterJoinArg K V W → Option R) (l : List (OuterJoinArg K V W)) :
    collect (argEmit (fun x => .ret (g x))) l = (l.filterMap (argRes g), .cont) := by
  rw [argEmit_pure, collect_ret]

omit [Ord K] in
/-- a run with a possibly panicking closure, compared with any total closure that agrees with it where it returns -/
theorem collect_call {f : OuterJoinArg K V W → Call (Option R)} {g : OuterJoinArg K V W → Option R}
    (hg : ∀ x r, f x = .ret r → g x = r) (l : List (OuterJoinArg K V W)) :
    ((∀ x ∈ l, f x ≠ .panic) → collect (argEmit f) l = (l.filterMap (argRes g), .cont)) ∧
    ((∃ x ∈ l, f x = .panic) → (collect (argEmit f) l).2 = .panic) ∧
    (collect (argEmit f) l).1 <+: l.filterMap (argRes g) := by
  induction l with
  | nil => simp [collect]
  | cons x l ih =>
    simp only [collect]
    cases hx : f x with
    | panic =>
      have : argEmit f x = ([], .panic) := by unfold argEmit; rw [hx]; rfl
      rw [this]
      simp [Emit.seq, hx]
    | ret r =>
      have : argEmit f x = ((argRes g x).toList, .cont) := by
        unfold argEmit argRes; rw [hx, hg x r hx]; cases r <;> rfl
      rw [this]
      have e : List.filterMap (argRes g) (x :: l) = (argRes g x).toList ++ l.filterMap (argRes g) := by
        rw [List.filterMap_cons]; cases argRes g x <;> rfl
      rw [e]
      refine ⟨?_, ?_, ?_⟩
      · intro h
        rw [ih.1 (fun y hy => h y (by simp [hy]))]; rfl
      · rintro ⟨y, hy, hp⟩
        rcases List.mem_cons.1 hy with rfl | hy
        · rw [hx] at hp; cases hp
        · exact ih.2.1 ⟨y, hy, hp⟩
      · exact (List.prefix_append_right_inj _).2 ih.2.2

/-- every closure has a total completion -/
theorem exists_total (f : OuterJoinArg K V W → Call (Option R)) :
    ∃ g : OuterJoinArg K V W → Option R, ∀ x r, f x = .ret r → g x = r :=
  ⟨fun x => match f x with
    | .ret r => r
    | .panic => none, fun x r h => by simp [h]⟩

variable [TransOrd K]

theorem pureJoin_asc {g : OuterJoinArg K V W → Option R} {l : List (OuterJoinArg K V W)} (h : AscendingBy OuterJoinArg.key l) :
    AscendingBy Prod.fst (l.filterMap (argRes g)) :=
  ascendingBy_filterMap h (fun a _ r hr => by
    unfold argRes at hr
    cases hg : g a with
    | none => rw [hg] at hr; cases hr
    | some r' => rw [hg] at hr; cases hr; exact cmp_self _)

omit [TransOrd K] [Ord K] in
theorem mem_pureJoin {g : OuterJoinArg K V W → Option R} {l : List (OuterJoinArg K V W)} {k : K} {r : R} :
    (k, r) ∈ l.filterMap (argRes g) ↔ ∃ arg ∈ l, arg.key = k ∧ g arg = some r := by
  simp only [List.mem_filterMap, argRes, Option.map_eq_some_iff, Prod.mk.injEq]
  constructor
  · rintro ⟨x, hx, r', h1, h2, h3⟩; exact ⟨x, hx, h2, by rw [h1, h3]⟩
  · rintro ⟨x, hx, h2, h1⟩; exact ⟨x, hx, r, h1, h2, rfl⟩

theorem collect_asc {f : OuterJoinArg K V W → Call (Option R)} {l : List (OuterJoinArg K V W)} (h : AscendingBy OuterJoinArg.key l) :
    AscendingBy Prod.fst (collect (argEmit f) l).1 := by
  obtain ⟨g, hg⟩ := exists_total f
  exact (pureJoin_asc (g := g) h).sublist (collect_call hg l).2.2.sublist

end run

namespace VecMap
variable {K V W R : Type _} [Ord K] [TransOrd K] {a : VecMap K V} {b : VecMap K W}

section eqs
variable (ha : AscendingBy Prod.fst a.entries) (hb : AscendingBy Prod.fst b.entries)
include ha hb

theorem outerJoin_eq (f : OuterJoinArg K V W → Call (Option R)) : a.outerJoin b f =
    (⟨(collect (argEmit f) (joinArgs a.entries b.entries)).1⟩, (collect (argEmit f) (joinArgs a.entries b.entries)).2) := by
  unfold outerJoin
  rw [SliceMS.merge_spec (outerJoinOp_impl f) (fun _ => trivial) (fun _ _ => rfl) ha hb, ← joinRef_args]; rfl
theorem leftJoin_eq (f : K → V → Option W → Call (Option R)) : a.leftJoin b f =
    (⟨(collect (argEmit (leftArg f)) (joinArgs a.entries b.entries)).1⟩,
      (collect (argEmit (leftArg f)) (joinArgs a.entries b.entries)).2) := by
  unfold leftJoin
  rw [SliceMS.merge_spec (leftJoinOp_impl f) (fun _ => trivial) (fun _ _ => rfl) ha hb, ← joinRef_args]; rfl
theorem rightJoin_eq (f : K → Option V → W → Call (Option R)) : a.rightJoin b f =
    (⟨(collect (argEmit (rightArg f)) (joinArgs a.entries b.entries)).1⟩,
      (collect (argEmit (rightArg f)) (joinArgs a.entries b.entries)).2) := by
  unfold rightJoin
  rw [SliceMS.merge_spec (rightJoinOp_impl f) (fun _ => trivial) (fun _ _ => rfl) ha hb, ← joinRef_args]; rfl
theorem innerJoin_eq (f : K → V → W → Call (Option R)) : a.innerJoin b f =
    (⟨(collect (argEmit (innerArg f)) (joinArgs a.entries b.entries)).1⟩,
      (collect (argEmit (innerArg f)) (joinArgs a.entries b.entries)).2) := by
  unfold innerJoin
  rw [SliceMS.merge_spec (innerJoinOp_impl f) (fun _ => trivial) (fun _ _ => rfl) ha hb, ← joinRef_args]; rfl

theorem outerJoinWith_eq (f : OuterJoinArg K V W → Call (Option V)) : a.outerJoinWith b f = a.outerJoin b f := by
  rw [outerJoin_eq ha hb]
  unfold outerJoinWith
  rw [InPlaceMS.merge_spec (outerJoinWithOp_impl f) (fun _ => trivial) (fun _ _ => rfl) ha hb, ← joinRef_args]; rfl
theorem leftJoinWith_eq (f : K → V → Option W → Call (Option V)) : a.leftJoinWith b f = a.leftJoin b f := by
  rw [leftJoin_eq ha hb]
  unfold leftJoinWith
  rw [InPlaceMS.merge_spec (leftJoinWithOp_impl f) (fun _ => trivial) (fun _ _ => rfl) ha hb, ← joinRef_args]; rfl
theorem rightJoinWith_eq (f : K → Option V → W → Call (Option V)) : a.rightJoinWith b f = a.rightJoin b f := by
  rw [rightJoin_eq ha hb]
  unfold rightJoinWith
  rw [InPlaceMS.merge_spec (rightJoinWithOp_impl f) (fun _ => trivial) (fun _ _ => rfl) ha hb, ← joinRef_args]; rfl
theorem innerJoinWith_eq (f : K → V → W → Call (Option V)) : a.innerJoinWith b f = a.innerJoin b f := by
  rw [innerJoin_eq ha hb]
  unfold innerJoinWith
  rw [InPlaceMS.merge_spec (innerJoinWithOp_impl f) (fun _ => trivial) (fun _ _ => rfl) ha hb, ← joinRef_args]; rfl

end eqs

/-! ### Lookup and element operations -/

theorem get_eq (ha : AscendingBy Prod.fst a.entries) (k : K) : a.get k = (findBy Prod.fst a.entries k).map (·.2) := by
  have spec := binarySearchBy_spec (mono_of_ascendingBy (key := (Prod.fst : K × V → K)) ha k)
  unfold get
  cases hr : binarySearchBy (fun p : K × V => compare p.1 k) a.entries with
  | found i =>
    rw [hr] at spec
    obtain ⟨lo, y, hi, hbs, hlo, hy, -, -⟩ := spec
    have h1 : a.entries[i]? = some y := by rw [hbs, ← hlo]; simp
    have h2 : findBy Prod.fst a.entries k = some y := ha.findBy_eq_some.2 ⟨by rw [hbs]; simp, hy⟩
    simp only [h1, h2]
  | notFound i =>
    rw [hr] at spec
    obtain ⟨lo, hi, hbs, -, hlt, hgt⟩ := spec
    have : findBy Prod.fst a.entries k = none := by
      rw [findBy_none]
      intro x hx e
      rw [hbs] at hx
      rcases List.mem_append.1 hx with hx | hx
      · have h := hlt x hx; simp only [e] at h; cases h
      · have h := hgt x hx; simp only [e] at h; cases h
    simp [this]

theorem get_iff (ha : AscendingBy Prod.fst a.entries) (k : K) (v : V) : a.get k = some v ↔ Maps a.entries k v := by
  rw [get_eq ha, ← findBy_maps ha, Option.map_eq_some_iff]
  constructor
  · rintro ⟨⟨k', v'⟩, h, rfl⟩; exact ⟨k', h⟩
  · rintro ⟨k', h⟩; exact ⟨_, h, rfl⟩

theorem get_none_iff (ha : AscendingBy Prod.fst a.entries) (k : K) : a.get k = none ↔ ¬ HasKey a.entries k := by
  rw [get_eq ha, Option.map_eq_none_iff, findBy_none_hasKey]

omit [Ord K] [TransOrd K] in
theorem insertIdx_mid {T : Type _} (lo hi : List T) (x : T) :
    (lo ++ hi).insertIdx lo.length x = lo ++ x :: hi := by
  induction lo with
  | nil => simp
  | cons y lo ih => simpa using ih

/-- where a key is, or belongs -/
theorem split_at (ha : AscendingBy Prod.fst a.entries) (k : K) :
    ∃ lo mid hi, a.entries = lo ++ mid ++ hi ∧ (∀ v, (a.insert k v).1.entries = lo ++ (k, v) :: hi ∧
      (a.insert k v).2 = mid.head?.map (·.2)) ∧ (∀ w, (a.updateMut k w).1.entries = lo ++ mid.map (fun e => (e.1, w e.2)) ++ hi ∧
        (a.updateMut k w).2 = !mid.isEmpty) ∧
      (mid = [] ∨ ∃ y, mid = [y] ∧ compare y.1 k = .eq) ∧
      (∀ x ∈ lo, compare x.1 k = .lt) ∧ ∀ x ∈ hi, compare x.1 k = .gt := by
  have spec := binarySearchBy_spec (mono_of_ascendingBy (key := (Prod.fst : K × V → K)) ha k)
  unfold insert updateMut
  cases hr : binarySearchBy (fun p : K × V => compare p.1 k) a.entries with
  | found i =>
    rw [hr] at spec
    obtain ⟨lo, y, hi, hbs, hlo, hy, hlt, hgt⟩ := spec
    have h1 : a.entries[i]? = some y := by rw [hbs, ← hlo]; simp
    refine ⟨lo, [y], hi, by rw [hbs]; simp, fun v => ⟨?_, ?_⟩, ?_, .inr ⟨y, rfl, hy⟩, hlt, hgt⟩
    · show a.entries.set i (k, v) = _
      rw [hbs, ← hlo]; simp
    · show Option.map _ a.entries[i]? = _
      rw [h1]; rfl
    · intro w
      simp only [h1]
      refine ⟨?_, rfl⟩
      rw [hbs, ← hlo]; simp
  | notFound i =>
    rw [hr] at spec
    obtain ⟨lo, hi, hbs, hlo, hlt, hgt⟩ := spec
    refine ⟨lo, [], hi, by rw [hbs]; simp, fun v => ⟨?_, rfl⟩, fun w => ⟨by simp [hbs], rfl⟩, .inl rfl, hlt, hgt⟩
    show a.entries.insertIdx i (k, v) = _
    rw [hbs, ← hlo]; exact insertIdx_mid lo hi (k, v)

end VecMap
end Verif
