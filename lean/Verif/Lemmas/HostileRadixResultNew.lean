import Verif.Lemmas.HostileRadixLike
/-! # Keys that answer like a total order if they answer at all: combinations into a new tree, and questions -/
namespace Verif
open Std
namespace Hostile
namespace Radix
variable {W K V X : Type} [Ord K] [DecidableEq K]

section ops

theorem slice_advA {A B R : Type} {ca : A → Call R} {cb : B → Call R} {s s' : SliceMS A B R} {n : Nat} {take : Bool}
    (h : (SliceMS.mut ca cb).advanceA s n take = (s', .cont)) : s'.a = s.a.drop n ∧ s'.b = s.b := by
  change (if s.a.length < n then (s, Flow.panic)
    else if take then ({ s with a := s.a.drop n, r := (Verif.pushAll ca s.r (s.a.take n)).1 }, (Verif.pushAll ca s.r (s.a.take n)).2)
    else ({ s with a := s.a.drop n }, Flow.cont)) = (s', Flow.cont) at h
  split at h
  · cases h
  split at h
  · cases congrArg Prod.fst h; exact ⟨rfl, rfl⟩
  · cases h; exact ⟨rfl, rfl⟩

theorem slice_advB {A B R : Type} {ca : A → Call R} {cb : B → Call R} {s s' : SliceMS A B R} {n : Nat} {take : Bool}
    (h : (SliceMS.mut ca cb).advanceB s n take = (s', .cont)) : s'.a = s.a ∧ s'.b = s.b.drop n := by
  change (if s.b.length < n then (s, Flow.panic)
    else if take then ({ s with b := s.b.drop n, r := (Verif.pushAll cb s.r (s.b.take n)).1 }, (Verif.pushAll cb s.r (s.b.take n)).2)
    else ({ s with b := s.b.drop n }, Flow.cont)) = (s', Flow.cont) at h
  split at h
  · cases h
  split at h
  · cases congrArg Prod.fst h; exact ⟨rfl, rfl⟩
  · cases h; exact ⟨rfl, rfl⟩

theorem bool_advA {A B : Type} {s s' : BoolMS A B} {n : Nat} {take : Bool} (h : BoolMS.mut.advanceA s n take = (s', .cont)) :
    s'.a = s.a.drop n ∧ s'.b = s.b := by
  change (if take then ({ s with r := true }, Flow.stop) else if s.a.length < n then (s, Flow.panic) else ({ s with a := s.a.drop n }, Flow.cont)) =
    (s', Flow.cont) at h
  split at h
  · cases h
  split at h
  · cases h
  · cases h; exact ⟨rfl, rfl⟩

theorem bool_advB {A B : Type} {s s' : BoolMS A B} {n : Nat} {take : Bool} (h : BoolMS.mut.advanceB s n take = (s', .cont)) :
    s'.a = s.a ∧ s'.b = s.b.drop n := by
  change (if take then ({ s with r := true }, Flow.stop) else if s.b.length < n then (s, Flow.panic) else ({ s with b := s.b.drop n }, Flow.cont)) =
    (s', Flow.cont) at h
  split at h
  · cases h
  split at h
  · cases h
  · cases h; exact ⟨rfl, rfl⟩

variable {k : Keys W K}

/-- a recursive call that returns, returns what the plain one does -/
def RecNew {R : Type} (rec : Tree K V → Tree K X → M W R) (rec' : Tree K V → Tree K X → Call R) : Prop :=
  ∀ x y, Tree.Valid x → Tree.Valid y → Like (rec x y) (rec' x y)

theorem pureOp_sim (hk : Answers k) {takeA takeB : Bool} {ca : Tree K V → Call (Tree K V)} {cb : Tree K X → Call (Tree K V)}
    {rec : Tree K V → Tree K X → M W (Tree K V)} {rec' : Tree K V → Tree K X → Call (Tree K V)} (hrec : RecNew rec rec')
    {as : List (Tree K V)} {bs : List (Tree K X)} (ha : ∀ x ∈ as, Tree.Valid x) (hb : ∀ y ∈ bs, Tree.Valid y) :
    Sim (fun _ _ => True) (fun s : SliceMS (Tree K V) (Tree K X) (Tree K V) => (∀ x ∈ s.a, x ∈ as) ∧ ∀ y ∈ s.b, y ∈ bs)
      (pureOp k takeA takeB ca cb rec) (Tree.pureOp takeA takeB ca cb rec') where
  refl _ := trivial
  trans _ _ _ _ _ := trivial
  cmp a b := headsCmp_plain hk a b
  fromA := rfl
  fromB := rfl
  collision s w hs := by
    show Along _ (match s.a, s.b with
      | x :: as, y :: bs => _
      | _, _ => _) (match s.a, s.b with
      | x :: as, y :: bs => _
      | _, _ => _)
    split
    · rename_i x as' y bs' e1 e2
      have hr := hrec x y (ha x (hs.1 x (by rw [e1]; simp))) (hb y (hs.2 y (by rw [e2]; simp))) w
      unfold collect
      rcases hq : rec x y w with ⟨o, w'⟩
      rw [hq] at hr
      cases o with
      | ret t => rw [hr t rfl]; exact ⟨fun b e => (by cases e; rfl), fun _ => trivial⟩
      | panic => exact ⟨fun b e => (by cases e), fun _ => trivial⟩
      | fault => exact ⟨fun b e => (by cases e), fun _ => trivial⟩
    · exact ⟨fun b e => (by cases e), fun _ => trivial⟩
  keepA s n s' hs e := by
    obtain ⟨h1, h2⟩ := slice_advA (ca := ca) (cb := cb) e
    exact ⟨fun x hx => hs.1 x (List.mem_of_mem_drop (by rw [h1] at hx; exact hx)), by rw [h2]; exact hs.2⟩
  keepB s n s' hs e := by
    obtain ⟨h1, h2⟩ := slice_advB (ca := ca) (cb := cb) e
    exact ⟨by rw [h1]; exact hs.1, fun x hx => hs.2 x (List.mem_of_mem_drop (by rw [h2] at hx; exact hx))⟩
  keepC s s' hs e := by
    change (match s.a, s.b with
      | x :: as, y :: bs => _
      | _, _ => _) = _ at e
    split at e
    · rename_i x as' y bs' e1 e2
      split at e
      · cases e
      · cases e
        exact ⟨fun x hx => hs.1 x (by rw [e1]; exact .tail _ hx), fun y hy => hs.2 y (by rw [e2]; exact .tail _ hy)⟩
    · cases e
  growA _ _ _ := trivial
  growB _ _ _ := trivial
  growC _ _ := trivial

theorem mergeChildren_like (hk : Answers k) {takeA takeB : Bool} {ca : Tree K V → Call (Tree K V)} {cb : Tree K X → Call (Tree K V)}
    {rec : Tree K V → Tree K X → M W (Tree K V)} {rec' : Tree K V → Tree K X → Call (Tree K V)} (hrec : RecNew rec rec')
    {as : List (Tree K V)} {bs : List (Tree K X)} (ha : Tree.Kids as) (hb : Tree.Kids bs) :
    Like (mergeChildren (pureOp k takeA takeB ca cb rec) as bs) (Tree.mergeChildren (Tree.pureOp takeA takeB ca cb rec') as bs) := by
  intro w r e
  unfold Tree.mergeChildren SliceMS.merge
  rw [headed_of ha, headed_of hb]
  simp only [Bool.and_self, if_true]
  obtain ⟨h1, -⟩ := driveAll_agrees (pureOp_sim (takeA := takeA) (takeB := takeB) (ca := ca) (cb := cb) hk hrec ha.valid hb.valid)
    { a := as, b := bs, r := [] } w ⟨fun _ h => h, fun _ h => h⟩
  unfold mergeChildren at e
  rcases hq : driveAll (pureOp k takeA takeB ca cb rec) { a := as, b := bs, r := [] } w with ⟨⟨s, o⟩, w'⟩
  rw [hq] at e h1
  cases o with
  | ret b =>
    cases e
    rw [h1 b rfl]
    cases b <;> rfl
  | panic => cases e
  | fault => cases e

theorem boolOp_sim (hk : Answers k) {takeA : Bool} {rec : Tree K V → Tree K X → M W Bool} {rec' : Tree K V → Tree K X → Call Bool} (hrec : RecNew rec rec')
    {as : List (Tree K V)} {bs : List (Tree K X)} (ha : ∀ x ∈ as, Tree.Valid x) (hb : ∀ y ∈ bs, Tree.Valid y) :
    Sim (fun _ _ => True) (fun s : BoolMS (Tree K V) (Tree K X) => (∀ x ∈ s.a, x ∈ as) ∧ ∀ y ∈ s.b, y ∈ bs) (boolOp k takeA rec) (Tree.boolOp takeA rec') where
  refl _ := trivial
  trans _ _ _ _ _ := trivial
  cmp a b := headsCmp_plain hk a b
  fromA := rfl
  fromB := rfl
  collision s w hs := by
    show Along _ (match s.a, s.b with
      | x :: _, y :: _ => _
      | _, _ => _) (match s.a, s.b with
      | x :: _, y :: _ => _
      | _, _ => _)
    split
    · rename_i x as' y bs' e1 e2
      have hr := hrec x y (ha x (hs.1 x (by rw [e1]; simp))) (hb y (hs.2 y (by rw [e2]; simp))) w
      unfold decideOn
      rcases hq : rec x y w with ⟨o, w'⟩
      rw [hq] at hr
      cases o with
      | ret t =>
        rw [hr t rfl]
        refine Along.andThen (G := fun _ _ => True) (fun _ _ _ _ _ => trivial) (Along.step (G := fun _ _ => True) (fun _ => trivial) _ w') (fun _ _ => trivial)
          fun m w _ => Along.step (G := fun _ _ => True) (fun _ => trivial) _ w
      | panic => exact ⟨fun b e => (by cases e), fun _ => trivial⟩
      | fault => exact ⟨fun b e => (by cases e), fun _ => trivial⟩
    · exact ⟨fun b e => (by cases e), fun _ => trivial⟩
  keepA s n s' hs e := by
    obtain ⟨h1, h2⟩ := bool_advA e
    exact ⟨fun x hx => hs.1 x (List.mem_of_mem_drop (by rw [h1] at hx; exact hx)), by rw [h2]; exact hs.2⟩
  keepB s n s' hs e := by
    obtain ⟨h1, h2⟩ := bool_advB (s := s) (s' := s') (n := n) (take := false) e
    exact ⟨by rw [h1]; exact hs.1, fun x hx => hs.2 x (List.mem_of_mem_drop (by rw [h2] at hx; exact hx))⟩
  keepC s s' hs e := by
    change (match s.a, s.b with
      | x :: _, y :: _ => _
      | _, _ => _) = _ at e
    split at e
    · split at e
      · cases e
      · obtain ⟨m, h1, e⟩ := andThen_cont e
        obtain ⟨a1, a2⟩ := bool_advA h1
        obtain ⟨b1, b2⟩ := bool_advB e
        refine ⟨fun x hx => hs.1 x ?_, fun y hy => hs.2 y ?_⟩
        · rw [b1, a1] at hx; exact List.mem_of_mem_drop hx
        · rw [b2, a2] at hy; exact List.mem_of_mem_drop hy
    · cases e
  growA _ _ _ := trivial
  growB _ _ _ := trivial
  growC _ _ := trivial

theorem mergeBool_like (hk : Answers k) {takeA : Bool} {rec : Tree K V → Tree K X → M W Bool} {rec' : Tree K V → Tree K X → Call Bool} (hrec : RecNew rec rec')
    {as : List (Tree K V)} {bs : List (Tree K X)} (ha : Tree.Kids as) (hb : Tree.Kids bs) :
    Like (mergeBool (boolOp k takeA rec) as bs) (Tree.mergeBool (Tree.boolOp takeA rec') as bs) := by
  intro w r e
  unfold Tree.mergeBool BoolMS.merge
  rw [headed_of ha, headed_of hb]
  simp only [Bool.and_self, if_true]
  obtain ⟨h1, -⟩ := driveAll_agrees (boolOp_sim (takeA := takeA) hk hrec ha.valid hb.valid)
    { a := as, b := bs, r := false } w ⟨fun _ h => h, fun _ h => h⟩
  unfold mergeBool at e
  rcases hq : driveAll (boolOp k takeA rec) { a := as, b := bs, r := false } w with ⟨⟨s, o⟩, w'⟩
  rw [hq] at e h1
  cases o with
  | ret b =>
    cases e
    rw [h1 b rfl]
    cases b <;> rfl
  | panic => cases e
  | fault => cases e

end ops

section new
variable {k : Keys W K} {sort : Sorter W (Tree K V)} [TransOrd K] [LawfulEqOrd K]

theorem ofCall_like {α : Type} (c : Call α) : Like (ofCall c : M W α) c := by
  cases c with
  | ret x => exact Like.pure x
  | panic => exact Like.panic _

theorem like_congr {α β : Type} {x : M W α} {c : Call α} {f : α → β} (h : Like x c) : Like (x >>= fun a => pure (f a)) (Tree.bindC c fun a => .ret (f a)) :=
  h.bind fun a _ => Like.pure (f a)

theorem sortPair_like (hs : Sorts sort) (a b : Tree K V) : Like (sortPair sort a b) (.ret (Tree.sortKids [a, b])) := by
  intro w r e
  unfold sortPair at e
  have := hs [a, b] w
  rcases hq : sort [a, b] w with ⟨⟨l, o⟩, w'⟩
  rw [hq] at e this
  cases o with
  | panic => cases e
  | ret u => cases e; exact congrArg Call.ret (this rfl).symm

theorem mat_kids {y : Tree K X} (hy : Tree.Valid y) {n : Nat} {z : Tree K X} (h : y.materializeShortened n = .ret z) : Tree.Kids [z] := by
  obtain ⟨h1, rfl⟩ := Tree.materializeShortened_ret y n z h
  exact shorten_kids hy h1

theorem outerCases_like (hk : Answers k) (hs : Sorts sort) {rec : Tree K V → Tree K V → M W (Tree K V)} {rec' : Tree K V → Tree K V → Call (Tree K V)}
    (hrec : RecNew rec rec') (f : V → V → Option V) (n : Nat) {a b : Tree K V} (ha : Tree.Valid a) (hb : Tree.Valid b) :
    Like (outerCases sort (pureOp k true true Tree.materialize Tree.materialize rec) f n a b) (Tree.outerCases (Tree.outerOp rec') f n a b) := by
  unfold outerCases Tree.outerCases Tree.outerOp
  split
  · exact like_congr (mergeChildren_like hk hrec ha.kids hb.kids)
  split
  · exact (ofCall_like _).bind fun z e => like_congr (mergeChildren_like hk hrec ha.kids (mat_kids hb e))
  split
  · exact (ofCall_like _).bind fun z e => like_congr (mergeChildren_like hk hrec (mat_kids ha e) hb.kids)
  · refine (ofCall_like _).bind fun z e => (ofCall_like _).bind fun z' e' => ?_
    have hh : Tree.headed [z, z'] = true := by
      have h1 := headed_of (mat_kids ha e)
      have h2 := headed_of (mat_kids hb e')
      simp only [Tree.headed, List.all_cons, List.all_nil, Bool.and_true] at h1 h2 ⊢
      rw [h1, h2]; rfl
    rw [if_pos hh]
    exact Like.bind (k := fun ks => .ret (mkNode (a.pre.take n) none ks)) (sortPair_like hs z z') fun ks _ => Like.pure _

theorem innerCases_like (hk : Answers k) {rec : Tree K V → Tree K X → M W (Tree K V)} {rec' : Tree K V → Tree K X → Call (Tree K V)}
    (hrec : RecNew rec rec') (f : V → X → Option V) (n : Nat) {a : Tree K V} {b : Tree K X} (ha : Tree.Valid a) (hb : Tree.Valid b) :
    Like (innerCases (pureOp k false false Tree.materialize noConverter rec) f n a b) (Tree.innerCases (Tree.innerOp rec') f n a b) := by
  unfold innerCases Tree.innerCases Tree.innerOp
  split
  · exact like_congr (mergeChildren_like hk hrec ha.kids hb.kids)
  split
  · exact (ofCall_like _).bind fun z e => like_congr (mergeChildren_like hk hrec ha.kids (mat_kids hb e))
  split
  · exact (ofCall_like _).bind fun z e => like_congr (mergeChildren_like hk hrec (mat_kids ha e) hb.kids)
  · exact Like.pure _

theorem leftCases_like (hk : Answers k) {rec : Tree K V → Tree K X → M W (Tree K V)} {rec' : Tree K V → Tree K X → Call (Tree K V)}
    (hrec : RecNew rec rec') (f : V → Option X → Option V) (n : Nat) {a : Tree K V} {b : Tree K X} (ha : Tree.Valid a) (hb : Tree.Valid b) :
    Like (leftCases (pureOp k true false Tree.materialize noConverter rec) f n a b) (Tree.leftCases (Tree.leftOp rec') f n a b) := by
  unfold leftCases Tree.leftCases Tree.leftOp
  split
  · exact like_congr (mergeChildren_like hk hrec ha.kids hb.kids)
  split
  · exact (ofCall_like _).bind fun z e => like_congr (mergeChildren_like hk hrec ha.kids (mat_kids hb e))
  split
  · exact (ofCall_like _).bind fun z e => like_congr (mergeChildren_like hk hrec (mat_kids ha e) hb.kids)
  · exact like_congr (ofCall_like _)

theorem outerGo_like (hk : Answers k) (hs : Sorts sort) (f : V → V → Option V) : ∀ fuel, RecNew (outerGo k sort f fuel) (Tree.outerGo f fuel)
  | 0 => fun _ _ _ _ => Like.fault _
  | fuel + 1 => fun a b ha hb => (commonPrefix_plain hk a.pre b.pre).like (outerCases_like hk hs (outerGo_like hk hs f fuel) f _ ha hb)
theorem innerGo_like (hk : Answers k) (f : V → X → Option V) : ∀ fuel, RecNew (innerGo k f fuel) (Tree.innerGo f fuel)
  | 0 => fun _ _ _ _ => Like.fault _
  | fuel + 1 => fun a b ha hb => (commonPrefix_plain hk a.pre b.pre).like (innerCases_like hk (innerGo_like hk f fuel) f _ ha hb)
theorem leftGo_like (hk : Answers k) (f : V → Option X → Option V) : ∀ fuel, RecNew (leftGo k f fuel) (Tree.leftGo f fuel)
  | 0 => fun _ _ _ _ => Like.fault _
  | fuel + 1 => fun a b ha hb => (commonPrefix_plain hk a.pre b.pre).like (leftCases_like hk (leftGo_like hk f fuel) f _ ha hb)

end new

section ask
variable {k : Keys W K}

theorem anyH_like {α : Type} {p : α → M W Bool} {p' : α → Call Bool} : ∀ (l : List α), (∀ x ∈ l, Like (p x) (p' x)) → Like (anyH p l) (Tree.anyC p' l)
  | [], _ => Like.pure false
  | x :: xs, h => by
    intro w r e
    obtain ⟨b, w', h1, h2⟩ := bind_ret e
    have hx := h x (.head _) w b (by rw [h1])
    rw [Tree.anyC, hx]
    cases b with
    | true => cases h2; rfl
    | false => exact anyH_like xs (fun y hy => h y (.tail _ hy)) w' r h2

theorem allH_like {α : Type} {p : α → M W Bool} {p' : α → Call Bool} : ∀ (l : List α), (∀ x ∈ l, Like (p x) (p' x)) → Like (allH p l) (Tree.allC p' l)
  | [], _ => Like.pure true
  | x :: xs, h => by
    intro w r e
    obtain ⟨b, w', h1, h2⟩ := bind_ret e
    have hx := h x (.head _) w b (by rw [h1])
    rw [Tree.allC, hx]
    cases b with
    | false => cases h2; rfl
    | true => exact allH_like xs (fun y hy => h y (.tail _ hy)) w' r h2

theorem not_like {x : M W Bool} {c : Call Bool} (h : Like x c) : Like (x >>= fun b => pure (!b)) (Tree.notC c) := by
  intro w r e
  obtain ⟨b, w', h1, h2⟩ := bind_ret e
  have hx := h w b (by rw [h1])
  rw [hx]
  cases h2; rfl

theorem isSubsetGo_like (hk : Answers k) : ∀ fuel (l : Tree K V) (lp : List K) (r : Tree K X) (rp : List K), Tree.Valid l → Tree.Valid r →
    Like (isSubsetGo k fuel l lp r rp) (Tree.isSubsetGo fuel l lp r rp)
  | 0 => fun _ _ _ _ _ _ => Like.fault _
  | fuel + 1 => fun l lp r rp hl hr => by
    refine (commonPrefix_plain hk lp rp).like ?_
    rw [Tree.isSubsetGo]
    split
    · unfold Tree.andC
      split
      · exact not_like (mergeBool_like hk (fun x y hx hy => not_like (isSubsetGo_like hk fuel x x.pre y y.pre hx hy)) hl.kids hr.kids)
      · exact Like.pure false
    split
    · unfold Tree.andC
      split
      · exact allH_like _ fun c hc => isSubsetGo_like hk fuel c c.pre r _ (hl.kids.valid c hc) hr
      · exact Like.pure false
    split
    · exact anyH_like _ fun c hc => isSubsetGo_like hk fuel l _ c c.pre hl (hr.kids.valid c hc)
    · exact Like.pure false

theorem intersectsGo_like (hk : Answers k) : ∀ fuel (l : Tree K V) (lp : List K) (r : Tree K X) (rp : List K), Tree.Valid l → Tree.Valid r →
    Like (intersectsGo k fuel l lp r rp) (Tree.intersectsGo fuel l lp r rp)
  | 0 => fun _ _ _ _ _ _ => Like.fault _
  | fuel + 1 => fun l lp r rp hl hr => by
    refine (commonPrefix_plain hk lp rp).like ?_
    rw [Tree.intersectsGo]
    split
    · unfold Tree.orC
      split
      · exact Like.pure true
      · exact mergeBool_like hk (fun x y hx hy => intersectsGo_like hk fuel x x.pre y y.pre hx hy) hl.kids hr.kids
    split
    · exact anyH_like _ fun c hc => intersectsGo_like hk fuel c c.pre r _ (hl.kids.valid c hc) hr
    split
    · exact anyH_like _ fun c hc => intersectsGo_like hk fuel l _ c c.pre hl (hr.kids.valid c hc)
    · exact Like.pure false

theorem childCmp_plain (hk : Answers k) (c : K) (e : Tree K V) : Plain (childCmp k c e) (compare e.pre.head? (some c)) := by
  unfold childCmp
  cases he : e.pre with
  | nil => exact Plain.panic _
  | cons x xs => exact Plain.call fun w r h => hk.2 x c w r h

theorem findGo_like (hk : Answers k) : ∀ fuel (t : Tree K V) (p : List K), Tree.Valid t → Like (findGo k fuel t p) (Tree.findGo fuel t p)
  | 0 => fun _ _ _ => Like.fault _
  | fuel + 1 => fun t p ht => by
    refine (commonPrefix_plain hk t.pre p).like ?_
    rw [Tree.findGo]
    split
    · exact Like.pure _
    split
    · exact Like.pure _
    split
    · cases hp : p[Tree.commonPrefix t.pre p]? with
      | none => exact Like.panic _
      | some c =>
        simp only
        rw [headed_of ht.kids, if_pos rfl]
        refine (binarySearchBy_plain fun e _ => childCmp_plain hk c e).like ?_
        cases hb : Verif.binarySearchBy (fun e : Tree K V => compare e.pre.head? (some c)) t.kids with
        | notFound i => exact Like.pure _
        | found i =>
          simp only
          cases hi : t.kids[i]? with
          | none => exact Like.panic _
          | some child => exact findGo_like hk fuel child _ (ht.kids.valid child (List.mem_of_getElem? hi))
    · exact Like.pure _

theorem get_like (hk : Answers k) (t : Tree K V) (key : List K) (ht : Tree.Valid t) : Like (get k t key) (Tree.get t key) := by
  intro w r e
  obtain ⟨b, w', h1, h2⟩ := bind_ret e
  have hx := findGo_like hk _ t key ht w b (by unfold find at h1; rw [h1])
  unfold Tree.get Tree.find
  rw [hx]
  cases b <;> (cases h2; rfl)

theorem filterPrefix_like (hk : Answers k) (t : Tree K V) (p : List K) (ht : Tree.Valid t) : Like (filterPrefix k t p) (Tree.filterPrefix t p) := by
  intro w r e
  obtain ⟨b, w', h1, h2⟩ := bind_ret e
  have hx := findGo_like hk _ t p ht w b (by unfold find at h1; rw [h1])
  unfold Tree.filterPrefix Tree.find
  rw [hx]
  cases b <;> (cases h2; rfl)

end ask
end Radix
end Hostile
end Verif
