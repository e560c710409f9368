import Verif.Lemmas.HostileRadixAgree
import Verif.Lemmas.HostileRadixShape
import Verif.Lemmas.RadixWorkOps
import Verif.Spec.HostileRadix
/-! # Keys that answer like a total order if they answer at all: combinations in place -/
namespace Verif
namespace Hostile
namespace Radix
variable {W K V X : Type} [Ord K] [DecidableEq K]

theorem commonPrefix_plain {k : Keys W K} (hk : Answers k) : ∀ p q : List K, Plain (commonPrefix k p q) (Tree.commonPrefix p q)
  | [], q => Plain.pure 0
  | x :: xs, [] => Plain.pure 0
  | x :: xs, y :: ys => by
    unfold commonPrefix
    rw [Tree.commonPrefixM, Tree.commonPrefix]
    refine (Plain.call (a := decide (x = y)) fun w r h => hk.1 x y w r h).bind ?_
    by_cases h : x = y
    · simp only [h, decide_true, if_true]
      exact (commonPrefix_plain hk xs ys).bind (Plain.pure _)
    · simp only [h, decide_false, if_false]
      exact Plain.pure 0

theorem headsCmp_plain {k : Keys W K} (hk : Answers k) (a : Tree K V) (b : Tree K X) : Plain (headsCmp k a b) (Tree.headCmp a b) := by
  unfold headsCmp Tree.headCmp
  split
  · rename_i x xs y ys e1 e2
    rw [e1, e2]
    exact Plain.call fun w r h => hk.2 x y w r h
  · exact Plain.panic _

theorem extend_sub {A B : Type} (conv : B → Call A) : ∀ (n : Nat) (s : InPlaceMS A B),
    (s.extendFromIter conv n).1.src = s.src ∧ (∀ y ∈ (s.extendFromIter conv n).1.b, y ∈ s.b) ∧ s.tgt <+: (s.extendFromIter conv n).1.tgt
  | 0, s => ⟨rfl, fun _ h => h, List.prefix_refl _⟩
  | n + 1, s => by
    rw [InPlaceMS.extendFromIter]
    split
    · exact ⟨rfl, fun _ h => h, List.prefix_refl _⟩
    · rename_i x xs hb
      split
      · exact ⟨rfl, fun y h => by rw [hb]; exact .tail _ h, List.prefix_refl _⟩
      · rename_i y _
        obtain ⟨h1, h2, h3⟩ := extend_sub conv n { s with tgt := s.tgt ++ [y], b := xs }
        exact ⟨h1, fun z hz => by rw [hb]; exact .tail _ (h2 z hz), (List.prefix_append _ _).trans h3⟩

theorem consume_sub {A B : Type} (s : InPlaceMS A B) (n : Nat) (take : Bool) :
    (s.consume n take).src = s.src.drop (min n s.src.length) ∧ (s.consume n take).b = s.b ∧ s.tgt <+: (s.consume n take).tgt := by
  unfold InPlaceMS.consume
  cases take <;> simp

/-- the remaining elements come from the given lists -/
def From {A B : Type} (as : List A) (bs : List B) (s : InPlaceMS A B) : Prop := (∀ x ∈ s.src, x ∈ as) ∧ ∀ y ∈ s.b, y ∈ bs
/-- the target only grows -/
def Grows {A B : Type} (s s' : InPlaceMS A B) : Prop := s.tgt <+: s'.tgt

/-- what a recursive call may be assumed to do -/
def RecLike (rec : Tree K V → Tree K X → W → (Tree K V × Outcome Bool) × W) (rec' : Tree K V → Tree K X → Tree K V × Flow) : Prop :=
  ∀ x y w b, Tree.Valid x → Tree.Valid y → (rec x y w).1.2 = .ret b → rec' x y = ((rec x y w).1.1, flowOf b)

theorem advanceB_sub {A B : Type} (conv : B → Call A) (s : InPlaceMS A B) (n : Nat) (take : Bool) :
    ((InPlaceMS.mut conv).advanceB s n take).1.src = s.src ∧ (∀ y ∈ ((InPlaceMS.mut conv).advanceB s n take).1.b, y ∈ s.b) ∧
    s.tgt <+: ((InPlaceMS.mut conv).advanceB s n take).1.tgt := by
  show ((if take then s.extendFromIter conv n else (s.skipB n, .cont)) : _ × Flow).1.src = _ ∧ _
  cases take
  · obtain ⟨h1, h2, h3⟩ := skipB_facts n s
    refine ⟨h1, fun y hy => ?_, ?_⟩
    · have hy : y ∈ (s.skipB n).b := hy
      rw [h2] at hy
      exact List.mem_of_mem_drop hy
    · show s.tgt <+: (s.skipB n).tgt
      rw [h3]; exact List.prefix_refl _
  · exact extend_sub conv n s

theorem inPlaceOp_sim {k : Keys W K} (hk : Answers k) {takeA takeB : Bool} {conv : Tree K X → Call (Tree K V)}
    {rec : Tree K V → Tree K X → W → (Tree K V × Outcome Bool) × W} {rec' : Tree K V → Tree K X → Tree K V × Flow} (hrec : RecLike rec rec')
    {as : List (Tree K V)} {bs : List (Tree K X)} (ha : ∀ x ∈ as, Tree.Valid x) (hb : ∀ y ∈ bs, Tree.Valid y) :
    Sim Grows (From as bs) (inPlaceOp k takeA takeB conv rec) (Tree.inPlaceOp takeA takeB conv rec') where
  refl s := List.prefix_refl _
  trans a b c := List.IsPrefix.trans
  cmp a b := headsCmp_plain hk a b
  fromA := rfl
  fromB := rfl
  collision s w hs := by
    show Along _ (match s.src, s.b with
      | x :: as, y :: _ => _
      | _, _ => _) (match s.src, s.b with
      | x :: as, y :: _ => _
      | _, _ => _)
    split
    · rename_i x as' y bs' e1 e2
      have hr := hrec x y w
      unfold onFirst
      rcases hq : rec x y w with ⟨⟨t, o⟩, w'⟩
      rw [hq] at hr
      have hx := ha x (hs.1 x (by rw [e1]; simp))
      have hy := hb y (hs.2 y (by rw [e2]; simp))
      cases o with
      | ret b =>
        have hr : rec' x y = (t, flowOf b) := hr b hx hy rfl
        simp only [hr]
        cases b with
        | true =>
          refine Along.andThen (G := Grows) (fun a b c => List.IsPrefix.trans)
            (Along.step (G := Grows) (fun s => List.prefix_refl _) ({ s with src := t :: as' }, .cont) w') (fun m _ => ?_) fun m w _ => ?_
          · refine andThen_grow (G := Grows) (fun a b c => List.IsPrefix.trans) (consume_sub m 1 _).2.2 fun m' _ => ?_
            exact (advanceB_sub conv m' 1 false).2.2
          · refine Along.andThen (G := Grows) (fun a b c => List.IsPrefix.trans) (Along.step (G := Grows) (fun s => List.prefix_refl _) _ w) (fun m _ => ?_)
              fun m w _ => ?_
            · exact (advanceB_sub conv m 1 false).2.2
            · exact Along.step (G := Grows) (fun s => List.prefix_refl _) _ w
        | false => exact ⟨fun b e => (by cases e; rfl), fun e => (by cases e)⟩
      | fault => exact ⟨fun b e => (by cases e), fun e => (by cases e)⟩
      | panic =>
        refine ⟨fun b e => (by cases e), fun _ => ?_⟩
        refine andThen_grow (G := Grows) (fun a b c => List.IsPrefix.trans) (List.prefix_refl _) fun m _ => ?_
        refine andThen_grow (G := Grows) (fun a b c => List.IsPrefix.trans) (consume_sub m 1 _).2.2 fun m' _ => ?_
        exact (advanceB_sub conv m' 1 false).2.2
    · exact ⟨fun b e => (by cases e), fun _ => List.prefix_refl _⟩
  keepA s n s' hs e := by
    cases e
    obtain ⟨h1, h2, -⟩ := consume_sub s n takeA
    exact ⟨fun x hx => hs.1 x (by rw [h1] at hx; exact List.mem_of_mem_drop hx), by rw [h2]; exact hs.2⟩
  keepB s n s' hs e := by
    obtain ⟨h1, h2, -⟩ := advanceB_sub conv s n takeB
    have e : (InPlaceMS.mut conv).advanceB s n takeB = (s', .cont) := e
    rw [e] at h1 h2
    exact ⟨by rw [h1]; exact hs.1, fun y hy => hs.2 y (h2 y hy)⟩
  keepC s s' hs e := by
    change (match s.src, s.b with
      | x :: as, y :: _ => _
      | _, _ => _) = _ at e
    split at e
    · rename_i x as' y bs' e1 e2
      obtain ⟨m, h1, e⟩ := andThen_cont e
      obtain ⟨m', h2, e⟩ := andThen_cont e
      obtain rfl := congrArg Prod.fst h1
      obtain rfl := congrArg Prod.fst h2
      obtain ⟨g1, g2, -⟩ := advanceB_sub conv (InPlaceMS.consume { s with src := (rec' x y).1 :: as' } 1 (!(rec' x y).1.isEmpty)) 1 false
      have e : (InPlaceMS.mut conv).advanceB (InPlaceMS.consume { s with src := (rec' x y).1 :: as' } 1 (!(rec' x y).1.isEmpty)) 1 false = (s', .cont) := e
      rw [e] at g1 g2
      obtain ⟨c1, c2, -⟩ := consume_sub { s with src := (rec' x y).1 :: as' } 1 (!(rec' x y).1.isEmpty)
      refine ⟨fun z hz => hs.1 z ?_, fun z hz => hs.2 z ?_⟩
      · rw [g1, c1] at hz
        rw [e1]
        refine .tail _ ?_
        simp only [List.length_cons, Nat.min_eq_left (Nat.succ_le_succ (Nat.zero_le _)), List.drop_one, List.tail_cons] at hz
        exact hz
      · have := g2 z hz
        rw [c2] at this
        exact this
    · cases e
  growA s n _ := (consume_sub s n takeA).2.2
  growB s n _ := (advanceB_sub conv s n takeB).2.2
  growC s _ := by
    show Grows s (match s.src, s.b with
      | x :: as, y :: _ => _
      | _, _ => _ : _ × Flow).1
    split
    · refine andThen_grow (G := Grows) (fun a b c => List.IsPrefix.trans) (List.prefix_refl _) fun m _ => ?_
      refine andThen_grow (G := Grows) (fun a b c => List.IsPrefix.trans) (consume_sub m 1 _).2.2 fun m' _ => ?_
      exact (advanceB_sub conv m' 1 false).2.2
    · exact List.prefix_refl _

/-- `t` is `t'`, except that some of the last children may be missing, or the children may be in a wrong order because sorting them panicked -/
def Cut (sort : Sorter W (Tree K V)) (t t' : Tree K V) : Prop :=
  t.pre = t'.pre ∧ t.val = t'.val ∧ (t.kids <+: t'.kids ∨ (SortingPanics sort ∧ t.kids.Perm t'.kids))

theorem Cut.refl (sort : Sorter W (Tree K V)) (t : Tree K V) : Cut sort t t := ⟨rfl, rfl, .inl (List.prefix_refl _)⟩

theorem headed_of {ks : List (Tree K V)} (h : Tree.Kids ks) : Tree.headed ks = true := by
  unfold Tree.headed
  refine List.all_eq_true.2 fun x hx => ?_
  have := h.ne x hx
  cases hp : x.pre with
  | nil => exact absurd hp this
  | cons a l => rfl

section cases
variable {k : Keys W K} {sort : Sorter W (Tree K V)} {takeA takeB : Bool} {conv : Tree K X → Call (Tree K V)}
    {rec : Tree K V → Tree K X → W → (Tree K V × Outcome Bool) × W} {rec' : Tree K V → Tree K X → Tree K V × Flow}

theorem childrenWith_along (hk : Answers k) (hrec : RecLike rec rec') (t : Tree K V) (rhs : List (Tree K X)) (ht : Tree.Kids t.kids) (hr : Tree.Kids rhs) (w : W) :
    Along (Cut sort) (childrenWith (inPlaceOp k takeA takeB conv rec) t rhs w) (Tree.childrenWith (Tree.inPlaceOp takeA takeB conv rec') t rhs) := by
  unfold Tree.childrenWith childrenWith InPlaceMS.merge
  rw [headed_of ht, headed_of hr]
  simp only [Bool.and_self, if_true]
  obtain ⟨h1, h2⟩ := driveAll_agrees (inPlaceOp_sim (takeA := takeA) (takeB := takeB) (conv := conv) hk hrec ht.valid hr.valid)
    { tgt := [], src := t.kids, b := rhs } w ⟨fun _ h => h, fun _ h => h⟩
  refine ⟨fun b e => ?_, fun e => ⟨rfl, rfl, .inl (h2 e)⟩⟩
  rw [h1 b e]

/-- after a step without user code -/
theorem Along.after {G : Tree K V → Tree K V → Prop} (hG : ∀ t, G t t) {p : Tree K V × Flow} {kk : Tree K V → W → (Tree K V × Outcome Bool) × W}
    {k' : Tree K V → Tree K V × Flow} (w : W) (h : ∀ s, p = (s, .cont) → Along G (kk s w) (k' s)) : Along G (andThen (step p w) kk) (Verif.andThen p k') := by
  obtain ⟨t, fl⟩ := p
  cases fl with
  | cont => exact h t rfl
  | stop => exact ⟨fun b e => (by cases e; rfl), fun e => (by cases e)⟩
  | panic => exact ⟨fun b e => (by cases e), fun _ => hG t⟩

theorem withMat_along {G : Tree K V → Tree K V → Prop} (hG : ∀ t, G t t) (y : Tree K X) (n : Nat) (t : Tree K V)
    {kk : Tree K X → W → (Tree K V × Outcome Bool) × W} {k' : Tree K X → Tree K V × Flow} (w : W)
    (h : n < y.pre.length → Along G (kk (y.shorten n) w) (k' (y.shorten n))) :
    Along G (withMat (y.materializeShortened n) t kk w) (Tree.withMat (y.materializeShortened n) t k') := by
  unfold withMat Tree.withMat
  cases hm : y.materializeShortened n with
  | panic => exact ⟨fun b e => (by cases e), fun _ => hG t⟩
  | ret z =>
    obtain ⟨h1, rfl⟩ := Tree.materializeShortened_ret y n z hm
    exact h h1

theorem shorten_pre {y : Tree K X} {n : Nat} (h : n < y.pre.length) : (y.shorten n).pre ≠ [] := by
  intro e
  have : (y.pre.drop n).length = 0 := by
    have e : y.pre.drop n = [] := e
    rw [e]; rfl
  rw [List.length_drop] at this; omega

theorem shorten_kids [Std.TransOrd K] [Std.LawfulEqOrd K] {y : Tree K X} (hy : Tree.Valid y) {n : Nat} (h : n < y.pre.length) : Tree.Kids [y.shorten n] :=
  Tree.Kids.single (Tree.valid_iff.2 hy.kids) (shorten_pre h)

variable [Std.TransOrd K] [Std.LawfulEqOrd K]

theorem split_kids {x : Tree K V} (hx : Tree.Valid x) {n : Nat} {s : Tree K V} (h : x.split n = (s, .cont)) : Tree.Kids s.kids := by
  unfold Tree.split at h
  split at h
  · rename_i hn
    cases h
    exact shorten_kids hx hn
  · cases h

theorem outerWithCases_along {rec : Tree K V → Tree K V → W → (Tree K V × Outcome Bool) × W} {rec' : Tree K V → Tree K V → Tree K V × Flow}
    (hk : Answers k) (hs : Sorts sort) (hperm : Rearranges sort) (hrec : RecLike rec rec') (f : Tree.MutFn V V) (n : Nat) (x y : Tree K V)
    (hx : Tree.Valid x) (hy : Tree.Valid y) (w : W) :
    Along (Cut sort) (outerWithCases sort (inPlaceOp k true true Tree.materialize rec) f n x y w) (Tree.outerWithCases (Tree.outerWithOp rec') f n x y) := by
  unfold outerWithCases Tree.outerWithCases Tree.outerWithOp
  split
  · refine Along.after (Cut.refl sort) w fun s e => childrenWith_along hk hrec s y.kids ?_ hy.kids w
    cases congrArg Prod.fst e
    exact hx.kids
  split
  · refine withMat_along (Cut.refl sort) y n x w fun hn => childrenWith_along hk hrec x _ hx.kids (shorten_kids hy hn) w
  split
  · refine Along.after (Cut.refl sort) w fun s e => ?_
    refine Along.after (Cut.refl sort) w fun s' e' => childrenWith_along hk hrec s' y.kids ?_ hy.kids w
    cases congrArg Prod.fst e'
    show Tree.Kids s.kids
    exact split_kids hx e
  · refine Along.after (Cut.refl sort) w fun s e => withMat_along (Cut.refl sort) y n s w fun hn => ?_
    have hne : ∀ t ∈ s.kids ++ [y.shorten n], t.pre ≠ [] := by
      intro t ht
      rcases List.mem_append.1 ht with h | h
      · exact (split_kids hx e).ne t h
      · obtain rfl := List.mem_singleton.1 h; exact shorten_pre hn
    have hh : Tree.headed (s.kids ++ [y.shorten n]) = true := by
      unfold Tree.headed
      refine List.all_eq_true.2 fun x hx => ?_
      have := hne x hx
      cases hp : x.pre with
      | nil => exact absurd hp this
      | cons a l => rfl
    rw [if_pos hh]
    unfold pushSort
    constructor
    · intro b e
      have e : (match (sort (s.kids ++ [y.shorten n]) w).1.2 with | .ret _ => Outcome.ret true | .panic => .panic) = .ret b := e
      cases hq : (sort (s.kids ++ [y.shorten n]) w).1.2 with
      | panic => rw [hq] at e; cases e
      | ret u =>
        rw [hq] at e
        cases e
        show _ = ({ s with kids := (sort (s.kids ++ [y.shorten n]) w).1.1 }, Flow.cont)
        rw [hs _ w hq]
    · intro e
      have e : (match (sort (s.kids ++ [y.shorten n]) w).1.2 with | .ret _ => Outcome.ret true | .panic => .panic) = .panic := e
      cases hq : (sort (s.kids ++ [y.shorten n]) w).1.2 with
      | ret u => rw [hq] at e; cases e
      | panic =>
        refine ⟨rfl, rfl, .inr ⟨⟨_, w, hne, hq⟩, ?_⟩⟩
        exact (hperm _ w).trans (stableSort_perm Tree.headCmp _).symm

theorem innerWithCases_along (hk : Answers k) (hrec : RecLike rec rec') (f : Tree.MutFn V X) (n : Nat) (x : Tree K V) (y : Tree K X)
    (hx : Tree.Valid x) (hy : Tree.Valid y) (w : W) :
    Along (Cut sort) (innerWithCases (inPlaceOp k false false noConverter rec) f n x y w) (Tree.innerWithCases (Tree.innerWithOp rec') f n x y) := by
  unfold innerWithCases Tree.innerWithCases Tree.innerWithOp
  split
  · refine Along.after (Cut.refl sort) w fun s e => childrenWith_along hk hrec s y.kids ?_ hy.kids w
    cases congrArg Prod.fst e
    exact hx.kids
  split
  · refine withMat_along (Cut.refl sort) y n _ w fun hn => childrenWith_along hk hrec _ _ (by exact hx.kids) (shorten_kids hy hn) w
  split
  · exact Along.after (Cut.refl sort) w fun s e => childrenWith_along hk hrec s y.kids (split_kids hx e) hy.kids w
  · exact ⟨fun b e => (by cases e; rfl), fun e => (by cases e)⟩

theorem leftWithCases_along (hk : Answers k) (hrec : RecLike rec rec') (f : Tree.MutFn V X) (n : Nat) (x : Tree K V) (y : Tree K X)
    (hx : Tree.Valid x) (hy : Tree.Valid y) (w : W) :
    Along (Cut sort) (leftWithCases (inPlaceOp k true false noConverter rec) f n x y w) (Tree.leftWithCases (Tree.leftWithOp rec') f n x y) := by
  unfold leftWithCases Tree.leftWithCases Tree.leftWithOp
  split
  · refine Along.after (Cut.refl sort) w fun s e => childrenWith_along hk hrec s y.kids ?_ hy.kids w
    cases congrArg Prod.fst e
    exact hx.kids
  split
  · refine withMat_along (Cut.refl sort) y n _ w fun hn => childrenWith_along hk hrec _ _ (by exact hx.kids) (shorten_kids hy hn) w
  split
  · exact Along.after (Cut.refl sort) w fun s e => childrenWith_along hk hrec s y.kids (split_kids hx e) hy.kids w
  · exact ⟨fun b e => (by cases e; rfl), fun e => (by cases e)⟩

theorem removePrefixCases_along (hk : Answers k) (hrec : RecLike rec rec') (f : X → Bool) (n : Nat) (x : Tree K V) (y : Tree K X)
    (hx : Tree.Valid x) (hy : Tree.Valid y) (w : W) :
    Along (Cut sort) (removePrefixCases (inPlaceOp k true false noConverter rec) f n x y w) (Tree.removePrefixCases (Tree.removePrefixOp rec') f n x y) := by
  unfold removePrefixCases Tree.removePrefixCases Tree.removePrefixOp
  split
  · split
    · exact ⟨fun b e => (by cases e; rfl), fun e => (by cases e)⟩
    · exact childrenWith_along hk hrec x y.kids hx.kids hy.kids w
  split
  · split
    · exact ⟨fun b e => (by cases e; rfl), fun e => (by cases e)⟩
    · exact Along.after (Cut.refl sort) w fun s e => childrenWith_along hk hrec s y.kids (split_kids hx e) hy.kids w
  split
  · refine withMat_along (Cut.refl sort) y n _ w fun hn => childrenWith_along hk hrec _ _ (by exact hx.kids) (shorten_kids hy hn) w
  · exact ⟨fun b e => (by cases e; rfl), fun e => (by cases e)⟩

theorem retainPrefixCases_along (hk : Answers k) (hrec : RecLike rec rec') (f : X → Bool) (n : Nat) (x : Tree K V) (y : Tree K X)
    (hx : Tree.Valid x) (hy : Tree.Valid y) (w : W) :
    Along (Cut sort) (retainPrefixCases (inPlaceOp k false false noConverter rec) f n x y w) (Tree.retainPrefixCases (Tree.retainPrefixOp rec') f n x y) := by
  unfold retainPrefixCases Tree.retainPrefixCases Tree.retainPrefixOp
  split
  · split
    · exact childrenWith_along hk hrec _ y.kids (by exact hx.kids) hy.kids w
    · exact ⟨fun b e => (by cases e; rfl), fun e => (by cases e)⟩
  split
  · split
    · exact Along.after (Cut.refl sort) w fun s e => childrenWith_along hk hrec s y.kids (split_kids hx e) hy.kids w
    · exact ⟨fun b e => (by cases e; rfl), fun e => (by cases e)⟩
  split
  · refine withMat_along (Cut.refl sort) y n _ w fun hn => childrenWith_along hk hrec _ _ (by exact hx.kids) (shorten_kids hy hn) w
  · exact ⟨fun b e => (by cases e; rfl), fun e => (by cases e)⟩

end cases

/-- how the whole method relates to the plain cases `q` that precede `unsplit` -/
def Run (sort : Sorter W (Tree K V)) (x : Tree K V) (r : (Tree K V × Outcome Bool) × W) (q : Tree K V × Flow) : Prop :=
  (∀ b, r.1.2 = .ret b → Tree.finish q = (r.1.1, flowOf b)) ∧ (r.1.2 = .panic → r.1.1 = x ∨ Cut sort r.1.1 q.1)

theorem body_run {k : Keys W K} {sort : Sorter W (Tree K V)} (hk : Answers k) {cases : Nat → Tree K V → Tree K X → W → (Tree K V × Outcome Bool) × W}
    {q : Tree K V × Flow} {x : Tree K V} {y : Tree K X} {w : W} (h : ∀ w, Along (Cut sort) (cases (Tree.commonPrefix x.pre y.pre) x y w) q) :
    Run sort x (body k cases x y w) q := by
  unfold body
  have hc := commonPrefix_plain hk x.pre y.pre w
  rcases hq : commonPrefix k x.pre y.pre w with ⟨o, w'⟩
  rw [hq] at hc
  cases o with
  | panic => exact ⟨fun b e => (by cases e), fun _ => .inl rfl⟩
  | fault => exact ⟨fun b e => (by cases e), fun e => (by cases e)⟩
  | ret n =>
    rw [hc n rfl]
    obtain ⟨h1, h2⟩ := h w'
    show Run sort x (andThen (cases (Tree.commonPrefix x.pre y.pre) x y w') fun t w => ((t.unsplit, .ret true), w)) q
    rcases hr : cases (Tree.commonPrefix x.pre y.pre) x y w' with ⟨⟨t, o⟩, w''⟩
    rw [hr] at h1 h2
    cases o with
    | panic => exact ⟨fun b e => (by cases e), fun _ => .inr (h2 rfl)⟩
    | fault => exact ⟨fun b e => (by cases e), fun e => (by cases e)⟩
    | ret b =>
      rw [h1 b rfl]
      cases b with
      | true => exact ⟨fun b e => (by cases e; rfl), fun e => (by cases e)⟩
      | false => exact ⟨fun b e => (by cases e; rfl), fun e => (by cases e)⟩

section go
variable [Std.TransOrd K] [Std.LawfulEqOrd K] {k : Keys W K} {sort : Sorter W (Tree K V)}

theorem outerWithGo_like (hk : Answers k) (hs : Sorts sort) (hperm : Rearranges sort) (f : Tree.MutFn V V) :
    ∀ fuel, RecLike (outerWithGo k sort f fuel) (Tree.outerWithGo f fuel)
  | 0 => fun x y w b _ _ e => by cases e
  | fuel + 1 => fun x y w b hx hy e =>
    (body_run hk (sort := sort) fun w => outerWithCases_along hk hs hperm (outerWithGo_like hk hs hperm f fuel) f _ x y hx hy w).1 b e
theorem innerWithGo_like (hk : Answers k) (f : Tree.MutFn V X) : ∀ fuel, RecLike (innerWithGo k f fuel) (Tree.innerWithGo f fuel)
  | 0 => fun x y w b _ _ e => by cases e
  | fuel + 1 => fun x y w b hx hy e =>
    (body_run hk (sort := fun l w => ((l, .panic), w)) fun w => innerWithCases_along hk (innerWithGo_like hk f fuel) f _ x y hx hy w).1 b e
theorem leftWithGo_like (hk : Answers k) (f : Tree.MutFn V X) : ∀ fuel, RecLike (leftWithGo k f fuel) (Tree.leftWithGo f fuel)
  | 0 => fun x y w b _ _ e => by cases e
  | fuel + 1 => fun x y w b hx hy e =>
    (body_run hk (sort := fun l w => ((l, .panic), w)) fun w => leftWithCases_along hk (leftWithGo_like hk f fuel) f _ x y hx hy w).1 b e
theorem removePrefixGo_like (hk : Answers k) (f : X → Bool) : ∀ fuel, RecLike (removePrefixGo (V := V) k f fuel) (Tree.removePrefixGo f fuel)
  | 0 => fun x y w b _ _ e => by cases e
  | fuel + 1 => fun x y w b hx hy e =>
    (body_run hk (sort := fun l w => ((l, .panic), w)) fun w => removePrefixCases_along hk (removePrefixGo_like hk f fuel) f _ x y hx hy w).1 b e
theorem retainPrefixGo_like (hk : Answers k) (f : X → Bool) : ∀ fuel, RecLike (retainPrefixGo (V := V) k f fuel) (Tree.retainPrefixGo f fuel)
  | 0 => fun x y w b _ _ e => by cases e
  | fuel + 1 => fun x y w b hx hy e =>
    (body_run hk (sort := fun l w => ((l, .panic), w)) fun w => retainPrefixCases_along hk (retainPrefixGo_like hk f fuel) f _ x y hx hy w).1 b e

end go
end Radix
end Hostile
end Verif
