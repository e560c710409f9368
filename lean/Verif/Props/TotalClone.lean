import Verif.Spec.TotalClone
import Verif.Model.TotalClone
import Verif.Props.SetClone
import Verif.Props.TotalVecSet
import Verif.Props.Effects
import Verif.Lemmas.BTreeEffects
/-!
# C91: what the clones of containers, total sets and maps, and the joins of `BTreeMap` clone

With an untrusted `Clone`: it has a state of its own, may return anything and may panic.
-/
namespace Verif
open Std
open CloneMerge

section
variable {T S X Y R : Type _}

theorem cloneAll_eq (cl : Closure S T T) (l : List T) (c : S) : cloneAll cl l c = unlessPanic id (clonesOf cl l c) := by
  have h := pushAll_answers (h := answering cl) (l := id) (cl := cl) (fun _ _ => rfl) l [] c
  rw [List.map_id, List.nil_append] at h
  unfold cloneAll clonesOf
  rw [h]
  obtain ⟨r, s, fl⟩ := answersOf (answering cl) l c
  cases fl <;> rfl

theorem wrapC_unlessPanic {Z : Type _} (g : Y → Z) (w : X → Y) (r : X × S × Flow) : Call.wrapC g (unlessPanic w r) = unlessPanic (g ∘ w) r := by
  obtain ⟨x, s, fl⟩ := r
  cases fl <;> rfl

end

section sets
variable {T S : Type _} [Ord T]

/-- **C91 (`Clone` of a set, `!&a`).** Every element is cloned exactly once, in order, until a clone panics. -/
theorem C91_clone_set (a : VecSet T) (t : TotalVecSet T) (cl : Closure S T T) (c : S) :
    a.cloneCl cl c = unlessPanic VecSet.mk (clonesOf cl a.asSlice c) ∧
    t.cloneCl cl c = unlessPanic (fun l => ⟨⟨l⟩, t.negated⟩) (clonesOf cl t.elements.asSlice c) ∧
    t.notCl cl c = unlessPanic (fun l => ⟨⟨l⟩, !t.negated⟩) (clonesOf cl t.elements.asSlice c) := by
  simp only [TotalVecSet.cloneCl, TotalVecSet.notCl, TotalVecSet.newCl, VecSet.cloneCl, cloneAll_eq, wrapC_unlessPanic]
  exact ⟨rfl, rfl, rfl⟩

variable [TransOrd T]

theorem unionOf_flip {a b : List T} {x : T} : UnionOf a b x ↔ (x ∈ a ∧ ¬ Has b x) ∨ (x ∈ b ∧ ¬ Has a x) ∨ (x ∈ a ∧ Has b x) := by
  unfold UnionOf
  constructor
  · rintro (h | h)
    · by_cases hb : Has b x
      · exact .inr (.inr ⟨h, hb⟩)
      · exact .inl ⟨h, hb⟩
    · exact .inr (.inl h)
  · rintro (h | h | h)
    · exact .inl h.1
    · exact .inr h
    · exact .inl h.1

theorem InOrder.of_iff {X : Type _} {key : X → T} {p q : X → Prop} {l : List X} (h : InOrder key p l) (e : ∀ x, q x ↔ p x) : InOrder key q l :=
  ⟨h.1, fun x => (h.2 x).trans (e x).symm⟩

/-- **C91 (`&a & &b`, `&a | &b`, `&a ^ &b`, `&a - &b` of total sets).** Exactly the elements are cloned that the result must list as exceptions, each once and by ascending
element; where both sets list it, the left set's element is cloned, except that `&` and `|` of two complements clone the right set's. -/
theorem C91_total_set (a b : TotalVecSet T) (ha : BuiltTotal a) (hb : BuiltTotal b) (cl : Closure S T T) (c : S) :
    (∃ args, InOrder id (TotalClones and a.negated b.negated (a.negated && b.negated) a.elements.asSlice b.elements.asSlice) args ∧
      a.bitandCl b cl c = unlessPanic (fun l => ⟨⟨l⟩, a.negated && b.negated⟩) (clonesOf cl args c)) ∧
    (∃ args, InOrder id (TotalClones or a.negated b.negated (a.negated && b.negated) a.elements.asSlice b.elements.asSlice) args ∧
      a.bitorCl b cl c = unlessPanic (fun l => ⟨⟨l⟩, a.negated || b.negated⟩) (clonesOf cl args c)) ∧
    (∃ args, InOrder id (TotalClones xor a.negated b.negated false a.elements.asSlice b.elements.asSlice) args ∧
      a.bitxorCl b cl c = unlessPanic (fun l => ⟨⟨l⟩, xor a.negated b.negated⟩) (clonesOf cl args c)) ∧
    (∃ args, InOrder id (TotalClones (fun x y => x && !y) a.negated b.negated false a.elements.asSlice b.elements.asSlice) args ∧
      a.subCl b cl c = unlessPanic (fun l => ⟨⟨l⟩, a.negated && !b.negated⟩) (clonesOf cl args c)) := by
  obtain ⟨⟨u, hu, eu⟩, ⟨i, hi, ei⟩, ⟨x, hx, ex⟩, ⟨d, hd, ed⟩⟩ := C90_new_set a.elements b.elements ha.built hb.built cl c
  obtain ⟨⟨u', hu', eu'⟩, ⟨i', hi', ei'⟩, -, ⟨d', hd', ed'⟩⟩ := C90_new_set b.elements a.elements hb.built ha.built cl c
  refine ⟨?_, ?_, ?_, ?_⟩
  · unfold TotalVecSet.bitandCl TotalVecSet.newCl
    cases a.negated <;> cases b.negated <;> dsimp only
    · exact ⟨i, hi.of_iff fun y => by simp [TotalClones, Exceptional, IntersectionOf], by rw [ei, wrapC_unlessPanic]; rfl⟩
    · exact ⟨d, hd.of_iff fun y => by simp [TotalClones, Exceptional, DifferenceOf], by rw [ed, wrapC_unlessPanic]; rfl⟩
    · exact ⟨d', hd'.of_iff fun y => by simp [TotalClones, Exceptional, DifferenceOf], by rw [ed', wrapC_unlessPanic]; rfl⟩
    · exact ⟨u', hu'.of_iff fun y => by simp only [TotalClones, Exceptional, unionOf_flip]; simp; constructor <;> rintro (h | h | h) <;> simp_all, by
        rw [eu', wrapC_unlessPanic]; rfl⟩
  · unfold TotalVecSet.bitorCl TotalVecSet.newCl
    cases a.negated <;> cases b.negated <;> dsimp only
    · exact ⟨u, hu.of_iff fun y => by simp [TotalClones, Exceptional, unionOf_flip], by rw [eu, wrapC_unlessPanic]; rfl⟩
    · exact ⟨d', hd'.of_iff fun y => by simp [TotalClones, Exceptional, DifferenceOf], by rw [ed', wrapC_unlessPanic]; rfl⟩
    · exact ⟨d, hd.of_iff fun y => by simp [TotalClones, Exceptional, DifferenceOf], by rw [ed, wrapC_unlessPanic]; rfl⟩
    · exact ⟨i', hi'.of_iff fun y => by simp [TotalClones, Exceptional, IntersectionOf], by rw [ei', wrapC_unlessPanic]; rfl⟩
  · unfold TotalVecSet.bitxorCl TotalVecSet.newCl
    refine ⟨x, hx.of_iff fun y => ?_, by rw [ex, wrapC_unlessPanic]; rfl⟩
    cases a.negated <;> cases b.negated <;> simp [TotalClones, Exceptional, SymmetricDifferenceOf]
  · unfold TotalVecSet.subCl TotalVecSet.newCl
    cases a.negated <;> cases b.negated <;> dsimp only
    · exact ⟨d, hd.of_iff fun y => by simp [TotalClones, Exceptional, DifferenceOf], by rw [ed, wrapC_unlessPanic]; rfl⟩
    · exact ⟨i, hi.of_iff fun y => by simp [TotalClones, Exceptional, IntersectionOf], by rw [ei, wrapC_unlessPanic]; rfl⟩
    · exact ⟨u, hu.of_iff fun y => by simp [TotalClones, Exceptional, unionOf_flip], by rw [eu, wrapC_unlessPanic]; rfl⟩
    · exact ⟨d', hd'.of_iff fun y => by simp [TotalClones, Exceptional, DifferenceOf], by rw [ed', wrapC_unlessPanic]; rfl⟩

end sets

section maps
variable {K V W S : Type} [Ord K]

/-- **C91 (`Clone` of a map).** Every entry is cloned exactly once, in order, the key before the value; a total map's default is cloned last. -/
theorem C91_clone_map (a : VecMap K V) (t : TotalVecMap K V) (ck : Closure S K K) (cv : Closure S V V) (c : S) :
    a.cloneCl ck cv c = unlessPanic VecMap.mk (clonesOf (thenValue ck cv) a.asSlice c) ∧
    t.cloneCl ck cv c = onReturn (unlessPanic VecMap.mk (clonesOf (thenValue ck cv) t.nonDefaultMappings.asSlice c)) fun m c =>
      onReturn (cv t.default c) fun d c => (.ret ⟨m, d⟩, c) := by
  have e : (clonePair ck cv : K × V → S → Call (K × V) × S) = thenValue ck cv := by
    funext e c
    unfold clonePair thenValue
    rcases ck e.1 c with ⟨k | _, c1⟩
    · dsimp only
      rcases cv e.2 c1 with ⟨v | _, c2⟩ <;> rfl
    · rfl
  have h : ∀ a : VecMap K V, a.cloneCl ck cv c = unlessPanic VecMap.mk (clonesOf (thenValue ck cv) a.asSlice c) := by
    intro a
    rw [VecMap.cloneCl, cloneAll_eq, wrapC_unlessPanic, e]
    rfl
  refine ⟨h a, ?_⟩
  rw [TotalVecMap.cloneCl, h]
  change _ = onReturn (unlessPanic VecMap.mk (clonesOf (thenValue ck cv) t.map.asSlice c)) _
  unfold onReturn
  rcases unlessPanic VecMap.mk (clonesOf (thenValue ck cv) t.map.asSlice c) with ⟨m | _, c1⟩
  · dsimp only
    rcases cv t.default c1 with ⟨d | _, c2⟩ <;> rfl
  · rfl

/-- **C91 (`combine_ref`).** First the closure gets the two defaults. Then, for each key at which either map stores a value, by ascending key, the closure gets the two values
there, and if the answer differs from the new default the key is cloned, the left map's if it has it. -/
theorem C91_combine_ref [TransOrd K] [BEq V] (a b : TotalVecMap K V) (ha : BuiltTotalMap a) (hb : BuiltTotalMap b) (cl : Closure S K K) (f : Closure S (V × V) V) (c : S) :
    ∃ args, InOrder OuterJoinArg.key (Offers a.nonDefaultMappings.asSlice b.nonDefaultMappings.asSlice) args ∧
      a.combineRefCl b cl f c = onReturn (f (a.default, b.default) c) fun d c =>
        unlessPanic (fun l => ⟨⟨l⟩, d⟩)
          (answersOf (thenKey (fun x => cl x.key) (differing d fun x : OuterJoinArg K V V => f (x.pair a.default b.default))) args c) := by
  refine ⟨_, inOrder_outer ha.inv.1 hb.inv.1, ?_⟩
  have key : ∀ d c, a.map.outerJoinCl b.map cl (TotalVecMap.combineArgE a.default b.default d f) c = unlessPanic VecMap.mk
      (answersOf (thenKey (fun x => cl x.key) (differing d fun x : OuterJoinArg K V V => f (x.pair a.default b.default)))
        (joinArgs a.nonDefaultMappings.asSlice b.nonDefaultMappings.asSlice) c) := by
    intro d c
    have e : (TotalVecMap.combineArgE a.default b.default d f : Closure S (OuterJoinArg K V V) (Option V)) =
        differing d fun x : OuterJoinArg K V V => f (x.pair a.default b.default) := by
      funext x c
      have h : TotalVecMap.combineArgE a.default b.default d f x c = TotalVecMap.unlessDefault d (f (x.pair a.default b.default) c) := by cases x <;> rfl
      rw [h]
      unfold differing
      dsimp only
      rcases f (x.pair a.default b.default) c with ⟨r | _, c1⟩
      · cases h : r == d <;> simp [TotalVecMap.unlessDefault, bne, h]
      · rfl
    rw [VecMap.outerJoinCl, resultC_eq, slice_merge (ka := Prod.fst) (kb := Prod.fst) (outerJoin_impl cl _) (fun _ _ => rfl) _ _ ha.inv.1 hb.inv.1, e]
    erw [mapSides_args]; rfl
  unfold TotalVecMap.combineRefCl onReturn
  rcases f (a.default, b.default) c with ⟨d | _, c1⟩
  · dsimp only
    rw [key, wrapC_unlessPanic]
    rfl
  · rfl

/-- **C91 (`supremum`, `infimum`).** First the larger (smaller) of the two defaults is cloned. Then, for each key at which either map stores a value, by ascending key, the
larger (smaller) of the two values there is cloned, and if the clone differs from the cloned default the key is cloned, the left map's if it has it. -/
theorem C91_bounds [TransOrd K] [BEq V] [Ord V] (a b : TotalVecMap K V) (ha : BuiltTotalMap a) (hb : BuiltTotalMap b) (ck : Closure S K K) (cv : Closure S V V) (c : S) :
    (∃ args, InOrder OuterJoinArg.key (Offers a.nonDefaultMappings.asSlice b.nonDefaultMappings.asSlice) args ∧
      a.supremumCl b ck cv c = onReturn (cv (larger (a.default, b.default)) c) fun d c =>
        unlessPanic (fun l => ⟨⟨l⟩, d⟩)
          (answersOf (thenKey (fun x => ck x.key) (differing d fun x : OuterJoinArg K V V => cv (larger (x.pair a.default b.default)))) args c)) ∧
    ∃ args, InOrder OuterJoinArg.key (Offers a.nonDefaultMappings.asSlice b.nonDefaultMappings.asSlice) args ∧
      a.infimumCl b ck cv c = onReturn (cv (smaller (a.default, b.default)) c) fun d c =>
        unlessPanic (fun l => ⟨⟨l⟩, d⟩)
          (answersOf (thenKey (fun x => ck x.key) (differing d fun x : OuterJoinArg K V V => cv (smaller (x.pair a.default b.default)))) args c) :=
  ⟨C91_combine_ref a b ha hb ck (fun p => cv (larger p)) c, C91_combine_ref a b ha hb ck (fun p => cv (smaller p)) c⟩

theorem mapEntriesCl_eq [BEq W] (cl : Closure S K K) (f : Closure S V W) (d : W) (l : List (K × V)) : ∀ (r : List (K × W)) (c : S),
    TotalVecMap.mapEntriesCl cl f d l r c =
      unlessPanic (r ++ ·) (answersOf (thenKey (fun e => cl e.1) (differing d fun e : K × V => f e.2)) l c) := by
  induction l with
  | nil => intro r c; simp [TotalVecMap.mapEntriesCl, answersOf, callEach, unlessPanic]
  | cons e l ih =>
    intro r c
    rw [answersOf_cons]
    unfold TotalVecMap.mapEntriesCl
    rcases hf : f e.2 c with ⟨w | _, c1⟩
    · cases hw : w == d
      · rcases hc : cl e.1 c1 with ⟨k | _, c2⟩
        · simp [thenKey, differing, hf, hw, hc, ih, unlessPanic, bne]
        · simp [thenKey, differing, hf, hw, hc, unlessPanic, bne]
      · simp [thenKey, differing, hf, hw, ih, unlessPanic, bne]
    · simp [thenKey, differing, hf, unlessPanic]

/-- **C91 (`map_values` of total maps).** First the closure gets the default, then each stored value, by ascending key; after each answer that differs from the new default its
key is cloned. -/
theorem C91_map_values [BEq W] (m : TotalVecMap K V) (cl : Closure S K K) (f : Closure S V W) (c : S) :
    m.mapValuesCl cl f c = onReturn (f m.default c) fun d c =>
      unlessPanic (fun l => ⟨⟨l⟩, d⟩) (answersOf (thenKey (fun e => cl e.1) (differing d fun e : K × V => f e.2)) m.nonDefaultMappings.asSlice c) := by
  unfold TotalVecMap.mapValuesCl onReturn
  rcases f m.default c with ⟨d | _, c1⟩
  · dsimp only
    rw [mapEntriesCl_eq, wrapC_unlessPanic]
    rfl
  · rfl

end maps

section btree
variable {K V W R S X : Type} [Ord K]
open BTreeMap

theorem insClonedLoop (cl : Closure S K K) (key : X → K) (f : Closure S X (Option R)) (xs : List X) : ∀ (m : BTreeMap K R) (s : S),
    forEachE (fun res x s => insertCloned cl res (key x) (f x s)) xs m s =
      ((answersOf (thenKey (fun x => cl (key x)) f) xs s).1.foldl (fun m e => m.insert e.1 e.2) m,
        (answersOf (thenKey (fun x => cl (key x)) f) xs s).2.2 == .panic, (answersOf (thenKey (fun x => cl (key x)) f) xs s).2.1) := by
  induction xs with
  | nil => intro m s; rfl
  | cons x xs ih =>
    intro m s
    rw [answersOf_cons]
    unfold forEachE
    rcases hf : f x s with ⟨(_ | r) | _, s1⟩
    · have h : insertCloned cl m (key x) (.ret none, s1) = (m, false, s1) := rfl
      simp only [h, ih, thenKey, hf]; simp
    · rcases hc : cl (key x) s1 with ⟨k | _, s2⟩
      · have h : insertCloned cl m (key x) (.ret (some r), s1) = (m.insert k r, false, s2) := by simp [insertCloned, hc]
        simp only [h, ih, thenKey, hf, hc]; simp
      · have h : insertCloned cl m (key x) (.ret (some r), s1) = (m, true, s2) := by simp [insertCloned, hc]
        simp [h, thenKey, hf, hc]
    · have h : insertCloned cl m (key x) (.panic, s1) = (m, true, s1) := rfl
      simp [h, thenKey, hf]

theorem forEachE_append {M : Type _} (body : M → X → S → M × Bool × S) (xs ys : List X) : ∀ (m : M) (s : S), forEachE body (xs ++ ys) m s =
    match forEachE body xs m s with
    | (m, true, s) => (m, true, s)
    | (m, false, s) => forEachE body ys m s := by
  induction xs with
  | nil => intro m s; rfl
  | cons x xs ih =>
    intro m s
    rw [List.cons_append, forEachE, forEachE]
    rcases body m x s with ⟨m1, _ | _, s1⟩
    · exact ih m1 s1
    · rfl

theorem insClonedLoop_new (cl : Closure S K K) (key : X → K) (f : Closure S X (Option R)) (xs : List X) (s : S) :
    returned (forEachE (fun res x s => insertCloned cl res (key x) (f x s)) xs new s) =
      unlessPanic insertedInTurn (answersOf (thenKey (fun x => cl (key x)) f) xs s) := by
  rw [insClonedLoop]
  obtain ⟨r, s, fl⟩ := answersOf (thenKey (fun x => cl (key x)) f) xs s
  cases fl <;> rfl

variable [TransOrd K]

/-- **C91 (joins of two `BTreeMap`s).** After every call of the closure that answers `Some`, and before the next call, the key the closure was given is cloned, once; the clone
is inserted with the answer into the new map. Keys the closure answers `None` for are not cloned. -/
theorem C91_btree_joins (a : BTreeMap K V) (b : BTreeMap K W) (ha : AscendingBy Prod.fst a.entries) (hb : AscendingBy Prod.fst b.entries) (cl : Closure S K K) (c : S) :
    (∀ f : Closure S (OuterJoinArg K V W) (Option R), ∃ as bs,
      InOrder OuterJoinArg.key (fun x => Offers a.entries b.entries x ∧ x.isRight = false) as ∧
      InOrder OuterJoinArg.key (fun x => Offers a.entries b.entries x ∧ x.isRight = true) bs ∧
      a.outerJoinCl b cl f c = unlessPanic insertedInTurn (answersOf (thenKey (fun x => cl x.key) f) (as ++ bs) c)) ∧
    (∀ f : Closure S (K × V × Option W) (Option R), ∃ args, InOrder (fun x => x.1) (LeftOffer a.entries b.entries) args ∧
      a.leftJoinCl b cl f c = unlessPanic insertedInTurn (answersOf (thenKey (fun x => cl x.1) f) args c)) ∧
    (∀ f : Closure S (K × Option V × W) (Option R), ∃ args, InOrder (fun x => x.1) (BRightOffer a.entries b.entries) args ∧
      a.rightJoinCl b cl f c = unlessPanic insertedInTurn (answersOf (thenKey (fun x => cl x.1) f) args c)) ∧
    (∀ f : Closure S (K × V × W) (Option R), ∃ args, InOrder (fun x => x.1) (BInnerOffer a.entries b.entries) args ∧
      a.innerJoinCl b cl f c = unlessPanic insertedInTurn (answersOf (thenKey (fun x => cl x.1) f) args c)) := by
  refine ⟨fun f => ⟨_, _, inOrder_outer_a ha hb, inOrder_outer_b hb, ?_⟩, fun f => ⟨_, inOrder_b_left ha hb, ?_⟩, fun f => ⟨_, inOrder_b_right ha hb, ?_⟩,
    fun f => ⟨_, inOrder_b_inner ha hb, ?_⟩⟩
  · have e1 : ∀ c, forEachE (fun (res : BTreeMap K R) (e : K × V) s => insertCloned cl res e.1 (f (outerArgA b e) s)) a.entries new c =
        forEachE (fun res x s => insertCloned cl res x.key (f x s)) (a.entries.map (outerArgA b)) new c := by
      intro c
      rw [forEachE_map]
      refine forEachE_congr _ (fun m x _ s => ?_) _ _
      rw [outerArgA_key]
    have e2 : ∀ m c, forEachE (fun (res : BTreeMap K R) (e : K × W) s =>
        if (a.get e.1).isNone then insertCloned cl res e.1 (f (.right e.1 e.2) s) else (res, false, s)) b.entries m c =
        forEachE (fun res x s => insertCloned cl res x.key (f x s)) (b.entries.filterMap (outerArgB a)) m c := by
      intro m c
      rw [forEachE_filterMap]
      refine forEachE_congr _ (fun m x _ s => ?_) _ _
      unfold outerArgB
      cases a.get x.1 <;> rfl
    rw [← insClonedLoop_new, forEachE_append, ← e1]
    unfold outerJoinCl
    rcases forEachE (fun (res : BTreeMap K R) (e : K × V) s => insertCloned cl res e.1 (f (outerArgA b e) s)) a.entries new c with ⟨m, _ | _, s⟩
    · exact congrArg returned (e2 m s)
    · rfl
  · rw [← insClonedLoop_new, forEachE_map]; rfl
  · rw [← insClonedLoop_new, forEachE_map]; rfl
  · rw [← insClonedLoop_new, forEachE_filterMap]
    unfold innerJoinCl
    rw [if_neg (by simp [sizeHint])]
    refine congrArg returned (forEachE_congr _ (fun m x _ s => ?_) _ _)
    cases a.get x.1 <;> rfl

end btree

/-! ### Examples -/

/-- the hypotheses are met, by complements too -/
example : BuiltTotal (TotalVecSet.fromVecSet (VecSet.fromIter [1, 3, 5]) : TotalVecSet Nat).not ∧ BuiltTotalMap (TotalVecMap.new (VecMap.fromIter [(1, 10), (2, 20)]) 0 : TotalVecMap Nat Nat) :=
  ⟨.not (.fromVecSet (.fromIter _)), .new (.fromIter _) 0⟩
/-- the complements of {1,3,5} and {3,4} clone 5 and the right set's 3 for `&`; the complement of {1,3,5} and {3,4} don't clone 1 -/
example : TotalClones and true true true [1, 3, 5] [3, 4] 5 ∧ TotalClones and true true true [1, 3, 5] [3, 4] 3 ∧ ¬ TotalClones and true false false [1, 3, 5] [3, 4] 1 := by
  refine ⟨.inl ⟨by simp, ?_, rfl⟩, .inr (.inr ⟨rfl, by simp, ⟨3, by simp, by decide⟩⟩), ?_⟩
  · rintro ⟨y, hy, e⟩
    simp at hy
    rcases hy with rfl | rfl <;> revert e <;> decide
  · rintro (⟨-, -, h⟩ | ⟨h, -⟩ | ⟨h, -⟩)
    · revert h; decide
    · simp at h
    · revert h; decide
/-- the third clone panics -/
example : (TotalVecSet.bitandCl ⟨⟨[1, 3, 5]⟩, true⟩ ⟨⟨[3, 4]⟩, true⟩ C90_third 0).2 = 3 := by decide +kernel
example : (match TotalVecSet.subCl ⟨⟨[1, 3, 5]⟩, true⟩ ⟨⟨[3, 4]⟩, true⟩ C90_liar 0 with
    | (.ret r, n) => some (r.elements.elems, r.negated, n)
    | (.panic, _) => none) = some ([96], false, 1) := by decide +kernel
/-- a lying clone: two entries end up under one key, the later answer wins -/
example : (BTreeMap.leftJoinCl (R := Nat) (S := Nat) ⟨[(1, 10), (2, 20)]⟩ (⟨[]⟩ : BTreeMap Nat Nat) (fun _ n => (.ret 7, n + 1)) (fun x n => (.ret (some x.2.1), n)) 0) =
    (.ret ⟨[(7, 20)]⟩, 2) := by rfl
/-- the key is cloned after the closure has answered, and not for the answer that equals the new default -/
example : ((TotalVecMap.mapValuesCl (⟨⟨[(1, 10), (2, 0), (3, 5)]⟩, 1⟩ : TotalVecMap Nat Nat) (fun k s => (.ret k, s ++ [100 + k]))
    (fun v s => (.ret (if v = 10 then 1 else v), s ++ [v])) ([] : List Nat)).2) = [1, 10, 0, 102, 5, 103] := by decide +kernel

end Verif
