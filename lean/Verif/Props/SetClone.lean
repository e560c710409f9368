import Verif.Lemmas.SetCloneImpl
import Verif.Lemmas.MapOps
/-!
# C90: which elements and keys the operators on sets and the joins clone

With an untrusted `Clone`: it has a state of its own, may return anything and may panic.
-/
namespace Verif
open Std

namespace CloneMerge
section lemmas
variable {T S X Y R : Type _} [Ord T]

theorem answersOf_skipping (sel : X → Option Y) (f : Closure S Y (Option R)) (xs : List X) (s : S) :
    answersOf (skipping sel f) xs s = answersOf f (xs.filterMap sel) s := by
  have e := callEach_skipping sel f (fun _ => ()) (fun _ => ()) (fun _ _ _ => rfl) xs s
  refine Prod.ext ?_ e.2
  have := congrArg (List.map Prod.snd) e.1
  simpa [answersOf, List.map_map, Function.comp_def] using this

theorem resultC_eq {S X Y : Type _} (wrap : X → Y) (r : X × S × Flow) : resultC wrap r = unlessPanic wrap r := by
  obtain ⟨x, s, fl⟩ := r
  cases fl <;> rfl

theorem maps_pairs (l : List T) (x : T) (u : Unit) : Maps (pairs l) x u ↔ Has l x := by
  constructor
  · rintro ⟨k, hk, e⟩
    obtain ⟨y, hy, e'⟩ := List.mem_map.1 hk
    obtain ⟨rfl, -⟩ := Prod.mk.inj e'
    exact ⟨y, hy, e⟩
  · rintro ⟨y, hy, e⟩
    exact ⟨y, List.mem_map.2 ⟨y, hy, rfl⟩, e⟩

theorem hasKey_pairs (l : List T) (x : T) : HasKey (pairs l) x ↔ Has l x :=
  ⟨fun ⟨u, h⟩ => (maps_pairs l x u).1 h, fun h => ⟨(), (maps_pairs l x ()).2 h⟩⟩

theorem mem_pairs (l : List T) (x : T) (u : Unit) : (x, u) ∈ pairs l ↔ x ∈ l := by
  constructor
  · intro h
    obtain ⟨y, hy, e'⟩ := List.mem_map.1 h
    obtain ⟨rfl, -⟩ := Prod.mk.inj e'
    exact hy
  · intro h
    exact List.mem_map.2 ⟨x, h, rfl⟩

theorem pairs_asc {l : List T} (h : Ascending l) : AscendingBy Prod.fst (pairs l) := by
  unfold AscendingBy
  rw [List.pairwise_map]
  exact h

/-- selecting from the arguments of a join -/
theorem inOrder_sel [TransOrd T] {a b : List T} (ha : Ascending a) (hb : Ascending b) {sel : OuterJoinArg T Unit Unit → Option Y} {key : Y → T}
    (hk : ∀ x y, sel x = some y → key y = x.key) {offer : Y → Prop}
    (ho : ∀ y, offer y ↔ ∃ x, Offers (pairs a) (pairs b) x ∧ sel x = some y) :
    InOrder key offer ((joinArgs (pairs a) (pairs b)).filterMap sel) := by
  obtain ⟨h1, h2⟩ := inOrder_outer (pairs_asc ha) (pairs_asc hb)
  refine ⟨ascendingBy_sel hk h1, fun y => ?_⟩
  rw [List.mem_filterMap, ho]
  constructor
  · rintro ⟨x, hx, e⟩; exact ⟨x, (h2 x).1 hx, e⟩
  · rintro ⟨x, hx, e⟩; exact ⟨x, (h2 x).2 hx, e⟩

/-- what the operators take from the arguments of a join -/
def unionSel : OuterJoinArg T Unit Unit → Option T := fun x => some x.key
def interSel : OuterJoinArg T Unit Unit → Option T
  | .both x _ _ => some x
  | _ => none
def xorSel : OuterJoinArg T Unit Unit → Option T
  | .left x _ => some x
  | .right x _ => some x
  | .both _ _ _ => none
def diffSel : OuterJoinArg T Unit Unit → Option T
  | .left x _ => some x
  | _ => none
def orSel : OuterJoinArg T Unit Unit → Option (Taken T)
  | .left x _ => some (.own x)
  | .right x _ => some (.cloned x)
  | .both x _ _ => some (.own x)
def xorASel : OuterJoinArg T Unit Unit → Option (Taken T)
  | .left x _ => some (.own x)
  | .right x _ => some (.cloned x)
  | .both _ _ _ => none

theorem offers_left (a b : List T) (x : T) (u : Unit) : Offers (pairs a) (pairs b) (.left x u) ↔ x ∈ a ∧ ¬ Has b x := by
  simp only [Offers, mem_pairs, hasKey_pairs]
theorem offers_right (a b : List T) (x : T) (u : Unit) : Offers (pairs a) (pairs b) (.right x u) ↔ x ∈ b ∧ ¬ Has a x := by
  simp only [Offers, mem_pairs, hasKey_pairs]
theorem offers_both (a b : List T) (x : T) (u v : Unit) : Offers (pairs a) (pairs b) (.both x u v) ↔ x ∈ a ∧ Has b x := by
  simp only [Offers, mem_pairs, maps_pairs]

variable [TransOrd T] {a b : List T}

theorem union_order (ha : Ascending a) (hb : Ascending b) : InOrder id (UnionOf a b) ((joinArgs (pairs a) (pairs b)).filterMap unionSel) := by
  refine inOrder_sel ha hb (fun x y h => by injection h with h; exact h.symm) fun y => ?_
  constructor
  · rintro (h | h)
    · by_cases hy : Has b y
      · exact ⟨.both y () (), (offers_both a b y _ _).2 ⟨h, hy⟩, rfl⟩
      · exact ⟨.left y (), (offers_left a b y _).2 ⟨h, hy⟩, rfl⟩
    · exact ⟨.right y (), (offers_right a b y _).2 h, rfl⟩
  · rintro ⟨x, hx, e⟩
    injection e with e
    subst e
    cases x with
    | left x u => exact .inl ((offers_left a b x _).1 hx).1
    | right x u => exact .inr ((offers_right a b x _).1 hx)
    | both x u v => exact .inl ((offers_both a b x _ _).1 hx).1

theorem inter_order (ha : Ascending a) (hb : Ascending b) : InOrder id (IntersectionOf a b) ((joinArgs (pairs a) (pairs b)).filterMap interSel) := by
  refine inOrder_sel ha hb (fun x y h => by cases x <;> simp [interSel] at h <;> exact h.symm) fun y => ?_
  constructor
  · intro h
    exact ⟨.both y () (), (offers_both a b y _ _).2 h, rfl⟩
  · rintro ⟨x, hx, e⟩
    cases x with
    | left x u => simp [interSel] at e
    | right x u => simp [interSel] at e
    | both x u v => simp only [interSel, Option.some.injEq] at e; subst e; exact (offers_both a b x _ _).1 hx

theorem xor_order (ha : Ascending a) (hb : Ascending b) : InOrder id (SymmetricDifferenceOf a b) ((joinArgs (pairs a) (pairs b)).filterMap xorSel) := by
  refine inOrder_sel ha hb (fun x y h => by cases x <;> simp [xorSel] at h <;> exact h.symm) fun y => ?_
  constructor
  · rintro (h | h)
    · exact ⟨.left y (), (offers_left a b y _).2 h, rfl⟩
    · exact ⟨.right y (), (offers_right a b y _).2 h, rfl⟩
  · rintro ⟨x, hx, e⟩
    cases x with
    | left x u => simp only [xorSel, Option.some.injEq] at e; subst e; exact .inl ((offers_left a b x _).1 hx)
    | right x u => simp only [xorSel, Option.some.injEq] at e; subst e; exact .inr ((offers_right a b x _).1 hx)
    | both x u v => simp [xorSel] at e

theorem diff_order (ha : Ascending a) (hb : Ascending b) : InOrder id (DifferenceOf a b) ((joinArgs (pairs a) (pairs b)).filterMap diffSel) := by
  refine inOrder_sel ha hb (fun x y h => by cases x <;> simp [diffSel] at h <;> exact h.symm) fun y => ?_
  constructor
  · intro h
    exact ⟨.left y (), (offers_left a b y _).2 h, rfl⟩
  · rintro ⟨x, hx, e⟩
    cases x with
    | left x u => simp only [diffSel, Option.some.injEq] at e; subst e; exact (offers_left a b x _).1 hx
    | right x u => simp [diffSel] at e
    | both x u v => simp [diffSel] at e

theorem or_order (ha : Ascending a) (hb : Ascending b) : InOrder Taken.elem (OrTakes a b) ((joinArgs (pairs a) (pairs b)).filterMap orSel) := by
  refine inOrder_sel ha hb (fun x y h => by cases x <;> simp [orSel] at h <;> subst h <;> rfl) fun y => ?_
  constructor
  · cases y with
    | own y =>
      intro h
      by_cases hy : Has b y
      · exact ⟨.both y () (), (offers_both a b y _ _).2 ⟨h, hy⟩, rfl⟩
      · exact ⟨.left y (), (offers_left a b y _).2 ⟨h, hy⟩, rfl⟩
    | cloned y => intro h; exact ⟨.right y (), (offers_right a b y _).2 h, rfl⟩
  · rintro ⟨x, hx, e⟩
    cases x with
    | left x u => simp only [orSel, Option.some.injEq] at e; subst e; exact ((offers_left a b x _).1 hx).1
    | right x u => simp only [orSel, Option.some.injEq] at e; subst e; exact (offers_right a b x _).1 hx
    | both x u v => simp only [orSel, Option.some.injEq] at e; subst e; exact ((offers_both a b x _ _).1 hx).1

theorem xorA_order (ha : Ascending a) (hb : Ascending b) : InOrder Taken.elem (XorTakes a b) ((joinArgs (pairs a) (pairs b)).filterMap xorASel) := by
  refine inOrder_sel ha hb (fun x y h => by cases x <;> simp [xorASel] at h <;> subst h <;> rfl) fun y => ?_
  constructor
  · cases y with
    | own y => intro h; exact ⟨.left y (), (offers_left a b y _).2 h, rfl⟩
    | cloned y => intro h; exact ⟨.right y (), (offers_right a b y _).2 h, rfl⟩
  · rintro ⟨x, hx, e⟩
    cases x with
    | left x u => simp only [xorASel, Option.some.injEq] at e; subst e; exact (offers_left a b x _).1 hx
    | right x u => simp only [xorASel, Option.some.injEq] at e; subst e; exact (offers_right a b x _).1 hx
    | both x u v => simp [xorASel] at e

omit [TransOrd T] [Ord T] in
theorem fns (cl : Closure S T T) : unionFn cl = skipping unionSel (answering cl) ∧ interFn cl = skipping interSel (answering cl) ∧
    xorFn cl = skipping xorSel (answering cl) ∧ diffFn cl = skipping diffSel (answering cl) ∧
    orAssignFn cl = skipping orSel (answering (takeOver cl)) ∧ xorAssignFn cl = skipping xorASel (answering (takeOver cl)) ∧
    (andAssignFn : Closure S _ _) = skipping interSel (answering fun (x : T) s => (.ret x, s)) ∧
    (subAssignFn : Closure S _ _) = skipping diffSel (answering fun (x : T) s => (.ret x, s)) := by
  refine ⟨?_, ?_, ?_, ?_, ?_, ?_, ?_, ?_⟩ <;> funext x s <;> cases x <;> rfl

/-- elements taken over as they are -/
theorem clones_id {S T : Type _} (l : List T) (s : S) : clonesOf (fun x s => (.ret x, s)) l s = (l, s, .cont) := by
  induction l with
  | nil => rfl
  | cons x l ih =>
    unfold clonesOf at ih ⊢
    rw [answersOf_cons]
    simp [answering, ih]

end lemmas
end CloneMerge
open CloneMerge

section sets
variable {T S : Type _} [Ord T] [TransOrd T]

/-- **C90 (`&a | &b`, `&a & &b`, `&a ^ &b`, `&a - &b`).** The operators on references clone exactly the elements of the result, each once, by ascending element,
until a clone panics; where both sets have an element it is the left set's that is cloned. Result, state and panic are those of this sequence of clones; the
operands are not changed. -/
theorem C90_new_set (a b : VecSet T) (ha : Built a) (hb : Built b) (cl : Closure S T T) (c : S) :
    (∃ args, InOrder id (UnionOf a.asSlice b.asSlice) args ∧ a.unionCl b cl c = unlessPanic VecSet.mk (clonesOf cl args c)) ∧
    (∃ args, InOrder id (IntersectionOf a.asSlice b.asSlice) args ∧ a.intersectionCl b cl c = unlessPanic VecSet.mk (clonesOf cl args c)) ∧
    (∃ args, InOrder id (SymmetricDifferenceOf a.asSlice b.asSlice) args ∧ a.symmetricDifferenceCl b cl c = unlessPanic VecSet.mk (clonesOf cl args c)) ∧
    (∃ args, InOrder id (DifferenceOf a.asSlice b.asSlice) args ∧ a.differenceCl b cl c = unlessPanic VecSet.mk (clonesOf cl args c)) := by
  have sa := ha.ascending
  have sb := hb.ascending
  have e := fns cl
  refine ⟨⟨_, union_order sa sb, ?_⟩, ⟨_, inter_order sa sb, ?_⟩, ⟨_, xor_order sa sb, ?_⟩, ⟨_, diff_order sa sb, ?_⟩⟩
  · rw [VecSet.unionCl, resultC_eq, slice_merge (ka := id) (kb := id) (union_impl cl) (fun _ _ => rfl) _ _ sa sb, e.1, answersOf_skipping]
    erw [setSides_args]; rfl
  · rw [VecSet.intersectionCl, resultC_eq, slice_merge (ka := id) (kb := id) (inter_impl cl) (fun _ _ => rfl) _ _ sa sb, e.2.1, answersOf_skipping]
    erw [setSides_args]; rfl
  · rw [VecSet.symmetricDifferenceCl, resultC_eq, slice_merge (ka := id) (kb := id) (xor_impl cl) (fun _ _ => rfl) _ _ sa sb, e.2.2.1, answersOf_skipping]
    erw [setSides_args]; rfl
  · rw [VecSet.differenceCl, resultC_eq, slice_merge (ka := id) (kb := id) (diff_impl cl) (fun _ _ => rfl) _ _ sa sb, e.2.2.2.1, answersOf_skipping]
    erw [setSides_args]; rfl

/-- **C90 (`a |= &b`, `a ^= &b`).** The elements that `a` keeps are not cloned; of `b` exactly the elements that `a` has no equal of are, by ascending element. What is
left in `a`, also after a panic, are the elements taken over so far: a clone that panics loses every element of `a` above the one being cloned. -/
theorem C90_assign (a b : VecSet T) (ha : Built a) (hb : Built b) (cl : Closure S T T) (c : S) :
    (∃ args, InOrder Taken.elem (OrTakes a.asSlice b.asSlice) args ∧
      a.bitorAssignRefCl b cl c = (⟨(clonesOf (takeOver cl) args c).1⟩, (clonesOf (takeOver cl) args c).2)) ∧
    (∃ args, InOrder Taken.elem (XorTakes a.asSlice b.asSlice) args ∧
      a.bitxorAssignRefCl b cl c = (⟨(clonesOf (takeOver cl) args c).1⟩, (clonesOf (takeOver cl) args c).2)) := by
  have sa := ha.ascending
  have sb := hb.ascending
  have e := fns cl
  refine ⟨⟨_, or_order sa sb, ?_⟩, ⟨_, xorA_order sa sb, ?_⟩⟩
  · rw [VecSet.bitorAssignRefCl, place_merge (ka := id) (kb := id) (orAssign_impl cl) (fun _ _ => rfl) _ _ sa sb, e.2.2.2.2.1, answersOf_skipping]
    erw [setSides_args]; rfl
  · rw [VecSet.bitxorAssignRefCl, place_merge (ka := id) (kb := id) (xorAssign_impl cl) (fun _ _ => rfl) _ _ sa sb, e.2.2.2.2.2.1, answersOf_skipping]
    erw [setSides_args]; rfl

/-- **C90 (`a &= &b`, `a -= &b`).** These clone nothing: whatever `clone` would do, they return, its state is what it was, and the elements are the ones kept. -/
theorem C90_assign_no_clone (a b : VecSet T) (ha : Built a) (hb : Built b) (cl : Closure S T T) (c : S) :
    (∃ l, InOrder id (IntersectionOf a.asSlice b.asSlice) l ∧ a.bitandAssignRefCl b cl c = (⟨l⟩, c, .cont)) ∧
    (∃ l, InOrder id (DifferenceOf a.asSlice b.asSlice) l ∧ a.subAssignRefCl b cl c = (⟨l⟩, c, .cont)) := by
  have sa := ha.ascending
  have sb := hb.ascending
  have e := fns cl
  refine ⟨⟨_, inter_order sa sb, ?_⟩, ⟨_, diff_order sa sb, ?_⟩⟩
  · rw [VecSet.bitandAssignRefCl, place_merge (ka := id) (kb := id) (andAssign_impl cl) (fun _ _ => rfl) _ _ sa sb, e.2.2.2.2.2.2.1, answersOf_skipping]
    erw [setSides_args]
    exact congrArg VecSet.leaves (clones_id _ c)
  · rw [VecSet.subAssignRefCl, place_merge (ka := id) (kb := id) (subAssign_impl cl) (fun _ _ => rfl) _ _ sa sb, e.2.2.2.2.2.2.2, answersOf_skipping]
    erw [setSides_args]
    exact congrArg VecSet.leaves (clones_id _ c)

end sets

section maps
variable {K V W R S : Type} [Ord K] [TransOrd K]

/-- **C90 (joins into a new map).** After every call of the closure that answers `Some`, and before the next call, the key is cloned, once; it is the left map's key if that map
has it. Keys the closure answers `None` for are not cloned. -/
theorem C90_new_map (a : VecMap K V) (b : VecMap K W) (ha : BuiltMap a) (hb : BuiltMap b) (cl : Closure S K K) (c : S) :
    (∀ f : Closure S (OuterJoinArg K V W) (Option R), ∃ args, InOrder OuterJoinArg.key (Offers a.asSlice b.asSlice) args ∧
      a.outerJoinCl b cl f c = unlessPanic VecMap.mk (answersOf (thenKey (fun x => cl x.key) f) args c)) ∧
    (∀ f : Closure S (K × V × Option W) (Option R), ∃ args, InOrder (fun x => x.1) (LeftOffer a.asSlice b.asSlice) args ∧
      a.leftJoinCl b cl f c = unlessPanic VecMap.mk (answersOf (thenKey (fun x => cl x.1) f) args c)) ∧
    (∀ f : Closure S (K × Option V × W) (Option R), ∃ args, InOrder (fun x => x.1) (RightOffer a.asSlice b.asSlice) args ∧
      a.rightJoinCl b cl f c = unlessPanic VecMap.mk (answersOf (thenKey (fun x => cl x.1) f) args c)) ∧
    (∀ f : Closure S (K × V × W) (Option R), ∃ args, InOrder (fun x => x.1) (InnerOffer a.asSlice b.asSlice) args ∧
      a.innerJoinCl b cl f c = unlessPanic VecMap.mk (answersOf (thenKey (fun x => cl x.1) f) args c)) := by
  have sa := ha.ascending
  have sb := hb.ascending
  refine ⟨fun f => ⟨_, inOrder_outer sa sb, ?_⟩, fun f => ⟨_, inOrder_left sa sb, ?_⟩, fun f => ⟨_, inOrder_right sa sb, ?_⟩, fun f => ⟨_, inOrder_inner sa sb, ?_⟩⟩
  · rw [VecMap.outerJoinCl, resultC_eq, slice_merge (ka := Prod.fst) (kb := Prod.fst) (outerJoin_impl cl f) (fun _ _ => rfl) _ _ sa sb]
    erw [mapSides_args]; rfl
  · rw [VecMap.leftJoinCl, resultC_eq, slice_merge (ka := Prod.fst) (kb := Prod.fst) (leftJoin_impl cl f) (fun _ _ => rfl) _ _ sa sb, answersOf_skipping]
    erw [mapSides_args]; rfl
  · rw [VecMap.rightJoinCl, resultC_eq, slice_merge (ka := Prod.fst) (kb := Prod.fst) (rightJoin_impl cl f) (fun _ _ => rfl) _ _ sa sb, answersOf_skipping]
    erw [mapSides_args]; rfl
  · rw [VecMap.innerJoinCl, resultC_eq, slice_merge (ka := Prod.fst) (kb := Prod.fst) (innerJoin_impl cl f) (fun _ _ => rfl) _ _ sa sb, answersOf_skipping]
    erw [mapSides_args]; rfl

/-- **C90 (joins in place).** Only the keys that come from the right map alone are cloned. What is left in `a`, also after a panic of the closure or of a clone, are the
entries made so far. -/
theorem C90_map_in_place (a : VecMap K V) (b : VecMap K W) (ha : BuiltMap a) (hb : BuiltMap b) (cl : Closure S K K) (c : S) :
    (∀ f : Closure S (OuterJoinArg K V W) (Option V), ∃ args, InOrder OuterJoinArg.key (Offers a.asSlice b.asSlice) args ∧
      a.outerJoinWithCl b cl f c = (⟨(answersOf (thenKey (outerKey cl) f) args c).1⟩, (answersOf (thenKey (outerKey cl) f) args c).2)) ∧
    (∀ f : Closure S (K × Option V × W) (Option V), ∃ args, InOrder (fun x => x.1) (RightOffer a.asSlice b.asSlice) args ∧
      a.rightJoinWithCl b cl f c = (⟨(answersOf (thenKey (rightKey cl) f) args c).1⟩, (answersOf (thenKey (rightKey cl) f) args c).2)) := by
  have sa := ha.ascending
  have sb := hb.ascending
  refine ⟨fun f => ⟨_, inOrder_outer sa sb, ?_⟩, fun f => ⟨_, inOrder_right sa sb, ?_⟩⟩
  · rw [VecMap.outerJoinWithCl, place_merge (ka := Prod.fst) (kb := Prod.fst) (outerJoinWith_impl cl f) (fun _ _ => rfl) _ _ sa sb]
    erw [mapSides_args]; rfl
  · rw [VecMap.rightJoinWithCl, place_merge (ka := Prod.fst) (kb := Prod.fst) (rightJoinWith_impl cl f) (fun _ _ => rfl) _ _ sa sb, answersOf_skipping]
    erw [mapSides_args]; rfl

end maps

section faithful
variable {T S : Type _}

/-- **C90 (clones that are equal to the original).** If a clone, unless it panics, is the original, then the clones are the first of the elements, and without a panic all of
them. So a set with a panicking clone is left strictly ascending. -/
theorem C90_faithful (cl : Closure S T T) (h : FaithfulClone cl) (c : S) :
    (∀ args : List T, (clonesOf cl args c).1 <+: args ∧ ((clonesOf cl args c).2.2 ≠ .panic → (clonesOf cl args c).1 = args)) ∧
    (∀ args : List (Taken T), (clonesOf (takeOver cl) args c).1 <+: args.map Taken.elem ∧
      ((clonesOf (takeOver cl) args c).2.2 ≠ .panic → (clonesOf (takeOver cl) args c).1 = args.map Taken.elem)) := by
  have one : ∀ {X : Type _} (g : Closure S X T) (e : X → T), (∀ x s, (g x s).1 = .ret (e x) ∨ (g x s).1 = .panic) → ∀ (args : List X) (c : S),
      (clonesOf g args c).1 <+: args.map e ∧ ((clonesOf g args c).2.2 ≠ .panic → (clonesOf g args c).1 = args.map e) := by
    intro X g e hg args
    induction args with
    | nil => intro c; exact ⟨List.prefix_refl _, fun _ => rfl⟩
    | cons x args ih =>
      intro c
      unfold clonesOf at ih ⊢
      rw [answersOf_cons]
      rcases hx : g x c with ⟨y | _, c'⟩
      · have hy := hg x c
        rw [hx] at hy
        simp only [Call.ret.injEq, reduceCtorEq, or_false] at hy
        subst hy
        obtain ⟨h1, h2⟩ := ih c'
        simp only [answering, hx, Option.toList_some, List.singleton_append, List.map_cons]
        exact ⟨(List.prefix_cons_inj _).2 h1, fun hp => congrArg _ (h2 hp)⟩
      · simp [answering, hx]
  refine ⟨fun args => ?_, fun args => ?_⟩
  · simpa using one cl id h args c
  · refine one (takeOver cl) Taken.elem ?_ args c
    intro x s
    cases x with
    | own x => exact .inl rfl
    | cloned x => exact h x s

/-- **C90 (sets stay sets).** With such a clone, `a |= &b` and `a ^= &b` leave a strictly ascending set also when they panic. -/
theorem C90_faithful_assign [Ord T] [TransOrd T] (a b : VecSet T) (ha : Built a) (hb : Built b) (cl : Closure S T T) (h : FaithfulClone cl) (c : S) :
    Ascending (a.bitorAssignRefCl b cl c).1.asSlice ∧ Ascending (a.bitxorAssignRefCl b cl c).1.asSlice := by
  have asc : ∀ args : List (Taken T), AscendingBy Taken.elem args → Ascending (clonesOf (takeOver cl) args c).1 := by
    intro args hargs
    have hp := ((C90_faithful cl h c).2 args).1
    have : Ascending (args.map Taken.elem) := by
      unfold Ascending
      rw [List.pairwise_map]
      exact hargs
    exact this.sublist hp.sublist
  obtain ⟨⟨l1, h1, e1⟩, l2, h2, e2⟩ := C90_assign a b ha hb cl c
  rw [e1, e2]
  exact ⟨asc l1 h1.1, asc l2 h2.1⟩

end faithful

/-! ### Examples -/

/-- counts its calls, and panics at the third -/
def C90_third : Closure Nat Nat Nat := fun x n => if n = 2 then (.panic, 3) else (.ret x, n + 1)
/-- returns something else -/
def C90_liar : Closure Nat Nat Nat := fun x n => (.ret (100 - x), n + 1)

/-- the hypotheses are met -/
example : Built (VecSet.fromIter [1, 3, 5, 7] : VecSet Nat) ∧ Built (VecSet.fromIter [2, 3, 4, 6] : VecSet Nat) ∧ FaithfulClone C90_third :=
  ⟨.fromIter _, .fromIter _, fun x s => by unfold C90_third; by_cases h : s = 2 <;> simp [h]⟩

/-- `a |= &b` on {1,3,5,7} and {2,3,4,6}: the third clone is that of 6; its panic loses the 7, which `a` had before. -/
example : (⟨[1, 3, 5, 7]⟩ : VecSet Nat).bitorAssignRefCl ⟨[2, 3, 4, 6]⟩ C90_third 0 = (⟨[1, 2, 3, 4, 5]⟩, 3, .panic) :=
  Prod.ext (congrArg VecSet.mk (by decide +kernel)) (by decide +kernel)
/-- the operator on references clones six elements, in order, unless there is a panic; the third is 3 -/
example : ((⟨[1, 3, 5, 7]⟩ : VecSet Nat).unionCl ⟨[2, 3, 4, 6]⟩ C90_third 0).2 = 3 := by decide +kernel
/-- a clone that is not equal to the original breaks the order of the set -/
example : (⟨[1, 3, 5, 7]⟩ : VecSet Nat).bitorAssignRefCl ⟨[2, 3, 4, 6]⟩ C90_liar 0 = (⟨[1, 98, 3, 96, 5, 94, 7]⟩, 3, .cont) :=
  Prod.ext (congrArg VecSet.mk (by decide +kernel)) (by decide +kernel)
example : (⟨[(1, 10), (3, 30)]⟩ : VecMap Nat Nat).outerJoinWithCl (⟨[(2, 5), (3, 6)]⟩ : VecMap Nat Nat) C90_liar
    (fun x n => (.ret (some x.key), n + 10)) 0 = (⟨[(1, 1), (98, 2), (3, 3)]⟩, 31, .cont) :=
  Prod.ext (congrArg VecMap.mk (by decide +kernel)) (by decide +kernel)

end Verif
