import Verif.Model.VecSet
import Verif.Lemmas.MergeState
import Verif.Lemmas.Dedup
/-! What the `VecSet` operations compute. -/
namespace Verif
open Std

theorem has_iff_findBy {T : Type _} [Ord T] {l : List T} {x : T} :
    Has l x ↔ findBy (fun y => y) l x ≠ none := by
  rw [Ne, findBy_none]; simp [Has]

section ops
variable {σ T R : Type _} [Ord T] [MergeState σ T T] {m : MergeStateMut σ} {out : σ → List R}
  {inv : σ → Prop} {ta tb : T → Emit R}

theorem collect_one {A : Type _} (f : A → Emit R) (x : A) : collect f [x] = f x := by
  simp [collect]

theorem collect_nothing {A : Type _} (l : List A) :
    collect (fun _ => (([], .cont) : Emit R)) l = ([], .cont) := by
  induction l with
  | nil => rfl
  | cons x l ih => simp [collect, ih]

omit [Ord T] in
theorem collision_take (h : AdvSpec m out inv ta tb) (s : σ) (a : T) (as : List T) (b : T)
    (bs : List T) (hi : inv s) (ha : MergeState.aSlice s = a :: as)
    (hb : MergeState.bSlice s = b :: bs) :
    StepSpec out inv s (andThen (m.advanceA s 1 true) (fun s => m.advanceB s 1 false)) (ta a) as bs := by
  have h1 := h.aTake s 1 hi (by omega) (by rw [ha]; simp)
  rw [ha, hb] at h1
  simp only [List.take_succ_cons, List.take_zero, collect_one, List.drop_succ_cons,
    List.drop_zero] at h1
  have := h1.andThen (k := fun s => m.advanceB s 1 false) (e' := ([], .cont)) (a'' := as) (b'' := bs)
    (fun hc => by
      have h2 := h.bSkip _ 1 (h1.inv hc) (by omega) (by rw [h1.b hc]; simp)
      rw [h1.a hc, h1.b hc] at h2
      simpa using h2)
  simpa using this

omit [Ord T] in
theorem collision_skip (h : AdvSpec m out inv ta tb) (s : σ) (a : T) (as : List T) (b : T)
    (bs : List T) (hi : inv s) (ha : MergeState.aSlice s = a :: as)
    (hb : MergeState.bSlice s = b :: bs) :
    StepSpec out inv s (andThen (m.advanceA s 1 false) (fun s => m.advanceB s 1 false)) ([], .cont) as bs := by
  have h1 := h.aSkip s 1 hi (by omega) (by rw [ha]; simp)
  rw [ha, hb] at h1
  simp only [List.drop_succ_cons, List.drop_zero] at h1
  have := h1.andThen (k := fun s => m.advanceB s 1 false) (e' := ([], .cont)) (a'' := as) (b'' := bs)
    (fun hc => by
      have h2 := h.bSkip _ 1 (h1.inv hc) (by omega) (by rw [h1.b hc]; simp)
      rw [h1.a hc, h1.b hc] at h2
      simpa using h2)
  simpa using this

theorem setUnionOp_impl (h : AdvSpec m out inv ta tb) :
    Implements (setUnionOp m) out inv ta tb (fun a _ => ta a) where
  fromA s n hi h1 hn := h.aTake s n hi h1 hn
  fromB s n hi h1 hn := h.bTake s n hi h1 hn
  collision s a as b bs hi ha hb := collision_take h s a as b bs hi ha hb

theorem setIntersectionOp_impl (h : AdvSpec m out inv ta tb) :
    Implements (setIntersectionOp m) out inv (fun _ => ([], .cont)) (fun _ => ([], .cont))
      (fun a _ => ta a) where
  fromA s n hi h1 hn := by rw [collect_nothing]; exact h.aSkip s n hi h1 hn
  fromB s n hi h1 hn := by rw [collect_nothing]; exact h.bSkip s n hi h1 hn
  collision s a as b bs hi ha hb := collision_take h s a as b bs hi ha hb

theorem setDiffOp_impl (h : AdvSpec m out inv ta tb) :
    Implements (setDiffOp m) out inv ta (fun _ => ([], .cont)) (fun _ _ => ([], .cont)) where
  fromA s n hi h1 hn := h.aTake s n hi h1 hn
  fromB s n hi h1 hn := by rw [collect_nothing]; exact h.bSkip s n hi h1 hn
  collision s a as b bs hi ha hb := collision_skip h s a as b bs hi ha hb

theorem setXorOp_impl (h : AdvSpec m out inv ta tb) :
    Implements (setXorOp m) out inv ta tb (fun _ _ => ([], .cont)) where
  fromA s n hi h1 hn := h.aTake s n hi h1 hn
  fromB s n hi h1 hn := h.bTake s n hi h1 hn
  collision s a as b bs hi ha hb := collision_skip h s a as b bs hi ha hb

end ops

section merge
variable {A B R κ : Type _} [Ord κ] [TransOrd κ] {ka : A → κ} {kb : B → κ}

/-- result of a merge into a new vector -/
theorem SliceMS.merge_spec {op : MergeOp (SliceMS A B R) A B} {inv : SliceMS A B R → Prop}
    {fa : A → Emit R} {fb : B → Emit R} {fc : A → B → Emit R}
    (impl : Implements op (fun s => s.r) inv fa fb fc) (hinv : ∀ s, inv s)
    (hcmp : ∀ a b, op.cmp a b = compare (ka a) (kb b)) {a : List A} {b : List B}
    (ha : AscendingBy ka a) (hb : AscendingBy kb b) :
    SliceMS.merge a b op = joinRef op.cmp fa fb fc a b := by
  have := mergeAll_spec impl hcmp { a := a, b := b, r := [] } (hinv _) ha hb
  have h1 := this.out
  have h2 := this.flow
  simp only [List.nil_append] at h1
  unfold SliceMS.merge
  exact Prod.ext h1 h2

/-- result of an in-place merge -/
theorem InPlaceMS.merge_spec {op : MergeOp (InPlaceMS A B) A B} {inv : InPlaceMS A B → Prop}
    {fa : A → Emit A} {fb : B → Emit A} {fc : A → B → Emit A}
    (impl : Implements op (fun s => s.tgt) inv fa fb fc) (hinv : ∀ s, inv s)
    (hcmp : ∀ a b, op.cmp a b = compare (ka a) (kb b)) {a : List A} {b : List B}
    (ha : AscendingBy ka a) (hb : AscendingBy kb b) :
    InPlaceMS.merge a b op = joinRef op.cmp fa fb fc a b := by
  have := mergeAll_spec impl hcmp { tgt := [], src := a, b := b } (hinv _) ha hb
  have h1 := this.out
  have h2 := this.flow
  simp only [List.nil_append] at h1
  unfold InPlaceMS.merge
  exact Prod.ext h1 h2

/-- result of a boolean merge -/
theorem BoolMS.merge_spec {op : MergeOp (BoolMS A B) A B}
    {fa : A → Emit Unit} {fb : B → Emit Unit} {fc : A → B → Emit Unit}
    (impl : Implements op (fun s => if s.r then [()] else []) (fun s => s.r = false) fa fb fc)
    (hcmp : ∀ a b, op.cmp a b = compare (ka a) (kb b)) {a : List A} {b : List B}
    (ha : AscendingBy ka a) (hb : AscendingBy kb b) :
    (BoolMS.merge a b op).1 = !(joinRef op.cmp fa fb fc a b).1.isEmpty ∧
      (BoolMS.merge a b op).2 = (joinRef op.cmp fa fb fc a b).2 := by
  have := mergeAll_spec impl hcmp { a := a, b := b, r := false } rfl ha hb
  have h1 := this.out
  have h2 := this.flow
  simp only [Bool.false_eq_true, ↓reduceIte, List.nil_append, MergeState.aSlice, MergeState.bSlice] at h1 h2
  unfold BoolMS.merge
  refine ⟨?_, h2⟩
  rw [← h1]
  show (mergeAll op { a := a, b := b, r := false }).1.r = _
  cases h : (mergeAll op { a := a, b := b, r := false }).1.r <;> simp

end merge

namespace VecSet
variable {T : Type _} [Ord T] [TransOrd T]

/-- the pure element callbacks of the four set operations -/
def unionList (a b : List T) : List T := joinList compare some some (fun a _ => some a) a b
def interList (a b : List T) : List T := joinList compare (fun _ => none) (fun _ => none) (fun a _ => some a) a b
def diffList (a b : List T) : List T := joinList compare some (fun _ => none) (fun _ _ => none) a b
def xorList (a b : List T) : List T := joinList compare some some (fun _ _ => none) a b

theorem emit_ret_eq : (fun x : T => (Call.ret x).emit) = fun x => Emit.ret (some x) := rfl
theorem emit_none_eq : (fun _ : T => (([], .cont) : Emit T)) = fun _ => Emit.ret none := rfl

variable {a b : VecSet T} (ha : Ascending a.elems) (hb : Ascending b.elems)
include ha hb

theorem union_eq : a.union b = (⟨unionList a.elems b.elems⟩, .cont) := by
  unfold union
  rw [SliceMS.merge_spec (setUnionOp_impl (SliceMS.advSpec cloneConverter cloneConverter))
    (fun _ => trivial) (fun _ _ => rfl) ha hb]
  exact congrArg (fun r : Emit T => ((⟨r.1⟩ : VecSet T), r.2))
    (joinRef_ret (cmp := compare) (ga := some) (gb := some) (gc := fun a _ => some a) a.elems b.elems)

theorem intersection_eq : a.intersection b = (⟨interList a.elems b.elems⟩, .cont) := by
  unfold intersection
  rw [SliceMS.merge_spec (setIntersectionOp_impl (SliceMS.advSpec cloneConverter cloneConverter))
    (fun _ => trivial) (fun _ _ => rfl) ha hb]
  exact congrArg (fun r : Emit T => ((⟨r.1⟩ : VecSet T), r.2))
    (joinRef_ret (cmp := compare) (ga := fun _ => none) (gb := fun _ => none) (gc := fun a _ => some a) a.elems b.elems)

theorem difference_eq : a.difference b = (⟨diffList a.elems b.elems⟩, .cont) := by
  unfold difference
  rw [SliceMS.merge_spec (setDiffOp_impl (SliceMS.advSpec cloneConverter cloneConverter))
    (fun _ => trivial) (fun _ _ => rfl) ha hb]
  exact congrArg (fun r : Emit T => ((⟨r.1⟩ : VecSet T), r.2))
    (joinRef_ret (cmp := compare) (ga := some) (gb := fun _ => none) (gc := fun _ _ => none) a.elems b.elems)

theorem symmetricDifference_eq :
    a.symmetricDifference b = (⟨xorList a.elems b.elems⟩, .cont) := by
  unfold symmetricDifference
  rw [SliceMS.merge_spec (setXorOp_impl (SliceMS.advSpec cloneConverter cloneConverter))
    (fun _ => trivial) (fun _ _ => rfl) ha hb]
  exact congrArg (fun r : Emit T => ((⟨r.1⟩ : VecSet T), r.2))
    (joinRef_ret (cmp := compare) (ga := some) (gb := some) (gc := fun _ _ => none) a.elems b.elems)

theorem bitorAssign_eq : a.bitorAssign b = (⟨unionList a.elems b.elems⟩, .cont) := by
  unfold bitorAssign
  rw [InPlaceMS.merge_spec (setUnionOp_impl (InPlaceMS.advSpec idConverter))
    (fun _ => trivial) (fun _ _ => rfl) ha hb]
  exact congrArg (fun r : Emit T => ((⟨r.1⟩ : VecSet T), r.2))
    (joinRef_ret (cmp := compare) (ga := some) (gb := some) (gc := fun a _ => some a) a.elems b.elems)

theorem bitorAssignRef_eq : a.bitorAssignRef b = (⟨unionList a.elems b.elems⟩, .cont) := by
  unfold bitorAssignRef
  rw [InPlaceMS.merge_spec (setUnionOp_impl (InPlaceMS.advSpec cloneConverter))
    (fun _ => trivial) (fun _ _ => rfl) ha hb]
  exact congrArg (fun r : Emit T => ((⟨r.1⟩ : VecSet T), r.2))
    (joinRef_ret (cmp := compare) (ga := some) (gb := some) (gc := fun a _ => some a) a.elems b.elems)

theorem bitandAssign_eq : a.bitandAssign b = (⟨interList a.elems b.elems⟩, .cont) := by
  unfold bitandAssign
  rw [InPlaceMS.merge_spec (setIntersectionOp_impl (InPlaceMS.advSpec idConverter))
    (fun _ => trivial) (fun _ _ => rfl) ha hb]
  exact congrArg (fun r : Emit T => ((⟨r.1⟩ : VecSet T), r.2))
    (joinRef_ret (cmp := compare) (ga := fun _ => none) (gb := fun _ => none) (gc := fun a _ => some a) a.elems b.elems)

theorem bitandAssignRef_eq : a.bitandAssignRef b = (⟨interList a.elems b.elems⟩, .cont) := by
  unfold bitandAssignRef
  rw [InPlaceMS.merge_spec (setIntersectionOp_impl (InPlaceMS.advSpec cloneConverter))
    (fun _ => trivial) (fun _ _ => rfl) ha hb]
  exact congrArg (fun r : Emit T => ((⟨r.1⟩ : VecSet T), r.2))
    (joinRef_ret (cmp := compare) (ga := fun _ => none) (gb := fun _ => none) (gc := fun a _ => some a) a.elems b.elems)

theorem bitxorAssign_eq : a.bitxorAssign b = (⟨xorList a.elems b.elems⟩, .cont) := by
  unfold bitxorAssign
  rw [InPlaceMS.merge_spec (setXorOp_impl (InPlaceMS.advSpec idConverter))
    (fun _ => trivial) (fun _ _ => rfl) ha hb]
  exact congrArg (fun r : Emit T => ((⟨r.1⟩ : VecSet T), r.2))
    (joinRef_ret (cmp := compare) (ga := some) (gb := some) (gc := fun _ _ => none) a.elems b.elems)

theorem bitxorAssignRef_eq : a.bitxorAssignRef b = (⟨xorList a.elems b.elems⟩, .cont) := by
  unfold bitxorAssignRef
  rw [InPlaceMS.merge_spec (setXorOp_impl (InPlaceMS.advSpec cloneConverter))
    (fun _ => trivial) (fun _ _ => rfl) ha hb]
  exact congrArg (fun r : Emit T => ((⟨r.1⟩ : VecSet T), r.2))
    (joinRef_ret (cmp := compare) (ga := some) (gb := some) (gc := fun _ _ => none) a.elems b.elems)

theorem subAssign_eq : a.subAssign b = (⟨diffList a.elems b.elems⟩, .cont) := by
  unfold subAssign
  rw [InPlaceMS.merge_spec (setDiffOp_impl (InPlaceMS.advSpec idConverter))
    (fun _ => trivial) (fun _ _ => rfl) ha hb]
  exact congrArg (fun r : Emit T => ((⟨r.1⟩ : VecSet T), r.2))
    (joinRef_ret (cmp := compare) (ga := some) (gb := fun _ => none) (gc := fun _ _ => none) a.elems b.elems)

theorem subAssignRef_eq : a.subAssignRef b = (⟨diffList a.elems b.elems⟩, .cont) := by
  unfold subAssignRef
  rw [InPlaceMS.merge_spec (setDiffOp_impl (InPlaceMS.advSpec cloneConverter))
    (fun _ => trivial) (fun _ _ => rfl) ha hb]
  exact congrArg (fun r : Emit T => ((⟨r.1⟩ : VecSet T), r.2))
    (joinRef_ret (cmp := compare) (ga := some) (gb := fun _ => none) (gc := fun _ _ => none) a.elems b.elems)

theorem intersectionWith_eq : a.intersectionWith b = (⟨interList a.elems b.elems⟩, .cont) := by
  unfold intersectionWith
  rw [InPlaceMS.merge_spec (setIntersectionOp_impl (InPlaceMS.advSpec noConverter))
    (fun _ => trivial) (fun _ _ => rfl) ha hb]
  exact congrArg (fun r : Emit T => ((⟨r.1⟩ : VecSet T), r.2))
    (joinRef_ret (cmp := compare) (ga := fun _ => none) (gb := fun _ => none) (gc := fun a _ => some a) a.elems b.elems)

theorem xorWith_eq : a.xorWith b = (⟨interList a.elems b.elems⟩, .cont) := by
  unfold xorWith
  rw [InPlaceMS.merge_spec (setIntersectionOp_impl (InPlaceMS.advSpec noConverter))
    (fun _ => trivial) (fun _ _ => rfl) ha hb]
  exact congrArg (fun r : Emit T => ((⟨r.1⟩ : VecSet T), r.2))
    (joinRef_ret (cmp := compare) (ga := fun _ => none) (gb := fun _ => none) (gc := fun a _ => some a) a.elems b.elems)

theorem differenceWith_eq : a.differenceWith b = (⟨diffList a.elems b.elems⟩, .cont) := by
  unfold differenceWith
  rw [InPlaceMS.merge_spec (setDiffOp_impl (InPlaceMS.advSpec noConverter))
    (fun _ => trivial) (fun _ _ => rfl) ha hb]
  exact congrArg (fun r : Emit T => ((⟨r.1⟩ : VecSet T), r.2))
    (joinRef_ret (cmp := compare) (ga := some) (gb := fun _ => none) (gc := fun _ _ => none) a.elems b.elems)

/-- `union_with` is a merge whose "only in b" callback panics. -/
theorem unionWith_eq : a.unionWith b =
    (⟨(joinRef compare (fun x : T => Emit.ret (some x)) (fun _ => ([], .panic))
        (fun x _ => Emit.ret (some x)) a.elems b.elems).1⟩,
      (joinRef compare (fun x : T => Emit.ret (some x)) (fun _ => (([], .panic) : Emit T))
        (fun x _ => Emit.ret (some x)) a.elems b.elems).2) := by
  unfold unionWith
  rw [InPlaceMS.merge_spec (setUnionOp_impl (InPlaceMS.advSpec noConverter))
    (fun _ => trivial) (fun _ _ => rfl) ha hb]
  rfl

omit ha hb

theorem keyOk_set {ga gb : T → Option T} {gc : T → T → Option T} {as bs : List T}
    (h1 : ∀ x r, ga x = some r → r = x) (h2 : ∀ x r, gb x = some r → r = x)
    (h3 : ∀ x y r, gc x y = some r → r = x) :
    KeyOk (fun x : T => x) (fun x : T => x) (fun x : T => x) ga gb gc as bs :=
  ⟨fun a _ r h => by rw [h1 a r h]; exact cmp_self _, fun a _ r h => by rw [h2 a r h]; exact cmp_self _,
   fun a _ b _ _ r h => by rw [h3 a b r h]; exact cmp_self _⟩

theorem keyOk_union {as bs : List T} : KeyOk (fun x : T => x) (fun x : T => x) (fun x : T => x)
    some some (fun a _ => some a) as bs :=
  keyOk_set (fun _ _ h => (Option.some.inj h).symm) (fun _ _ h => (Option.some.inj h).symm)
    (fun _ _ _ h => (Option.some.inj h).symm)
theorem keyOk_inter {as bs : List T} : KeyOk (fun x : T => x) (fun x : T => x) (fun x : T => x)
    (fun _ => none) (fun _ => none) (fun a _ => some a) as bs :=
  keyOk_set (fun _ _ h => by cases h) (fun _ _ h => by cases h)
    (fun _ _ _ h => (Option.some.inj h).symm)
theorem keyOk_diff {as bs : List T} : KeyOk (fun x : T => x) (fun x : T => x) (fun x : T => x)
    some (fun _ => none) (fun _ _ => none) as bs :=
  keyOk_set (fun _ _ h => (Option.some.inj h).symm) (fun _ _ h => by cases h)
    (fun _ _ _ h => by cases h)
theorem keyOk_xor {as bs : List T} : KeyOk (fun x : T => x) (fun x : T => x) (fun x : T => x)
    some some (fun _ _ => none) as bs :=
  keyOk_set (fun _ _ h => (Option.some.inj h).symm) (fun _ _ h => (Option.some.inj h).symm)
    (fun _ _ _ h => by cases h)

section lists
variable {l m : List T} (hl : Ascending l) (hm : Ascending m)
include hl hm

theorem unionList_asc : Ascending (unionList l m) :=
  joinList_ascending (fun _ _ => rfl) l m hl hm keyOk_union
theorem interList_asc : Ascending (interList l m) :=
  joinList_ascending (fun _ _ => rfl) l m hl hm keyOk_inter
theorem diffList_asc : Ascending (diffList l m) :=
  joinList_ascending (fun _ _ => rfl) l m hl hm keyOk_diff
theorem xorList_asc : Ascending (xorList l m) :=
  joinList_ascending (fun _ _ => rfl) l m hl hm keyOk_xor

theorem unionList_find (x : T) : findBy (fun y => y) (unionList l m) x =
    (findBy (fun y => y) l x).or (findBy (fun y => y) m x) := by
  rw [unionList, findBy_joinList (fun _ _ => rfl) l m hl hm keyOk_union]
  cases findBy (fun y => y) l x <;> cases findBy (fun y => y) m x <;> rfl
theorem interList_find (x : T) : findBy (fun y => y) (interList l m) x =
    if (findBy (fun y => y) m x).isSome then findBy (fun y => y) l x else none := by
  rw [interList, findBy_joinList (fun _ _ => rfl) l m hl hm keyOk_inter]
  cases findBy (fun y => y) l x <;> cases findBy (fun y => y) m x <;> rfl
theorem diffList_find (x : T) : findBy (fun y => y) (diffList l m) x =
    if (findBy (fun y => y) m x).isSome then none else findBy (fun y => y) l x := by
  rw [diffList, findBy_joinList (fun _ _ => rfl) l m hl hm keyOk_diff]
  cases findBy (fun y => y) l x <;> cases findBy (fun y => y) m x <;> rfl
theorem xorList_find (x : T) : findBy (fun y => y) (xorList l m) x =
    match findBy (fun y => y) l x, findBy (fun y => y) m x with
    | some a, none => some a
    | none, some b => some b
    | _, _ => none := by
  rw [xorList, findBy_joinList (fun _ _ => rfl) l m hl hm keyOk_xor]
  cases findBy (fun y => y) l x <;> cases findBy (fun y => y) m x <;> rfl

theorem unionList_has (x : T) : Has (unionList l m) x ↔ Has l x ∨ Has m x := by
  rw [has_iff_findBy, has_iff_findBy, has_iff_findBy, unionList_find hl hm]
  cases findBy (fun y => y) l x <;> cases findBy (fun y => y) m x <;> simp
theorem interList_has (x : T) : Has (interList l m) x ↔ Has l x ∧ Has m x := by
  rw [has_iff_findBy, has_iff_findBy, has_iff_findBy, interList_find hl hm]
  cases findBy (fun y => y) l x <;> cases findBy (fun y => y) m x <;> simp
theorem diffList_has (x : T) : Has (diffList l m) x ↔ Has l x ∧ ¬ Has m x := by
  rw [has_iff_findBy, has_iff_findBy, has_iff_findBy, diffList_find hl hm]
  cases findBy (fun y => y) l x <;> cases findBy (fun y => y) m x <;> simp
theorem xorList_has (x : T) : Has (xorList l m) x ↔ ¬ (Has l x ↔ Has m x) := by
  rw [has_iff_findBy, has_iff_findBy, has_iff_findBy, xorList_find hl hm]
  cases findBy (fun y => y) l x <;> cases findBy (fun y => y) m x <;> simp

end lists

/-! ### Boolean operations -/

theorem filterMap_none' {A R : Type _} (l : List A) : l.filterMap (fun _ => (none : Option R)) = [] := by
  induction l <;> simp_all

theorem isDisjoint_eq (ha : Ascending a.elems) (hb : Ascending b.elems) :
    a.isDisjoint b = (interList a.elems b.elems).isEmpty := by
  unfold isDisjoint
  rw [(BoolMS.merge_spec (setIntersectionOp_impl BoolMS.advSpec) (fun _ _ => rfl) ha hb).1]
  have e : joinRef (setIntersectionOp (T := T) (BoolMS.mut (A := T) (B := T))).cmp (fun _ => ([], .cont))
      (fun _ => ([], .cont)) (fun _ _ => (([()], .stop) : Emit Unit)) a.elems b.elems
      = joinRef compare (fun _ => Emit.first none) (fun _ => Emit.first none)
        (fun _ _ => Emit.first (some ())) a.elems b.elems := rfl
  rw [e, joinRef_first, Bool.not_not]
  have hmap : ∀ l m : List T, (joinList compare (fun _ => (none : Option Unit)) (fun _ => none)
      (fun _ _ => some ()) l m) = (interList l m).map (fun _ => ()) := by
    intro l m
    unfold interList
    fun_induction joinRef compare (fun _ : T => Emit.ret (none : Option T))
        (fun _ : T => Emit.ret none) (fun (x : T) (_ : T) => Emit.ret (some x)) l m with
    | case1 bs => simp [joinList_nil_left, filterMap_none']
    | case2 x as => simp [joinList_nil_right, filterMap_none']
    | case3 x as y bs h ih => rw [joinList_cons, joinList_cons, h]; simpa using ih
    | case4 x as y bs h ih => rw [joinList_cons, joinList_cons, h]; simpa using ih
    | case5 x as y bs h ih => rw [joinList_cons, joinList_cons, h]; simpa using ih
  rw [hmap]
  cases interList a.elems b.elems <;> simp

theorem boolDiff_eq {l m : List T} (hl : Ascending l) (hm : Ascending m) :
    (BoolMS.merge l m (setDiffOp BoolMS.mut)).1 = !(diffList l m).isEmpty := by
  rw [(BoolMS.merge_spec (setDiffOp_impl BoolMS.advSpec) (fun _ _ => rfl) hl hm).1]
  have e : joinRef (setDiffOp (T := T) (BoolMS.mut (A := T) (B := T))).cmp (fun _ => (([()], .stop) : Emit Unit))
      (fun _ => ([], .cont)) (fun _ _ => ([], .cont)) l m
      = joinRef compare (fun _ => Emit.first (some ())) (fun _ => Emit.first none)
        (fun _ _ => Emit.first none) l m := rfl
  rw [e, joinRef_first]
  have hmap : ∀ l m : List T, (joinList compare (fun _ => some ()) (fun _ => none)
      (fun _ _ => none) l m) = (diffList l m).map (fun _ => ()) := by
    intro l m
    unfold diffList
    fun_induction joinRef compare (fun x : T => Emit.ret (some x))
        (fun _ : T => Emit.ret none) (fun (_ : T) (_ : T) => Emit.ret none) l m with
    | case1 bs => simp [joinList_nil_left, filterMap_none']
    | case2 x as =>
      rw [joinList_nil_right, joinList_nil_right]
      simp only [List.filterMap_some]
      induction (x :: as) with
      | nil => rfl
      | cons y l ih => simp [ih]
    | case3 x as y bs h ih => rw [joinList_cons, joinList_cons, h]; simpa using ih
    | case4 x as y bs h ih => rw [joinList_cons, joinList_cons, h]; simpa using ih
    | case5 x as y bs h ih => rw [joinList_cons, joinList_cons, h]; simpa using ih
  rw [hmap]
  cases diffList l m <;> simp

theorem isEmpty_iff_has {l : List T} : l.isEmpty = true ↔ ∀ x, ¬ Has l x := by
  cases l with
  | nil => simp [Has]
  | cons y l => simp only [List.isEmpty_cons, Bool.false_eq_true, false_iff]
                exact fun h => h y ⟨y, by simp, cmp_self y⟩

/-! ### Element operations -/

omit [TransOrd T] in
theorem insertIdx_split (lo hi : List T) (x : T) :
    (lo ++ hi).insertIdx lo.length x = lo ++ x :: hi := by
  induction lo with
  | nil => simp
  | cons y lo ih => simpa using ih

theorem insert_spec (ha : Ascending a.elems) (x : T) :
    Ascending (a.insert x).1.elems ∧
    ((a.insert x).2 = true ↔ ¬ Has a.elems x) ∧
    (∀ y, findBy (fun z => z) (a.insert x).1.elems y
      = if compare x y = .eq then some x else findBy (fun z => z) a.elems y) := by
  have spec := binarySearchBy_spec (mono_of_ascendingBy (key := fun y : T => y) ha x)
  unfold insert
  cases hr : binarySearchBy (fun e => compare e x) a.elems with
  | found i =>
    rw [hr] at spec
    obtain ⟨lo, y, hi, hbs, hlo, hy, hlt, hgt⟩ := spec
    have hy : compare y x = .eq := hy
    simp only
    have hset : a.elems.set i x = lo ++ x :: hi := by rw [hbs, ← hlo]; simp
    have ha' := ha
    rw [hbs, ascending_iff_id, ascendingBy_append, ascendingBy_cons] at ha'
    refine ⟨?_, ?_, ?_⟩
    · show Ascending (a.elems.set i x)
      rw [hset, ascending_iff_id, ascendingBy_append, ascendingBy_cons]
      refine ⟨ha'.1, ⟨fun z hz => cmp_gt_iff.1 (hgt z hz), ha'.2.1.2⟩, ?_⟩
      intro z hz w hw
      rcases List.mem_cons.1 hw with rfl | hw
      · exact hlt z hz
      · exact ha'.2.2 z hz w (by simp [hw])
    · simp only [Bool.false_eq_true, false_iff, Classical.not_not]
      exact ⟨y, by rw [hbs]; simp, hy⟩
    · intro z
      show findBy (fun z => z) (a.elems.set i x) z = _
      rw [hset, hbs, findBy_append, findBy_append, findBy_cons, findBy_cons]
      rw [cmp_congr_left hy]
      by_cases hxz : compare x z = .eq
      · simp only [hxz, ↓reduceIte]
        have : findBy (fun z => z) lo z = none := by
          rw [findBy_none]
          intro w hw e
          have : compare w x = .lt := hlt w hw
          rw [← cmp_congr_right (cmp_symm hxz), e] at this
          cases this
        simp [this]
      · simp [hxz]
  | notFound i =>
    rw [hr] at spec
    obtain ⟨lo, hi, hbs, hlo, hlt, hgt⟩ := spec
    simp only
    have hins : a.elems.insertIdx i x = lo ++ x :: hi := by
      rw [hbs, ← hlo]; exact insertIdx_split lo hi x
    have ha' := ha
    rw [hbs, ascending_iff_id, ascendingBy_append] at ha'
    have nhas : ¬ Has a.elems x := by
      rintro ⟨z, hz, e⟩
      rw [hbs] at hz
      rcases List.mem_append.1 hz with hz | hz
      · have h := hlt z hz; simp only [e] at h; cases h
      · have h := hgt z hz; simp only [e] at h; cases h
    refine ⟨?_, by simpa using nhas, ?_⟩
    · show Ascending (a.elems.insertIdx i x)
      rw [hins, ascending_iff_id, ascendingBy_append, ascendingBy_cons]
      refine ⟨ha'.1, ⟨fun z hz => cmp_gt_iff.1 (hgt z hz), ha'.2.1⟩, ?_⟩
      intro z hz w hw
      rcases List.mem_cons.1 hw with rfl | hw
      · exact hlt z hz
      · exact ha'.2.2 z hz w hw
    · intro z
      show findBy (fun z => z) (a.elems.insertIdx i x) z = _
      rw [hins, hbs, findBy_append, findBy_append, findBy_cons]
      by_cases hxz : compare x z = .eq
      · simp only [hxz, ↓reduceIte]
        have : findBy (fun z => z) lo z = none := by
          rw [findBy_none]
          intro w hw e
          have : compare w x = .lt := hlt w hw
          rw [← cmp_congr_right (cmp_symm hxz), e] at this
          cases this
        simp [this]
      · simp [hxz]

theorem remove_spec (ha : Ascending a.elems) (x : T) :
    Ascending (a.remove x).1.elems ∧
    ((a.remove x).2 = true ↔ Has a.elems x) ∧
    (∀ y, findBy (fun z => z) (a.remove x).1.elems y
      = if compare x y = .eq then none else findBy (fun z => z) a.elems y) := by
  have spec := binarySearchBy_spec (mono_of_ascendingBy (key := fun y : T => y) ha x)
  unfold remove
  cases hr : binarySearchBy (fun e => compare e x) a.elems with
  | found i =>
    rw [hr] at spec
    obtain ⟨lo, y, hi, hbs, hlo, hy, hlt, hgt⟩ := spec
    have hy : compare y x = .eq := hy
    simp only
    have hset : a.elems.eraseIdx i = lo ++ hi := by
      rw [hbs, ← hlo, List.eraseIdx_append_of_length_le (Nat.le_refl _)]; simp
    refine ⟨?_, ?_, ?_⟩
    · exact AscendingBy.sublist (key := fun z : T => z) ha (List.eraseIdx_sublist _ _)
    · simp only [true_iff]
      exact ⟨y, by rw [hbs]; simp, hy⟩
    · intro z
      show findBy (fun z => z) (a.elems.eraseIdx i) z = _
      rw [hset, hbs, findBy_append, findBy_append, findBy_cons]
      rw [cmp_congr_left hy]
      by_cases hxz : compare x z = .eq
      · simp only [hxz, ↓reduceIte]
        have h1 : findBy (fun z => z) lo z = none := by
          rw [findBy_none]
          intro w hw e
          have : compare w x = .lt := hlt w hw
          rw [← cmp_congr_right (cmp_symm hxz), e] at this
          cases this
        have h2 : findBy (fun z => z) hi z = none := by
          rw [findBy_none]
          intro w hw e
          have : compare w x = .gt := hgt w hw
          rw [← cmp_congr_right (cmp_symm hxz), e] at this
          cases this
        simp [h1, h2]
      · simp [hxz]
  | notFound i =>
    rw [hr] at spec
    obtain ⟨lo, hi, hbs, hlo, hlt, hgt⟩ := spec
    simp only
    have nhas : ¬ Has a.elems x := by
      rintro ⟨z, hz, e⟩
      rw [hbs] at hz
      rcases List.mem_append.1 hz with hz | hz
      · have h := hlt z hz; simp only [e] at h; cases h
      · have h := hgt z hz; simp only [e] at h; cases h
    refine ⟨ha, by simpa using nhas, ?_⟩
    intro z
    by_cases hxz : compare x z = .eq
    · simp only [hxz, ↓reduceIte]
      rw [findBy_none]
      intro w hw e
      exact nhas ⟨w, hw, cmp_eq_trans e (cmp_symm hxz)⟩
    · simp [hxz]

theorem contains_iff (ha : Ascending a.elems) (x : T) : a.contains x = true ↔ Has a.elems x := by
  have spec := binarySearchBy_spec (mono_of_ascendingBy (key := fun y : T => y) ha x)
  unfold contains
  cases hr : binarySearchBy (fun e => compare e x) a.elems with
  | found i =>
    rw [hr] at spec
    obtain ⟨lo, y, hi, hbs, hlo, hy, hlt, hgt⟩ := spec
    simp only [true_iff]
    exact ⟨y, by rw [hbs]; simp, hy⟩
  | notFound i =>
    rw [hr] at spec
    obtain ⟨lo, hi, hbs, hlo, hlt, hgt⟩ := spec
    simp only [Bool.false_eq_true, false_iff]
    rintro ⟨z, hz, e⟩
    rw [hbs] at hz
    rcases List.mem_append.1 hz with hz | hz
    · have h := hlt z hz; simp only [e] at h; cases h
    · have h := hgt z hz; simp only [e] at h; cases h

end VecSet
end Verif
