import Verif.Lemmas.RadixRef
import Verif.Lemmas.MergeState
/-! The tree combinations of the model compute the reference combination (and hence never panic on valid trees). -/
namespace Verif
namespace Tree
open Std

section merge
variable {K V W : Type _} [Ord K]

/-- what a recursive call emits into the list of children -/
def recEmit (r : Tree K V × Flow) : Emit (Tree K V) :=
  match r.2 with
  | .cont => Emit.ret (nonEmpty r.1)
  | fl => ([], fl)

/-- same for calls returning a new tree -/
def callEmit (r : Call (Tree K V)) : Emit (Tree K V) :=
  match r with
  | .ret t => Emit.ret (nonEmpty t)
  | .panic => ([], .panic)

theorem inPlaceOp_implements (takeA takeB : Bool) (conv : Tree K W → Call (Tree K V)) (rec : Tree K V → Tree K W → Tree K V × Flow) :
    Implements (inPlaceOp takeA takeB conv rec) (fun s => s.tgt) (fun _ => True)
      (fun x => Emit.ret (if takeA then some x else none)) (fun y => if takeB then (conv y).emit else ([], .cont))
      (fun x y => recEmit (rec x y)) where
  fromA s n _ h1 hn := by
    cases takeA with
    | true => exact (InPlaceMS.advSpec conv).aTake s n trivial h1 hn
    | false =>
      have := (InPlaceMS.advSpec conv).aSkip s n trivial h1 hn
      have e : ∀ l : List (Tree K V), collect (fun _ => (Emit.ret none : Emit (Tree K V))) l = ([], .cont) := by
        intro l
        induction l with
        | nil => rfl
        | cons x l ih => rw [collect, ih]; rfl
      simp only [Bool.false_eq_true, ↓reduceIte, e]
      exact this
  fromB s n _ h1 hn := by
    cases takeB with
    | true => exact (InPlaceMS.advSpec conv).bTake s n trivial h1 hn
    | false =>
      have := (InPlaceMS.advSpec conv).bSkip s n trivial h1 hn
      have e : ∀ l : List (Tree K W), collect (fun _ => (([], .cont) : Emit (Tree K V))) l = ([], .cont) := by
        intro l
        induction l with
        | nil => rfl
        | cons x l ih => rw [collect, ih]; rfl
      simp only [Bool.false_eq_true, ↓reduceIte, e]
      exact this
  collision s x as y bs _ ha hb := by
    obtain ⟨tgt, src, b⟩ := s
    simp only [MergeState.aSlice, MergeState.bSlice] at ha hb
    subst ha hb
    rcases h : rec x y with ⟨r, fl⟩
    simp only [inPlaceOp, h, recEmit]
    cases fl with
    | stop => exact ⟨rfl, by simp [andThen], by simp [andThen], by simp [andThen], fun _ => trivial⟩
    | panic => exact ⟨rfl, by simp [andThen], by simp [andThen], by simp [andThen], fun _ => trivial⟩
    | cont =>
      cases he : r.isEmpty with
      | true =>
        refine ⟨rfl, ?_, ?_, ?_, fun _ => trivial⟩ <;>
          simp [andThen, InPlaceMS.mut, InPlaceMS.consume, InPlaceMS.skipB, Emit.ret, nonEmpty, he, MergeState.aSlice, MergeState.bSlice]
      | false =>
        refine ⟨rfl, ?_, ?_, ?_, fun _ => trivial⟩ <;>
          simp [andThen, InPlaceMS.mut, InPlaceMS.consume, InPlaceMS.skipB, Emit.ret, nonEmpty, he, MergeState.aSlice, MergeState.bSlice]

theorem pureOp_implements (takeA takeB : Bool) (convA : Tree K V → Call (Tree K V)) (convB : Tree K W → Call (Tree K V))
    (rec : Tree K V → Tree K W → Call (Tree K V)) :
    Implements (pureOp takeA takeB convA convB rec) (fun s => s.r) (fun _ => True)
      (fun x => if takeA then (convA x).emit else ([], .cont)) (fun y => if takeB then (convB y).emit else ([], .cont))
      (fun x y => callEmit (rec x y)) where
  fromA s n _ h1 hn := by
    cases takeA with
    | true => exact (SliceMS.advSpec convA convB).aTake s n trivial h1 hn
    | false =>
      have := (SliceMS.advSpec convA convB).aSkip s n trivial h1 hn
      have e : ∀ l : List (Tree K V), collect (fun _ => (([], .cont) : Emit (Tree K V))) l = ([], .cont) := by
        intro l
        induction l with
        | nil => rfl
        | cons x l ih => rw [collect, ih]; rfl
      simp only [Bool.false_eq_true, ↓reduceIte, e]
      exact this
  fromB s n _ h1 hn := by
    cases takeB with
    | true => exact (SliceMS.advSpec convA convB).bTake s n trivial h1 hn
    | false =>
      have := (SliceMS.advSpec convA convB).bSkip s n trivial h1 hn
      have e : ∀ l : List (Tree K W), collect (fun _ => (([], .cont) : Emit (Tree K V))) l = ([], .cont) := by
        intro l
        induction l with
        | nil => rfl
        | cons x l ih => rw [collect, ih]; rfl
      simp only [Bool.false_eq_true, ↓reduceIte, e]
      exact this
  collision s x as y bs _ ha hb := by
    obtain ⟨sa, sb, sr⟩ := s
    simp only [MergeState.aSlice, MergeState.bSlice] at ha hb
    subst ha hb
    simp only [pureOp]
    cases h : rec x y with
    | panic => exact ⟨rfl, by simp [callEmit], by simp, by simp, fun _ => trivial⟩
    | ret r =>
      cases he : r.isEmpty with
      | true => refine ⟨rfl, ?_, ?_, ?_, fun _ => trivial⟩ <;> simp [callEmit, Emit.ret, nonEmpty, he, MergeState.aSlice, MergeState.bSlice]
      | false => refine ⟨rfl, ?_, ?_, ?_, fun _ => trivial⟩ <;> simp [callEmit, Emit.ret, nonEmpty, he, MergeState.aSlice, MergeState.bSlice]

variable [TransOrd K] [LawfulEqOrd K]

/-- merging children in place, when the recursive calls do not panic -/
theorem childrenWith_eq {P : Par K V W} {takeA takeB : Bool} {conv : Tree K W → Call (Tree K V)}
    {rec : Tree K V → Tree K W → Tree K V × Flow} {r : Tree K V → Tree K W → Tree K V} {t : Tree K V} {rhs : List (Tree K W)}
    (ht : Kids t.kids) (hr : Kids rhs) (hga : ∀ x, P.ga x = if takeA then some x else none)
    (hgb : ∀ y ∈ rhs, (if takeB then (conv y).emit else ([], .cont)) = Emit.ret (P.gb y))
    (hrec : ∀ x ∈ t.kids, ∀ y ∈ rhs, hd x = hd y → rec x y = (r x y, .cont)) :
    childrenWith (inPlaceOp takeA takeB conv rec) t rhs = ({ t with kids := kidsRef P r t.kids rhs }, .cont) := by
  have S := mergeAll_spec (inPlaceOp_implements takeA takeB conv rec) (ka := hd) (kb := hd) headCmp_eq
    ({ tgt := [], src := t.kids, b := rhs } : InPlaceMS _ _) trivial ht.asc hr.asc
  have e : joinRef headCmp (fun x => Emit.ret (if takeA then some x else none)) (fun y => if takeB then (conv y).emit else ([], .cont))
      (fun x y => recEmit (rec x y)) t.kids rhs = (kidsRef P r t.kids rhs, .cont) := by
    unfold kidsRef
    rw [← joinRef_ret]
    apply joinRef_congr
    · intro a _; rw [hga]
    · exact hgb
    · intro a ha b hb hc
      rw [headCmp_eq] at hc
      rw [hrec a ha b hb (cmp_eq_iff.1 hc)]
      rfl
  have S1 := S.flow
  have S2 := S.out
  change (mergeAll (inPlaceOp takeA takeB conv rec) _).2 = (joinRef headCmp _ _ _ t.kids rhs).2 at S1
  change (mergeAll (inPlaceOp takeA takeB conv rec) _).1.tgt = [] ++ (joinRef headCmp _ _ _ t.kids rhs).1 at S2
  rw [e] at S1 S2
  unfold childrenWith
  rw [ht.headed, hr.headed]
  simp only [Bool.and_self, ↓reduceIte, InPlaceMS.merge]
  rw [S1, S2]
  rfl

theorem mergeChildren_eq {P : Par K V W} {takeA takeB : Bool} {convA : Tree K V → Call (Tree K V)} {convB : Tree K W → Call (Tree K V)}
    {rec : Tree K V → Tree K W → Call (Tree K V)} {r : Tree K V → Tree K W → Tree K V} {as : List (Tree K V)} {bs : List (Tree K W)}
    (ha : Kids as) (hb : Kids bs) (hga : ∀ x ∈ as, (if takeA then (convA x).emit else ([], .cont)) = Emit.ret (P.ga x))
    (hgb : ∀ y ∈ bs, (if takeB then (convB y).emit else ([], .cont)) = Emit.ret (P.gb y))
    (hrec : ∀ x ∈ as, ∀ y ∈ bs, hd x = hd y → rec x y = .ret (r x y)) :
    mergeChildren (pureOp takeA takeB convA convB rec) as bs = .ret (kidsRef P r as bs) := by
  have S := mergeAll_spec (pureOp_implements takeA takeB convA convB rec) (ka := hd) (kb := hd) headCmp_eq
    ({ a := as, b := bs, r := [] } : SliceMS _ _ _) trivial ha.asc hb.asc
  have e : joinRef headCmp (fun x => if takeA then (convA x).emit else ([], .cont)) (fun y => if takeB then (convB y).emit else ([], .cont))
      (fun x y => callEmit (rec x y)) as bs = (kidsRef P r as bs, .cont) := by
    unfold kidsRef
    rw [← joinRef_ret]
    apply joinRef_congr
    · exact hga
    · exact hgb
    · intro a ha b hb hc
      rw [headCmp_eq] at hc
      rw [hrec a ha b hb (cmp_eq_iff.1 hc)]
      rfl
  have S1 := S.flow
  have S2 := S.out
  change (mergeAll (pureOp takeA takeB convA convB rec) _).2 = (joinRef headCmp _ _ _ as bs).2 at S1
  change (mergeAll (pureOp takeA takeB convA convB rec) _).1.r = [] ++ (joinRef headCmp _ _ _ as bs).1 at S2
  rw [e] at S1 S2
  unfold mergeChildren
  rw [ha.headed, hb.headed]
  simp only [Bool.and_self, ↓reduceIte, SliceMS.merge]
  rw [S1, S2]
  rfl

end merge

/-! ### Parameters of the combinations -/

section par
variable {K V W : Type _}

/-- the function computed by a closure that does not panic -/
def pureOf (f : MutFn V W) (v : V) (w : W) : Option V :=
  match f v w with
  | (v, .ret true) => some v
  | _ => none

/-- the closure never panics -/
def NoPanic (f : MutFn V W) : Prop := ∀ v w, (f v w).2 ≠ .panic

theorem applyMut_eq {f : MutFn V W} (h : NoPanic f) (v : V) (w : W) : applyMut f v w = (pureOf f v w, .cont) := by
  have := h v w
  unfold applyMut pureOf
  split <;> simp_all

/-- value part of `left_combine_with` for closures that do not panic -/
def leftMutVal (f : V → W → Option V) (v : Option V) (w : Option W) : Option V :=
  match w with
  | some w => v.bind (fun v => f v w)
  | none => v

def outerPar (f : V → V → Option V) : Par K V V :=
  { va := id, vb := id, vs := outerPureVal f, ga := some, gb := some, stop := fun _ => false, keep := true, dis := none }
def innerPar (f : V → W → Option V) : Par K V W :=
  { va := fun _ => none, vb := fun _ => none, vs := innerPureVal f, ga := fun _ => none, gb := fun _ => none,
    stop := fun _ => false, keep := true, dis := some false }
def leftPar (g : Option V → Option W → Option V) : Par K V W :=
  { va := id, vb := fun _ => none, vs := g, ga := some, gb := fun _ => none, stop := fun _ => false, keep := true, dis := some true }
def removePar (f : W → Bool) : Par K V W :=
  { va := id, vb := fun _ => none, vs := fun v _ => v, ga := some, gb := fun _ => none, stop := selected f, keep := false, dis := some true }
def retainPar (f : W → Bool) : Par K V W :=
  { va := fun _ => none, vb := fun _ => none, vs := fun _ _ => none, ga := fun _ => none, gb := fun _ => none,
    stop := selected f, keep := true, dis := some false }

theorem outerVal_eq {f : MutFn V V} (h : NoPanic f) (v w : Option V) : outerVal f v w = (outerPureVal (pureOf f) v w, .cont) := by
  cases v <;> cases w <;> simp [outerVal, outerPureVal, applyMut_eq h]
theorem innerVal_eq {f : MutFn V W} (h : NoPanic f) (v : Option V) (w : Option W) :
    innerVal f v w = (innerPureVal (pureOf f) v w, .cont) := by
  cases v <;> cases w <;> simp [innerVal, innerPureVal, applyMut_eq h]
theorem leftVal_eq {f : MutFn V W} (h : NoPanic f) (v : Option V) (w : Option W) :
    leftVal f v w = (leftMutVal (pureOf f) v w, .cont) := by
  cases v <;> cases w <;> simp [leftVal, leftMutVal, applyMut_eq h]

end par

/-! ### In-place combinations -/

section inplace
variable {K V W : Type _} [Ord K] [TransOrd K] [LawfulEqOrd K] [DecidableEq K]

theorem split_eq {t : Tree K V} {n : Nat} (h : n < t.pre.length) : t.split n = (⟨t.pre.take n, none, [t.shorten n]⟩, .cont) := by
  simp [split, h, shorten]

omit [DecidableEq K] in
theorem sort_two {a b : Tree K V} {g : Tree K V → Tree K V → Option (Tree K V)} (h : hd a ≠ hd b) :
    sortKids [a, b] = joinList headCmp some some g [a] [b] := by
  have hs : sortKids [a, b] = if headCmp a b != .gt then [a, b] else [b, a] := by
    simp [sortKids, stableSortBy, List.mergeSort, List.MergeSort.Internal.splitInTwo, List.merge]
  rw [hs, joinList_cons]
  cases hc : headCmp a b with
  | lt => simp [joinList_nil_left]
  | gt => simp [joinList_nil_right]
  | eq => rw [headCmp_eq] at hc; exact absurd (cmp_eq_iff.1 hc) h

/-- what is known about the pair `(x, y)` of a recursive call made for the pair `(a, b)` -/
structure Sub (a : Tree K V) (b : Tree K W) (x : Tree K V) (y : Tree K W) : Prop where
  left : Valid x
  right : Valid y
  leftNe : x.pre ≠ []
  rightNe : y.pre ≠ []
  heads : hd x = hd y
  size : x.size + y.size < a.size + b.size
  reach : ∃ n, x.reach + n ≤ a.reach ∧ y.reach + n ≤ b.reach ∧ (hd a = hd b → a.pre ≠ [] → 1 ≤ n)

/-- agreement of the recursive calls on smaller trees -/
abbrev Agree (rec : Tree K V → Tree K W → Tree K V × Flow) (r : Tree K V → Tree K W → Tree K V) (a : Tree K V) (b : Tree K W) : Prop :=
  ∀ x y, Sub a b x y → rec x y = (r x y, .cont)

omit [TransOrd K] [LawfulEqOrd K] [Ord K] in
theorem heads_pos (a : Tree K V) (b : Tree K W) : hd a = hd b → a.pre ≠ [] → 1 ≤ commonPrefix a.pre b.pre := by
  intro h hne
  cases e : a.pre with
  | nil => exact absurd e hne
  | cons c p => exact commonPrefix_pos _ _ c rfl (by rw [← show hd b = b.pre.head? from rfl, ← h]; simp [hd, e])

omit [TransOrd K] [LawfulEqOrd K] in
theorem agree_kids {X : Type _} {rec : Tree K V → Tree K W → X} {r : Tree K V → Tree K W → X} {a : Tree K V} {b : Tree K W}
    (h : ∀ x y, Sub a b x y → rec x y = r x y) (ha : Valid a) (hb : Valid b) {n : Nat}
    (hpos : hd a = hd b → a.pre ≠ [] → 1 ≤ n) (hla : n ≤ a.pre.length) (hlb : n ≤ b.pre.length) :
    ∀ x ∈ a.kids, ∀ y ∈ b.kids, hd x = hd y → rec x y = r x y :=
  fun x hx y hy hh => h x y
    { left := ha.kids.valid x hx, right := hb.kids.valid y hy, leftNe := ha.kids.ne x hx, rightNe := hb.kids.ne y hy, heads := hh
      size := by have := kid_size hx; have := kid_size hy; omega
      reach := ⟨n, by have := kid_reach hx; omega, by have := kid_reach hy; omega, hpos⟩ }

theorem agree_kids_left {X : Type _} {rec : Tree K V → Tree K W → X} {r : Tree K V → Tree K W → X} {a : Tree K V} {b : Tree K W}
    (h : ∀ x y, Sub a b x y → rec x y = r x y) (ha : Valid a) (hb : Valid b) {n : Nat} (hn : n < a.pre.length)
    (hpos : hd a = hd b → a.pre ≠ [] → 1 ≤ n) (hlb : n ≤ b.pre.length) :
    ∀ x ∈ [a.shorten n], ∀ y ∈ b.kids, hd x = hd y → rec x y = r x y := by
  intro x hx y hy hh
  simp at hx; subst hx
  have := size_shorten a n (by omega)
  have := reach_shorten a n (by omega)
  exact h _ y
    { left := ha.shorten n, right := hb.kids.valid y hy, leftNe := shorten_ne hn, rightNe := hb.kids.ne y hy, heads := hh
      size := by have := kid_size hy; omega
      reach := ⟨n, by omega, by have := kid_reach hy; omega, hpos⟩ }

theorem agree_kids_right {X : Type _} {rec : Tree K V → Tree K W → X} {r : Tree K V → Tree K W → X} {a : Tree K V} {b : Tree K W}
    (h : ∀ x y, Sub a b x y → rec x y = r x y) (ha : Valid a) (hb : Valid b) {n : Nat} (hn : n < b.pre.length)
    (hpos : hd a = hd b → a.pre ≠ [] → 1 ≤ n) (hla : n ≤ a.pre.length) :
    ∀ x ∈ a.kids, ∀ y ∈ [b.shorten n], hd x = hd y → rec x y = r x y := by
  intro x hx y hy hh
  simp at hy; subst hy
  have := size_shorten b n (by omega)
  have := reach_shorten b n (by omega)
  exact h x _
    { left := ha.kids.valid x hx, right := hb.shorten n, leftNe := ha.kids.ne x hx, rightNe := shorten_ne hn, heads := hh
      size := by have := kid_size hx; omega
      reach := ⟨n, by have := kid_reach hx; omega, by omega, hpos⟩ }

omit [TransOrd K] [LawfulEqOrd K] [DecidableEq K] in
theorem gb_some {P : Par K V V} (h : P.gb = some) {ks : List (Tree K V)} (hk : Kids ks) :
    ∀ y ∈ ks, (if true then (materialize y).emit else ([], .cont)) = Emit.ret (P.gb y) := by
  intro y hy
  rw [materialize_eq (hk.valid y hy) (hk.ne y hy), h]
  rfl

omit [Ord K] [TransOrd K] [LawfulEqOrd K] [DecidableEq K] in
theorem gb_none {P : Par K V W} (h : P.gb = fun _ => none) {ks : List (Tree K W)} {conv : Tree K W → Call (Tree K V)} :
    ∀ y ∈ ks, (if false then (conv y).emit else ([], .cont)) = Emit.ret (P.gb y) := by
  intro y hy; rw [h]; rfl

theorem outerWithCases_eq {rec : Tree K V → Tree K V → Tree K V × Flow} {r : Tree K V → Tree K V → Tree K V} {a b : Tree K V}
    {f : MutFn V V} (hf : NoPanic f) (ha : Valid a) (hb : Valid b) (hrec : Agree rec r a b) :
    outerWithCases (outerWithOp rec) f (commonPrefix a.pre b.pre) a b =
      (refCases (outerPar (pureOf f)) r (commonPrefix a.pre b.pre) a b, .cont) := by
  have hla := commonPrefix_le_left a.pre b.pre
  have hlb := commonPrefix_le_right a.pre b.pre
  have hpos := heads_pos a b
  have hdf := commonPrefix_differ a.pre b.pre
  revert hla hlb hpos hdf
  generalize commonPrefix a.pre b.pre = n
  intro hla hlb hpos hdf
  unfold outerWithCases refCases outerWithOp
  by_cases h1 : n = a.pre.length ∧ n = b.pre.length
  · rw [if_pos h1, if_pos h1, outerVal_eq hf]
    simp only [withVal, andThen]
    rw [childrenWith_eq (P := outerPar (pureOf f)) (r := r) (t := ⟨a.pre, outerPureVal (pureOf f) a.val b.val, a.kids⟩) ha.kids hb.kids (by simp [outerPar]) (gb_some rfl hb.kids)
      (agree_kids (a := a) (b := b) hrec ha hb hpos hla hlb)]
    rfl
  rw [if_neg h1, if_neg h1]
  by_cases h3 : n = a.pre.length
  · have hnb : n < b.pre.length := by omega
    rw [if_pos h3, if_neg (by omega), if_pos h3, materializeShortened_eq hb hnb]
    simp only [withMat]
    have hk : Kids [b.shorten n] := Kids.single (hb.shorten n) (shorten_ne hnb)
    rw [childrenWith_eq (P := outerPar (pureOf f)) (r := r) ha.kids hk (by simp [outerPar]) (gb_some rfl hk)
      (agree_kids_right (a := a) (b := b) hrec ha hb hnb hpos hla)]
    rfl
  rw [if_neg h3]
  have hna : n < a.pre.length := by omega
  rw [split_eq hna]
  by_cases h2 : n = b.pre.length
  · rw [if_pos h2, if_pos h2]
    simp only [andThen, outerVal_eq hf, withVal]
    have hk : Kids [a.shorten n] := Kids.single (ha.shorten n) (shorten_ne hna)
    rw [childrenWith_eq (P := outerPar (pureOf f)) (r := r) (t := ⟨a.pre.take n, outerPureVal (pureOf f) none b.val, [a.shorten n]⟩) hk hb.kids (by simp [outerPar]) (gb_some rfl hb.kids)
      (agree_kids_left (a := a) (b := b) hrec ha hb hna hpos hlb)]
    cases hv : b.val <;> simp [outerPar, outerPureVal]
  · have hnb : n < b.pre.length := by omega
    rw [if_neg h2, if_neg h2, if_neg h3, materializeShortened_eq hb hnb]
    simp only [andThen, withMat, List.singleton_append]
    have hh : headed [a.shorten n, b.shorten n] = true := by
      simp [headed, shorten_ne hna, shorten_ne hnb]
    rw [if_pos hh, sort_two (hdf hna hnb)]
    rfl

theorem innerWithCases_eq {rec : Tree K V → Tree K W → Tree K V × Flow} {r : Tree K V → Tree K W → Tree K V} {a : Tree K V} {b : Tree K W}
    {f : MutFn V W} (hf : NoPanic f) (ha : Valid a) (hb : Valid b) (hrec : Agree rec r a b) :
    innerWithCases (innerWithOp rec) f (commonPrefix a.pre b.pre) a b =
      (refCases (innerPar (pureOf f)) r (commonPrefix a.pre b.pre) a b, .cont) := by
  have hla := commonPrefix_le_left a.pre b.pre
  have hlb := commonPrefix_le_right a.pre b.pre
  have hpos := heads_pos a b
  revert hla hlb hpos
  generalize commonPrefix a.pre b.pre = n
  intro hla hlb hpos
  unfold innerWithCases refCases innerWithOp
  by_cases h1 : n = a.pre.length ∧ n = b.pre.length
  · rw [if_pos h1, if_pos h1, innerVal_eq hf]
    simp only [withVal, andThen]
    rw [childrenWith_eq (P := innerPar (pureOf f)) (r := r) (t := ⟨a.pre, innerPureVal (pureOf f) a.val b.val, a.kids⟩) ha.kids hb.kids (by simp [innerPar]) (gb_none rfl) (agree_kids (a := a) (b := b) hrec ha hb hpos hla hlb)]
    rfl
  rw [if_neg h1, if_neg h1]
  by_cases h3 : n = a.pre.length
  · have hnb : n < b.pre.length := by omega
    rw [if_pos h3, if_neg (by omega), if_pos h3, materializeShortened_eq hb hnb]
    simp only [withMat]
    have hk : Kids [b.shorten n] := Kids.single (hb.shorten n) (shorten_ne hnb)
    rw [childrenWith_eq (P := innerPar (pureOf f)) (r := r) (t := { a with val := none }) ha.kids hk (by simp [innerPar]) (gb_none rfl)
      (agree_kids_right (a := a) (b := b) hrec ha hb hnb hpos hla)]
    rfl
  rw [if_neg h3]
  have hna : n < a.pre.length := by omega
  by_cases h2 : n = b.pre.length
  · rw [if_pos h2, if_pos h2, split_eq hna]
    simp only [andThen]
    have hk : Kids [a.shorten n] := Kids.single (ha.shorten n) (shorten_ne hna)
    rw [childrenWith_eq (P := innerPar (pureOf f)) (r := r) (t := ⟨a.pre.take n, none, [a.shorten n]⟩) hk hb.kids (by simp [innerPar]) (gb_none rfl) (agree_kids_left (a := a) (b := b) hrec ha hb hna hpos hlb)]
    rfl
  · rw [if_neg h2, if_neg h2, if_neg h3]
    rfl

theorem leftWithCases_eq {rec : Tree K V → Tree K W → Tree K V × Flow} {r : Tree K V → Tree K W → Tree K V} {a : Tree K V} {b : Tree K W}
    {f : MutFn V W} (hf : NoPanic f) (ha : Valid a) (hb : Valid b) (hrec : Agree rec r a b) :
    leftWithCases (leftWithOp rec) f (commonPrefix a.pre b.pre) a b =
      (refCases (leftPar (leftMutVal (pureOf f))) r (commonPrefix a.pre b.pre) a b, .cont) := by
  have hla := commonPrefix_le_left a.pre b.pre
  have hlb := commonPrefix_le_right a.pre b.pre
  have hpos := heads_pos a b
  revert hla hlb hpos
  generalize commonPrefix a.pre b.pre = n
  intro hla hlb hpos
  unfold leftWithCases refCases leftWithOp
  by_cases h1 : n = a.pre.length ∧ n = b.pre.length
  · rw [if_pos h1, if_pos h1, leftVal_eq hf]
    simp only [withVal, andThen]
    rw [childrenWith_eq (P := leftPar (leftMutVal (pureOf f))) (r := r) (t := ⟨a.pre, leftMutVal (pureOf f) a.val b.val, a.kids⟩) ha.kids hb.kids (by simp [leftPar]) (gb_none rfl)
      (agree_kids (a := a) (b := b) hrec ha hb hpos hla hlb)]
    rfl
  rw [if_neg h1, if_neg h1]
  by_cases h3 : n = a.pre.length
  · have hnb : n < b.pre.length := by omega
    rw [if_pos h3, if_neg (by omega), if_pos h3, materializeShortened_eq hb hnb]
    simp only [withMat]
    have hk : Kids [b.shorten n] := Kids.single (hb.shorten n) (shorten_ne hnb)
    rw [childrenWith_eq (P := leftPar (leftMutVal (pureOf f))) (r := r) ha.kids hk (by simp [leftPar]) (gb_none rfl)
      (agree_kids_right (a := a) (b := b) hrec ha hb hnb hpos hla)]
    rfl
  rw [if_neg h3]
  have hna : n < a.pre.length := by omega
  by_cases h2 : n = b.pre.length
  · rw [if_pos h2, if_pos h2, split_eq hna]
    simp only [andThen]
    have hk : Kids [a.shorten n] := Kids.single (ha.shorten n) (shorten_ne hna)
    rw [childrenWith_eq (P := leftPar (leftMutVal (pureOf f))) (r := r) (t := ⟨a.pre.take n, none, [a.shorten n]⟩) hk hb.kids (by simp [leftPar]) (gb_none rfl)
      (agree_kids_left (a := a) (b := b) hrec ha hb hna hpos hlb)]
    rfl
  · rw [if_neg h2, if_neg h2, if_neg h3]
    rfl

theorem removePrefixCases_eq {rec : Tree K V → Tree K W → Tree K V × Flow} {r : Tree K V → Tree K W → Tree K V} {a : Tree K V}
    {b : Tree K W} {f : W → Bool} (ha : Valid a) (hb : Valid b) (hrec : Agree rec r a b) :
    removePrefixCases (removePrefixOp rec) f (commonPrefix a.pre b.pre) a b =
      (refCases (removePar f) r (commonPrefix a.pre b.pre) a b, .cont) := by
  have hla := commonPrefix_le_left a.pre b.pre
  have hlb := commonPrefix_le_right a.pre b.pre
  have hpos := heads_pos a b
  revert hla hlb hpos
  generalize commonPrefix a.pre b.pre = n
  intro hla hlb hpos
  unfold removePrefixCases refCases removePrefixOp
  have hstop : (removePar f : Par K V W).stop b.val = selected f b.val := rfl
  have hkeep : (removePar f : Par K V W).keep = false := rfl
  rw [hstop, hkeep]
  by_cases h1 : n = a.pre.length ∧ n = b.pre.length
  · rw [if_pos h1, if_pos h1]
    cases hs : selected f b.val with
    | true => rfl
    | false =>
      simp only [Bool.false_eq_true, ↓reduceIte]
      rw [childrenWith_eq (P := removePar f) (r := r) ha.kids hb.kids (by simp [removePar]) (gb_none rfl) (agree_kids (a := a) (b := b) hrec ha hb hpos hla hlb)]
      rfl
  rw [if_neg h1, if_neg h1]
  by_cases h2 : n = b.pre.length
  · have hna : n < a.pre.length := by omega
    rw [if_pos h2, if_pos h2]
    cases hs : selected f b.val with
    | true => rfl
    | false =>
      simp only [Bool.false_eq_true, ↓reduceIte]
      rw [split_eq hna]
      simp only [andThen]
      have hk : Kids [a.shorten n] := Kids.single (ha.shorten n) (shorten_ne hna)
      rw [childrenWith_eq (P := removePar f) (r := r) (t := ⟨a.pre.take n, none, [a.shorten n]⟩) hk hb.kids (by simp [removePar]) (gb_none rfl) (agree_kids_left (a := a) (b := b) hrec ha hb hna hpos hlb)]
      rfl
  rw [if_neg h2, if_neg h2]
  have hnb : n < b.pre.length := by omega
  by_cases h3 : n = a.pre.length
  · rw [if_pos h3, if_pos h3, materializeShortened_eq hb hnb]
    simp only [withMat]
    have hk : Kids [b.shorten n] := Kids.single (hb.shorten n) (shorten_ne hnb)
    rw [childrenWith_eq (P := removePar f) (r := r) ha.kids hk (by simp [removePar]) (gb_none rfl) (agree_kids_right (a := a) (b := b) hrec ha hb hnb hpos hla)]
    rfl
  · rw [if_neg h3, if_neg h3]
    rfl

theorem retainPrefixCases_eq {rec : Tree K V → Tree K W → Tree K V × Flow} {r : Tree K V → Tree K W → Tree K V} {a : Tree K V}
    {b : Tree K W} {f : W → Bool} (ha : Valid a) (hb : Valid b) (hrec : Agree rec r a b) :
    retainPrefixCases (retainPrefixOp rec) f (commonPrefix a.pre b.pre) a b =
      (refCases (retainPar f) r (commonPrefix a.pre b.pre) a b, .cont) := by
  have hla := commonPrefix_le_left a.pre b.pre
  have hlb := commonPrefix_le_right a.pre b.pre
  have hpos := heads_pos a b
  revert hla hlb hpos
  generalize commonPrefix a.pre b.pre = n
  intro hla hlb hpos
  unfold retainPrefixCases refCases retainPrefixOp
  have hstop : (retainPar f : Par K V W).stop b.val = selected f b.val := rfl
  have hkeep : (retainPar f : Par K V W).keep = true := rfl
  rw [hstop, hkeep]
  by_cases h1 : n = a.pre.length ∧ n = b.pre.length
  · rw [if_pos h1, if_pos h1]
    cases hs : selected f b.val with
    | true => rfl
    | false =>
      simp only [Bool.not_false, ↓reduceIte, Bool.false_eq_true]
      rw [childrenWith_eq (P := retainPar f) (r := r) (t := { a with val := none }) ha.kids hb.kids (by simp [retainPar]) (gb_none rfl)
        (agree_kids (a := a) (b := b) hrec ha hb hpos hla hlb)]
      rfl
  rw [if_neg h1, if_neg h1]
  by_cases h2 : n = b.pre.length
  · have hna : n < a.pre.length := by omega
    rw [if_pos h2, if_pos h2]
    cases hs : selected f b.val with
    | true => rfl
    | false =>
      simp only [Bool.not_false, ↓reduceIte, Bool.false_eq_true]
      rw [split_eq hna]
      simp only [andThen]
      have hk : Kids [a.shorten n] := Kids.single (ha.shorten n) (shorten_ne hna)
      rw [childrenWith_eq (P := retainPar f) (r := r) (t := ⟨a.pre.take n, none, [a.shorten n]⟩) hk hb.kids (by simp [retainPar]) (gb_none rfl) (agree_kids_left (a := a) (b := b) hrec ha hb hna hpos hlb)]
      rfl
  rw [if_neg h2, if_neg h2]
  have hnb : n < b.pre.length := by omega
  by_cases h3 : n = a.pre.length
  · rw [if_pos h3, if_pos h3, materializeShortened_eq hb hnb]
    simp only [withMat]
    have hk : Kids [b.shorten n] := Kids.single (hb.shorten n) (shorten_ne hnb)
    rw [childrenWith_eq (P := retainPar f) (r := r) (t := { a with val := none }) ha.kids hk (by simp [retainPar]) (gb_none rfl)
      (agree_kids_right (a := a) (b := b) hrec ha hb hnb hpos hla)]
    rfl
  · rw [if_neg h3, if_neg h3]
    rfl

theorem outerWithGo_eq {f : MutFn V V} (hf : NoPanic f) : ∀ fuel (a b : Tree K V), Valid a → Valid b → a.size + b.size < fuel →
    outerWithGo f fuel a b = (ref (outerPar (pureOf f)) fuel a b, .cont) := by
  intro fuel
  induction fuel with
  | zero => intro a b _ _ h; omega
  | succ fuel ih =>
    intro a b ha hb hs
    rw [outerWithGo, outerWithCases_eq (r := ref (outerPar (pureOf f)) fuel) hf ha hb (fun x y h => ih x y h.left h.right (by have := h.size; omega))]
    rfl
theorem innerWithGo_eq {f : MutFn V W} (hf : NoPanic f) : ∀ fuel (a : Tree K V) (b : Tree K W), Valid a → Valid b → a.size + b.size < fuel →
    innerWithGo f fuel a b = (ref (innerPar (pureOf f)) fuel a b, .cont) := by
  intro fuel
  induction fuel with
  | zero => intro a b _ _ h; omega
  | succ fuel ih =>
    intro a b ha hb hs
    rw [innerWithGo, innerWithCases_eq (r := ref (innerPar (pureOf f)) fuel) hf ha hb (fun x y h => ih x y h.left h.right (by have := h.size; omega))]
    rfl
theorem leftWithGo_eq {f : MutFn V W} (hf : NoPanic f) : ∀ fuel (a : Tree K V) (b : Tree K W), Valid a → Valid b → a.size + b.size < fuel →
    leftWithGo f fuel a b = (ref (leftPar (leftMutVal (pureOf f))) fuel a b, .cont) := by
  intro fuel
  induction fuel with
  | zero => intro a b _ _ h; omega
  | succ fuel ih =>
    intro a b ha hb hs
    rw [leftWithGo, leftWithCases_eq (r := ref (leftPar (leftMutVal (pureOf f))) fuel) hf ha hb (fun x y h => ih x y h.left h.right (by have := h.size; omega))]
    rfl
theorem removePrefixGo_eq {f : W → Bool} : ∀ fuel (a : Tree K V) (b : Tree K W), Valid a → Valid b → a.size + b.size < fuel →
    removePrefixGo f fuel a b = (ref (removePar f) fuel a b, .cont) := by
  intro fuel
  induction fuel with
  | zero => intro a b _ _ h; omega
  | succ fuel ih =>
    intro a b ha hb hs
    rw [removePrefixGo, removePrefixCases_eq (r := ref (removePar f) fuel) ha hb (fun x y h => ih x y h.left h.right (by have := h.size; omega))]
    rfl
theorem retainPrefixGo_eq {f : W → Bool} : ∀ fuel (a : Tree K V) (b : Tree K W), Valid a → Valid b → a.size + b.size < fuel →
    retainPrefixGo f fuel a b = (ref (retainPar f) fuel a b, .cont) := by
  intro fuel
  induction fuel with
  | zero => intro a b _ _ h; omega
  | succ fuel ih =>
    intro a b ha hb hs
    rw [retainPrefixGo, retainPrefixCases_eq (r := ref (retainPar f) fuel) ha hb (fun x y h => ih x y h.left h.right (by have := h.size; omega))]
    rfl

/-! ### Combinations into a new tree -/

omit [TransOrd K] [LawfulEqOrd K] [DecidableEq K] in
theorem ga_some {P : Par K V W} (h : P.ga = some) {ks : List (Tree K V)} (hk : Kids ks) :
    ∀ y ∈ ks, (if true then (materialize y).emit else ([], .cont)) = Emit.ret (P.ga y) := by
  intro y hy
  rw [materialize_eq (hk.valid y hy) (hk.ne y hy), h]
  rfl
omit [Ord K] [TransOrd K] [LawfulEqOrd K] [DecidableEq K] in
theorem ga_none {P : Par K V W} (h : P.ga = fun _ => none) {ks : List (Tree K V)} {conv : Tree K V → Call (Tree K V)} :
    ∀ y ∈ ks, (if false then (conv y).emit else ([], .cont)) = Emit.ret (P.ga y) := by
  intro y hy; rw [h]; rfl

abbrev AgreeC (rec : Tree K V → Tree K W → Call (Tree K V)) (r : Tree K V → Tree K W → Tree K V) (a : Tree K V) (b : Tree K W) : Prop :=
  ∀ x y, Sub a b x y → rec x y = .ret (r x y)

theorem outerCases_eq {rec : Tree K V → Tree K V → Call (Tree K V)} {r : Tree K V → Tree K V → Tree K V} {a b : Tree K V}
    {f : V → V → Option V} (ha : Valid a) (hb : Valid b) (hrec : AgreeC rec r a b) :
    outerCases (outerOp rec) f (commonPrefix a.pre b.pre) a b =
      .ret (unsplit (refCases (outerPar f) r (commonPrefix a.pre b.pre) a b)) := by
  have hla := commonPrefix_le_left a.pre b.pre
  have hlb := commonPrefix_le_right a.pre b.pre
  have hpos := heads_pos a b
  have hdf := commonPrefix_differ a.pre b.pre
  revert hla hlb hpos hdf
  generalize commonPrefix a.pre b.pre = n
  intro hla hlb hpos hdf
  unfold outerCases refCases outerOp mkNode
  by_cases h1 : n = a.pre.length ∧ n = b.pre.length
  · rw [if_pos h1, if_pos h1, mergeChildren_eq (P := outerPar f) (r := r) ha.kids hb.kids (ga_some rfl ha.kids) (gb_some rfl hb.kids)
      (agree_kids (a := a) (b := b) hrec ha hb hpos hla hlb)]
    simp [bindC, h1.1, outerPar]
  rw [if_neg h1, if_neg h1]
  by_cases h3 : n = a.pre.length
  · have hnb : n < b.pre.length := by omega
    have hk : Kids [b.shorten n] := Kids.single (hb.shorten n) (shorten_ne hnb)
    rw [if_pos h3, if_neg (by omega), if_pos h3, materializeShortened_eq hb hnb]
    simp only [bindC]
    rw [mergeChildren_eq (P := outerPar f) (r := r) ha.kids hk (ga_some rfl ha.kids) (gb_some rfl hk) (agree_kids_right (a := a) (b := b) hrec ha hb hnb hpos hla)]
    simp [h3, outerPar]
  rw [if_neg h3]
  have hna : n < a.pre.length := by omega
  rw [materializeShortened_eq ha hna]
  have hka : Kids [a.shorten n] := Kids.single (ha.shorten n) (shorten_ne hna)
  by_cases h2 : n = b.pre.length
  · rw [if_pos h2, if_pos h2]
    simp only [bindC]
    rw [mergeChildren_eq (P := outerPar f) (r := r) hka hb.kids (ga_some rfl hka) (gb_some rfl hb.kids) (agree_kids_left (a := a) (b := b) hrec ha hb hna hpos hlb)]
    simp [outerPar]
  · have hnb : n < b.pre.length := by omega
    rw [if_neg h2, if_neg h2, if_neg h3, materializeShortened_eq hb hnb]
    simp only [bindC]
    have hh : headed [a.shorten n, b.shorten n] = true := by
      simp [headed, shorten_ne hna, shorten_ne hnb]
    rw [if_pos hh, sort_two (hdf hna hnb)]
    rfl

theorem innerCases_eq {rec : Tree K V → Tree K W → Call (Tree K V)} {r : Tree K V → Tree K W → Tree K V} {a : Tree K V} {b : Tree K W}
    {f : V → W → Option V} (ha : Valid a) (hb : Valid b) (hrec : AgreeC rec r a b) :
    innerCases (innerOp rec) f (commonPrefix a.pre b.pre) a b =
      .ret (unsplit (refCases (innerPar f) r (commonPrefix a.pre b.pre) a b)) := by
  have hla := commonPrefix_le_left a.pre b.pre
  have hlb := commonPrefix_le_right a.pre b.pre
  have hpos := heads_pos a b
  revert hla hlb hpos
  generalize commonPrefix a.pre b.pre = n
  intro hla hlb hpos
  unfold innerCases refCases innerOp mkNode
  by_cases h1 : n = a.pre.length ∧ n = b.pre.length
  · rw [if_pos h1, if_pos h1, mergeChildren_eq (P := innerPar f) (r := r) ha.kids hb.kids (ga_none rfl) (gb_none rfl) (agree_kids (a := a) (b := b) hrec ha hb hpos hla hlb)]
    simp [bindC, h1.1, innerPar]
  rw [if_neg h1, if_neg h1]
  by_cases h3 : n = a.pre.length
  · have hnb : n < b.pre.length := by omega
    have hk : Kids [b.shorten n] := Kids.single (hb.shorten n) (shorten_ne hnb)
    rw [if_pos h3, if_neg (by omega), if_pos h3, materializeShortened_eq hb hnb]
    simp only [bindC]
    rw [mergeChildren_eq (P := innerPar f) (r := r) ha.kids hk (ga_none rfl) (gb_none rfl) (agree_kids_right (a := a) (b := b) hrec ha hb hnb hpos hla)]
    simp [h3, innerPar]
  rw [if_neg h3]
  have hna : n < a.pre.length := by omega
  have hka : Kids [a.shorten n] := Kids.single (ha.shorten n) (shorten_ne hna)
  by_cases h2 : n = b.pre.length
  · rw [if_pos h2, if_pos h2, materializeShortened_eq ha hna]
    simp only [bindC]
    rw [mergeChildren_eq (P := innerPar f) (r := r) hka hb.kids (ga_none rfl) (gb_none rfl) (agree_kids_left (a := a) (b := b) hrec ha hb hna hpos hlb)]
    simp [innerPar]
  · rw [if_neg h2, if_neg h2, if_neg h3]
    simp [innerPar, clear, unsplit, dropEmptyKids, mergeOnlyChild, clearEmptyPrefix, isEmpty]

theorem leftCases_eq {rec : Tree K V → Tree K W → Call (Tree K V)} {r : Tree K V → Tree K W → Tree K V} {a : Tree K V} {b : Tree K W}
    {f : V → Option W → Option V} (ha : Valid a) (hb : Valid b) (hrec : AgreeC rec r a b) :
    leftCases (leftOp rec) f (commonPrefix a.pre b.pre) a b =
      .ret (unsplit (refCases (leftPar (leftPureVal f)) r (commonPrefix a.pre b.pre) a b)) := by
  have hla := commonPrefix_le_left a.pre b.pre
  have hlb := commonPrefix_le_right a.pre b.pre
  have hpos := heads_pos a b
  revert hla hlb hpos
  generalize commonPrefix a.pre b.pre = n
  intro hla hlb hpos
  unfold leftCases refCases leftOp mkNode
  by_cases h1 : n = a.pre.length ∧ n = b.pre.length
  · rw [if_pos h1, if_pos h1, mergeChildren_eq (P := leftPar (leftPureVal f)) (r := r) ha.kids hb.kids (ga_some rfl ha.kids) (gb_none rfl)
      (agree_kids (a := a) (b := b) hrec ha hb hpos hla hlb)]
    simp [bindC, h1.1, leftPar]
  rw [if_neg h1, if_neg h1]
  by_cases h3 : n = a.pre.length
  · have hnb : n < b.pre.length := by omega
    have hk : Kids [b.shorten n] := Kids.single (hb.shorten n) (shorten_ne hnb)
    rw [if_pos h3, if_neg (by omega), if_pos h3, materializeShortened_eq hb hnb]
    simp only [bindC]
    rw [mergeChildren_eq (P := leftPar (leftPureVal f)) (r := r) ha.kids hk (ga_some rfl ha.kids) (gb_none rfl)
      (agree_kids_right (a := a) (b := b) hrec ha hb hnb hpos hla)]
    simp [h3, leftPar]
  rw [if_neg h3]
  have hna : n < a.pre.length := by omega
  have hka : Kids [a.shorten n] := Kids.single (ha.shorten n) (shorten_ne hna)
  by_cases h2 : n = b.pre.length
  · rw [if_pos h2, if_pos h2, materializeShortened_eq ha hna]
    simp only [bindC]
    rw [mergeChildren_eq (P := leftPar (leftPureVal f)) (r := r) hka hb.kids (ga_some rfl hka) (gb_none rfl) (agree_kids_left (a := a) (b := b) hrec ha hb hna hpos hlb)]
    simp [leftPar]
  · rw [if_neg h2, if_neg h2, if_neg h3, materializeKids_eq ha.kids]
    cases a
    rfl

theorem outerGo_eq {f : V → V → Option V} : ∀ fuel (a b : Tree K V), Valid a → Valid b → a.size + b.size < fuel →
    outerGo f fuel a b = .ret (ref (outerPar f) fuel a b) := by
  intro fuel
  induction fuel with
  | zero => intro a b _ _ h; omega
  | succ fuel ih =>
    intro a b ha hb hs
    rw [outerGo, outerCases_eq (r := ref (outerPar f) fuel) ha hb (fun x y h => ih x y h.left h.right (by have := h.size; omega))]
    rfl
theorem innerGo_eq {f : V → W → Option V} : ∀ fuel (a : Tree K V) (b : Tree K W), Valid a → Valid b → a.size + b.size < fuel →
    innerGo f fuel a b = .ret (ref (innerPar f) fuel a b) := by
  intro fuel
  induction fuel with
  | zero => intro a b _ _ h; omega
  | succ fuel ih =>
    intro a b ha hb hs
    rw [innerGo, innerCases_eq (r := ref (innerPar f) fuel) ha hb (fun x y h => ih x y h.left h.right (by have := h.size; omega))]
    rfl
theorem leftGo_eq {f : V → Option W → Option V} : ∀ fuel (a : Tree K V) (b : Tree K W), Valid a → Valid b → a.size + b.size < fuel →
    leftGo f fuel a b = .ret (ref (leftPar (leftPureVal f)) fuel a b) := by
  intro fuel
  induction fuel with
  | zero => intro a b _ _ h; omega
  | succ fuel ih =>
    intro a b ha hb hs
    rw [leftGo, leftCases_eq (r := ref (leftPar (leftPureVal f)) fuel) ha hb (fun x y h => ih x y h.left h.right (by have := h.size; omega))]
    rfl

end inplace
end Tree
end Verif
