import Verif.Lemmas.SharedRead
import Verif.Lemmas.SharedPure
import Verif.Lemmas.RadixBool
/-! `is_subset` and `intersects` on the heap compute what `Model/RadixTree.lean` says. -/
namespace Verif
namespace Tree
open Std
section
variable {K V W : Type _} [Ord K]

/-- what the boolean merge of children computes -/
def joinAny (takeA : Bool) (g : Tree K V → Tree K W → Bool) (as : List (Tree K V)) (bs : List (Tree K W)) : Bool :=
  !(joinList headCmp (fun _ => if takeA then some () else none) (fun _ => none) (fun x y => if g x y then some () else none) as bs).isEmpty

/-- the answer of a call that does not panic -/
def out : Call Bool → Bool
  | .ret b => b
  | .panic => false

theorem out_of_ret {c : Call Bool} (h : ∃ b, c = .ret b) : c = .ret (out c) := by
  obtain ⟨b, rfl⟩ := h; rfl

variable [TransOrd K] [LawfulEqOrd K]

theorem mergeBool_lin {takeA : Bool} {rec : Tree K V → Tree K W → Call Bool} {g : Tree K V → Tree K W → Bool} {as : List (Tree K V)}
    {bs : List (Tree K W)} (ha : Kids as) (hb : Kids bs) (hrec : ∀ x ∈ as, ∀ y ∈ bs, hd x = hd y → rec x y = .ret (g x y)) :
    mergeBool (boolOp takeA rec) as bs = .ret (joinAny takeA g as bs) := by
  have S := BoolMS.merge_spec (boolOp_implements takeA rec) (ka := hd) (kb := hd) headCmp_eq ha.asc hb.asc
  have e : joinRef headCmp (fun _ => Emit.first (if takeA then some () else none)) (fun _ => Emit.first none) (fun x y => testEmit (rec x y)) as bs =
      joinRef headCmp (fun _ => Emit.first (if takeA then some () else none)) (fun _ => Emit.first none)
        (fun x y => Emit.first (if g x y then some () else none)) as bs := by
    apply joinRef_congr
    · intro x _; rfl
    · intro y _; rfl
    · intro x hx y hy hc
      rw [headCmp_eq] at hc
      rw [hrec x hx y hy (cmp_eq_iff.1 hc)]
      rfl
  have hop : (boolOp takeA rec).cmp = headCmp := rfl
  rw [hop, e] at S
  have hfl := joinRef_first_flow (cmp := headCmp) (ga := fun _ : Tree K V => if takeA then some () else none) (gb := fun _ : Tree K W => none)
    (gc := fun x y => if g x y then some () else none) as bs
  rw [← S.2] at hfl
  unfold mergeBool
  rw [ha.headed, hb.headed]
  simp only [Bool.and_self, ↓reduceIte]
  rw [S.1, joinRef_first]
  unfold joinAny
  cases joinList headCmp (fun _ : Tree K V => if takeA then some () else none) (fun _ : Tree K W => none) (fun x y => if g x y then some () else none) as bs <;> simp
end
end Tree

namespace Shared
open Std
open Verif.Tree (Valid joinAny out commonPrefix kid_size size_shorten)
section
variable {K V : Type _} {ts : Vars K V}

theorem anyP_ok {p : Loc → Act K V Bool} {g : Tree K V → Bool} : ∀ (ls : List Loc) (as : List (Tree K V)), Sees ts ls as →
    (∀ l a, a ∈ as → ts.at l = some a → Looks (p l) ts (g a)) → Looks (anyP p ls) ts (as.any g)
  | [], [], _, _ => .pure _
  | [], _ :: _, h, _ => by simp [Sees] at h
  | _ :: _, [], h, _ => by simp [Sees] at h
  | l :: ls, a :: as, h, hp => by
    obtain ⟨h1, h2⟩ := h.cons
    refine (hp l a (by simp) h1).bind ?_
    cases hg : g a with
    | true => simp only [List.any_cons, hg, Bool.true_or]; exact .pure _
    | false =>
      simp only [List.any_cons, hg, Bool.false_or]
      exact anyP_ok ls as h2 (fun l b hb => hp l b (by simp [hb]))

theorem allP_ok {p : Loc → Act K V Bool} {g : Tree K V → Bool} : ∀ (ls : List Loc) (as : List (Tree K V)), Sees ts ls as →
    (∀ l a, a ∈ as → ts.at l = some a → Looks (p l) ts (g a)) → Looks (allP p ls) ts (as.all g)
  | [], [], _, _ => .pure _
  | [], _ :: _, h, _ => by simp [Sees] at h
  | _ :: _, [], h, _ => by simp [Sees] at h
  | l :: ls, a :: as, h, hp => by
    obtain ⟨h1, h2⟩ := h.cons
    refine (hp l a (by simp) h1).bind ?_
    cases hg : g a with
    | false => simp only [List.all_cons, hg, Bool.false_and]; exact .pure _
    | true =>
      simp only [List.all_cons, hg, Bool.true_and]
      exact allP_ok ls as h2 (fun l b hb => hp l b (by simp [hb]))

variable [Ord K]

theorem mergeBoolP_ok {takeA : Bool} {rec : Loc → Loc → Act K V Bool} {g : Tree K V → Tree K V → Bool} :
    ∀ (s : Nat) (as bs : List (Tree K V)) (ls rs : List Loc), as.length + bs.length ≤ s → Sees ts ls as → Sees ts rs bs →
    (∀ a ∈ as, ∀ b ∈ bs, ∀ l r, ts.at l = some a → ts.at r = some b → Looks (rec l r) ts (g a b)) →
    Looks (mergeBoolP takeA rec s ls rs) ts (joinAny takeA g as bs)
  | s, [], bs, ls, rs, hs, ha, hb, hr => by
    have hl0 : ls = [] := by simpa [Sees] using ha
    subst hl0
    have e : mergeBoolP takeA rec s [] rs = pure false := by cases s <;> rfl
    have e2 : joinAny takeA g [] bs = false := by
      rw [joinAny, joinList_nil_left, show bs.filterMap (fun _ => (none : Option Unit)) = [] by simp]; rfl
    rw [e, e2]
    exact .pure _
  | s, a :: as, [], ls, rs, hs, ha, hb, hr => by
    have hr0 : rs = [] := by simpa [Sees] using hb
    subst hr0
    cases ls with
    | nil => simp [Sees] at ha
    | cons l ls =>
      have e : mergeBoolP takeA rec s (l :: ls) [] = pure takeA := by cases s <;> rfl
      have e2 : joinAny takeA g (a :: as) [] = takeA := by rw [joinAny, joinList_nil_right]; cases takeA <;> simp
      rw [e, e2]
      exact .pure _
  | 0, _ :: _, _ :: _, _, _, hs, _, _, _ => by simp at hs
  | s + 1, a :: as, b :: bs, [], _, _, ha, _, _ => by simp [Sees] at ha
  | s + 1, a :: as, b :: bs, _ :: _, [], _, _, hb, _ => by simp [Sees] at hb
  | s + 1, a :: as, b :: bs, l :: ls, r :: rs, hs, ha, hb, hr => by
    obtain ⟨a1, a2⟩ := ha.cons
    obtain ⟨b1, b2⟩ := hb.cons
    simp only [List.length_cons] at hs
    have hcmp : compare a.pre.head? b.pre.head? = Tree.headCmp a b := rfl
    rw [mergeBoolP, joinAny, joinList_cons]
    refine .andThen a1 (.andThen b1 ?_)
    simp only [hcmp]
    cases hc : Tree.headCmp a b with
    | lt =>
      have ih := mergeBoolP_ok (takeA := takeA) s as (b :: bs) ls (r :: rs) (by simp only [List.length_cons]; omega) a2 hb
        (fun x hx y hy => hr x (by simp [hx]) y hy)
      cases takeA with
      | true => exact .pure _
      | false => exact ih
    | gt =>
      exact mergeBoolP_ok (takeA := takeA) s (a :: as) bs (l :: ls) rs (by simp only [List.length_cons]; omega) ha b2
        (fun x hx y hy => hr x hx y (by simp [hy]))
    | eq =>
      have ih := mergeBoolP_ok (takeA := takeA) s as bs ls rs (by omega) a2 b2 (fun x hx y hy => hr x (by simp [hx]) y (by simp [hy]))
      refine (hr a (by simp) b (by simp) l r a1 b1).bind ?_
      cases hg : g a b with
      | true => simp only [↓reduceIte]; exact .pure _
      | false => simp only [Bool.false_eq_true, ↓reduceIte]; exact ih

variable [TransOrd K] [LawfulEqOrd K] [DecidableEq K]

theorem intersectsGoP_ok (n : Nat) : ∀ (fuel : Nat) (T S a b : Tree K V) (l r : Loc), ts.at l = some a → ts.at r = some b →
    a.val = T.val → a.kids = T.kids → b.val = S.val → b.kids = S.kids → Valid T → Valid S → T.size + S.size < fuel →
    Looks (intersectsGoP (fuel + n) l T.pre r S.pre) ts (out (Tree.intersectsGo fuel T T.pre S S.pre))
  | 0, _, _, _, _, _, _, _, _, _, _, _, _, _, _, h => by omega
  | fuel + 1, T, S, a, b, l, r, hl, hr, av, ak, bv, bk, hT, hS, hs => by
    have tot : ∀ x y : Tree K V, Valid x → Valid y → x.size + y.size < fuel →
        Tree.intersectsGo fuel x x.pre y y.pre = .ret (out (Tree.intersectsGo fuel x x.pre y y.pre)) := fun x y hx hy h => by
      obtain ⟨b, h1, -⟩ := Tree.intersects_spec fuel x y hx hy h
      exact Tree.out_of_ret ⟨b, h1⟩
    have hla := Tree.commonPrefix_le_left T.pre S.pre
    have hlb := Tree.commonPrefix_le_right T.pre S.pre
    rw [show fuel + 1 + n = (fuel + n) + 1 by omega, intersectsGoP, Tree.intersectsGo]
    revert hla hlb
    generalize commonPrefix T.pre S.pre = c
    intro hla hlb
    have ksa : Sees ts (l.allKids a.kids.length) T.kids := by have := Sees.allKids hl; rwa [ak] at this ⊢
    have ksb : Sees ts (r.allKids b.kids.length) S.kids := by have := Sees.allKids hr; rwa [bk] at this ⊢
    by_cases h1 : c = T.pre.length ∧ c = S.pre.length
    · rw [if_pos h1, if_pos h1]
      refine .andThen hl (.andThen hr ?_)
      simp only [av, bv]
      rw [Tree.mergeBool_lin (g := fun x y => out (Tree.intersectsGo fuel x x.pre y y.pre)) hT.kids hS.kids (fun x hx y hy _ =>
        tot x y (hT.kids.valid x hx) (hS.kids.valid y hy) (by have := kid_size hx; have := kid_size hy; omega))]
      cases hv : (T.val.isSome && S.val.isSome) with
      | true => exact .pure _
      | false =>
        simp only [Bool.false_eq_true, ↓reduceIte, Tree.orC]
        refine mergeBoolP_ok _ _ _ _ _ (by rw [ak, bk]; omega) ksa ksb ?_
        intro x hx y hy l' r' hl' hr'
        refine .andThen hl' (.andThen hr' ?_)
        exact intersectsGoP_ok n fuel x y x y l' r' hl' hr' rfl rfl rfl rfl (hT.kids.valid x hx) (hS.kids.valid y hy)
          (by have := kid_size hx; have := kid_size hy; omega)
    rw [if_neg h1, if_neg h1]
    by_cases h2 : c = T.pre.length
    · rw [if_pos h2, if_pos h2]
      refine .andThen hl ?_
      have hsz := size_shorten S c hlb
      have e : ∀ x ∈ T.kids, Tree.intersectsGo fuel x x.pre S (S.pre.drop c) =
          .ret (out (Tree.intersectsGo fuel x x.pre (S.shorten c) (S.pre.drop c))) := fun x hx => by
        rw [Tree.intersectsGo_congr fuel (l := x) (l' := x) _ (r := S) (r' := S.shorten c) _ rfl rfl rfl rfl]
        exact tot x (S.shorten c) (hT.kids.valid x hx) (hS.shorten c) (by have := kid_size hx; omega)
      rw [Tree.anyC_eq e]
      refine anyP_ok _ _ ksa ?_
      intro l' x hx hl'
      refine .andThen hl' ?_
      exact intersectsGoP_ok n fuel x (S.shorten c) x b l' r hl' hr rfl rfl bv bk (hT.kids.valid x hx) (hS.shorten c) (by have := kid_size hx; omega)
    rw [if_neg h2, if_neg h2]
    by_cases h3 : c = S.pre.length
    · rw [if_pos h3, if_pos h3]
      refine .andThen hr ?_
      have hsz := size_shorten T c hla
      have e : ∀ y ∈ S.kids, Tree.intersectsGo fuel T (T.pre.drop c) y y.pre =
          .ret (out (Tree.intersectsGo fuel (T.shorten c) (T.pre.drop c) y y.pre)) := fun y hy => by
        rw [Tree.intersectsGo_congr fuel (l := T) (l' := T.shorten c) _ (r := y) (r' := y) _ rfl rfl rfl rfl]
        exact tot (T.shorten c) y (hT.shorten c) (hS.kids.valid y hy) (by have := kid_size hy; omega)
      rw [Tree.anyC_eq e]
      refine anyP_ok _ _ ksb ?_
      intro r' y hy hr'
      refine .andThen hr' ?_
      exact intersectsGoP_ok n fuel (T.shorten c) y a y l r' hl hr' av ak rfl rfl (hT.shorten c) (hS.kids.valid y hy) (by have := kid_size hy; omega)
    rw [if_neg h3, if_neg h3]
    exact .pure _

theorem isSubsetGoP_ok (n : Nat) : ∀ (fuel : Nat) (T S a b : Tree K V) (l r : Loc), ts.at l = some a → ts.at r = some b →
    a.val = T.val → a.kids = T.kids → b.val = S.val → b.kids = S.kids → Valid T → Valid S → T.size + S.size < fuel →
    Looks (isSubsetGoP (fuel + n) l T.pre r S.pre) ts (out (Tree.isSubsetGo fuel T T.pre S S.pre))
  | 0, _, _, _, _, _, _, _, _, _, _, _, _, _, _, h => by omega
  | fuel + 1, T, S, a, b, l, r, hl, hr, av, ak, bv, bk, hT, hS, hs => by
    have tot : ∀ x y : Tree K V, Valid x → Valid y → x.size + y.size < fuel →
        Tree.isSubsetGo fuel x x.pre y y.pre = .ret (out (Tree.isSubsetGo fuel x x.pre y y.pre)) := fun x y hx hy h => by
      obtain ⟨b, h1, -⟩ := Tree.isSubset_sound fuel x y hx hy h
      exact Tree.out_of_ret ⟨b, h1⟩
    have hla := Tree.commonPrefix_le_left T.pre S.pre
    have hlb := Tree.commonPrefix_le_right T.pre S.pre
    rw [show fuel + 1 + n = (fuel + n) + 1 by omega, isSubsetGoP, Tree.isSubsetGo]
    revert hla hlb
    generalize commonPrefix T.pre S.pre = c
    intro hla hlb
    have ksa : Sees ts (l.allKids a.kids.length) T.kids := by have := Sees.allKids hl; rwa [ak] at this ⊢
    have ksb : Sees ts (r.allKids b.kids.length) S.kids := by have := Sees.allKids hr; rwa [bk] at this ⊢
    by_cases h1 : c = T.pre.length ∧ c = S.pre.length
    · rw [if_pos h1, if_pos h1]
      refine .andThen hl (.andThen hr ?_)
      simp only [av, bv]
      rw [Tree.mergeBool_lin (g := fun x y => !out (Tree.isSubsetGo fuel x x.pre y y.pre)) hT.kids hS.kids (fun x hx y hy _ => by
        rw [tot x y (hT.kids.valid x hx) (hS.kids.valid y hy) (by have := kid_size hx; have := kid_size hy; omega)]; rfl)]
      cases hv : (T.val.isNone || S.val.isSome) with
      | false => exact .pure _
      | true =>
        simp only [↓reduceIte, Tree.andC]
        refine Looks.bind (mergeBoolP_ok (g := fun x y => !out (Tree.isSubsetGo fuel x x.pre y y.pre)) _ T.kids S.kids _ _
          (by rw [ak, bk]; omega) ksa ksb ?_) (.pure _)
        intro x hx y hy l' r' hl' hr'
        refine .andThen hl' (.andThen hr' (.bind ?_ (.pure _)))
        exact isSubsetGoP_ok n fuel x y x y l' r' hl' hr' rfl rfl rfl rfl (hT.kids.valid x hx) (hS.kids.valid y hy)
          (by have := kid_size hx; have := kid_size hy; omega)
    rw [if_neg h1, if_neg h1]
    by_cases h2 : c = T.pre.length
    · rw [if_pos h2, if_pos h2]
      refine .andThen hl ?_
      have hsz := size_shorten S c hlb
      have e : ∀ x ∈ T.kids, Tree.isSubsetGo fuel x x.pre S (S.pre.drop c) =
          .ret (out (Tree.isSubsetGo fuel x x.pre (S.shorten c) (S.pre.drop c))) := fun x hx => by
        rw [Tree.isSubsetGo_congr fuel (l := x) (l' := x) _ (r := S) (r' := S.shorten c) _ rfl rfl rfl rfl]
        exact tot x (S.shorten c) (hT.kids.valid x hx) (hS.shorten c) (by have := kid_size hx; omega)
      rw [Tree.allC_eq e]
      simp only [av]
      cases hv : T.val.isNone with
      | false => exact .pure _
      | true =>
        simp only [↓reduceIte, Tree.andC]
        refine allP_ok _ _ ksa ?_
        intro l' x hx hl'
        refine .andThen hl' ?_
        exact isSubsetGoP_ok n fuel x (S.shorten c) x b l' r hl' hr rfl rfl bv bk (hT.kids.valid x hx) (hS.shorten c) (by have := kid_size hx; omega)
    rw [if_neg h2, if_neg h2]
    by_cases h3 : c = S.pre.length
    · rw [if_pos h3, if_pos h3]
      refine .andThen hr ?_
      have hsz := size_shorten T c hla
      have e : ∀ y ∈ S.kids, Tree.isSubsetGo fuel T (T.pre.drop c) y y.pre =
          .ret (out (Tree.isSubsetGo fuel (T.shorten c) (T.pre.drop c) y y.pre)) := fun y hy => by
        rw [Tree.isSubsetGo_congr fuel (l := T) (l' := T.shorten c) _ (r := y) (r' := y) _ rfl rfl rfl rfl]
        exact tot (T.shorten c) y (hT.shorten c) (hS.kids.valid y hy) (by have := kid_size hy; omega)
      rw [Tree.anyC_eq e]
      refine anyP_ok _ _ ksb ?_
      intro r' y hy hr'
      refine .andThen hr' ?_
      exact isSubsetGoP_ok n fuel (T.shorten c) y a y l r' hl hr' av ak rfl rfl (hT.shorten c) (hS.kids.valid y hy) (by have := kid_size hy; omega)
    rw [if_neg h3, if_neg h3]
    exact .pure _

theorem intersects_run {a b : Tree K V} {l r : Loc} {fuel : Nat} {o : Bool} (hl : ts.at l = some a) (hr : ts.at r = some b) (ha : Valid a) (hb : Valid b)
    (hf : a.size + b.size < fuel) (h : a.intersects b = .ret o) : Looks (intersectsP fuel l r) ts o := by
  refine .andThen hl (.andThen hr ?_)
  have := intersectsGoP_ok (ts := ts) (fuel - (a.size + b.size + 1)) (a.size + b.size + 1) a b a b l r hl hr rfl rfl rfl rfl ha hb (by omega)
  rw [show a.size + b.size + 1 + (fuel - (a.size + b.size + 1)) = fuel by omega] at this
  unfold Tree.intersects at h
  rwa [h] at this

theorem isSubset_run {a b : Tree K V} {l r : Loc} {fuel : Nat} {o : Bool} (hl : ts.at l = some a) (hr : ts.at r = some b) (ha : Valid a) (hb : Valid b)
    (hf : a.size + b.size < fuel) (h : a.isSubset b = .ret o) : Looks (isSubsetP fuel l r) ts o := by
  refine .andThen hl (.andThen hr ?_)
  have := isSubsetGoP_ok (ts := ts) (fuel - (a.size + b.size + 1)) (a.size + b.size + 1) a b a b l r hl hr rfl rfl rfl rfl ha hb (by omega)
  rw [show a.size + b.size + 1 + (fuel - (a.size + b.size + 1)) = fuel by omega] at this
  unfold Tree.isSubset at h
  rwa [h] at this

end
end Shared
end Verif
