import Verif.Lemmas.RadixFind
import Verif.Lemmas.VecSet
/-! `is_subset` and `intersects` of radix trees. -/
namespace Verif
namespace Tree
open Std

section
variable {K V W : Type _} [Ord K]

/-- emission of a boolean test -/
def testEmit (c : Call Bool) : Emit Unit :=
  match c with
  | .panic => ([], .panic)
  | .ret b => Emit.first (if b then some () else none)

theorem boolOp_implements (takeA : Bool) (rec : Tree K V → Tree K W → Call Bool) :
    Implements (boolOp takeA rec) (fun s => if s.r then [()] else []) (fun s => s.r = false)
      (fun _ => Emit.first (if takeA then some () else none)) (fun _ => Emit.first none) (fun x y => testEmit (rec x y)) where
  fromA s n hi h1 hn := by
    cases takeA with
    | true => exact (BoolMS.advSpec).aTake s n hi h1 hn
    | false =>
      have := (BoolMS.advSpec).aSkip s n hi h1 hn
      have e : ∀ l : List (Tree K V), collect (fun _ => (Emit.first none : Emit Unit)) l = ([], .cont) := by
        intro l
        induction l with
        | nil => rfl
        | cons x l ih => rw [collect, ih]; rfl
      simp only [Bool.false_eq_true, ↓reduceIte, e]
      exact this
  fromB s n hi h1 hn := by
    have := (BoolMS.advSpec).bSkip s n hi h1 hn
    have e : ∀ l : List (Tree K W), collect (fun _ => (Emit.first none : Emit Unit)) l = ([], .cont) := by
      intro l
      induction l with
      | nil => rfl
      | cons x l ih => rw [collect, ih]; rfl
    rw [e]
    exact this
  collision s x as y bs hi ha hb := by
    obtain ⟨sa, sb, sr⟩ := s
    simp only [MergeState.aSlice, MergeState.bSlice] at ha hb hi
    subst ha hb hi
    simp only [boolOp]
    cases h : rec x y with
    | panic => exact ⟨rfl, by simp [testEmit], by simp, by simp, fun _ => rfl⟩
    | ret b =>
      cases b with
      | true => exact ⟨rfl, by simp [testEmit, andThen, BoolMS.mut, Emit.first], by simp [andThen, BoolMS.mut], by simp [andThen, BoolMS.mut],
          by simp [andThen, BoolMS.mut]⟩
      | false =>
        refine ⟨rfl, ?_, ?_, ?_, ?_⟩ <;> simp [testEmit, andThen, BoolMS.mut, Emit.first, MergeState.aSlice, MergeState.bSlice]

theorem collect_first_flow {A R : Type _} (g : A → Option R) (l : List A) : (collect (fun a => Emit.first (g a)) l).2 ≠ .panic := by
  induction l with
  | nil => simp [collect]
  | cons x l ih =>
    rw [collect]
    cases g x with
    | some r => simp [Emit.first, Emit.seq]
    | none => simpa [Emit.first, Emit.seq] using ih

theorem joinRef_first_flow {A B R : Type _} {cmp : A → B → Ordering} {ga : A → Option R} {gb : B → Option R} {gc : A → B → Option R}
    (as : List A) (bs : List B) :
    (joinRef cmp (fun a => Emit.first (ga a)) (fun b => Emit.first (gb b)) (fun a b => Emit.first (gc a b)) as bs).2 ≠ .panic := by
  have step : ∀ (o : Option R) (e : Emit R), e.2 ≠ .panic → ((Emit.first o).seq e).2 ≠ .panic := by
    intro o e h
    cases o with
    | some r => simp [Emit.first, Emit.seq]
    | none => simpa [Emit.first, Emit.seq] using h
  fun_induction joinRef cmp (fun a => Emit.first (ga a)) (fun b => Emit.first (gb b)) (fun a b => Emit.first (gc a b)) as bs with
  | case1 bs => exact collect_first_flow _ _
  | case2 a as => exact collect_first_flow _ _
  | case3 a as b bs h ih => exact step _ _ ih
  | case4 a as b bs h ih => exact step _ _ ih
  | case5 a as b bs h ih => exact step _ _ ih

theorem filterMap_map' {A R S : Type _} (f : R → S) (g : A → Option R) (l : List A) :
    (l.filterMap g).map f = l.filterMap (fun a => (g a).map f) := by
  induction l with
  | nil => rfl
  | cons x l ih => simp only [List.filterMap_cons]; cases g x <;> simp [ih]

theorem joinList_map {A B R S : Type _} {cmp : A → B → Ordering} {ga : A → Option R} {gb : B → Option R} {gc : A → B → Option R} (f : R → S)
    (as : List A) (bs : List B) :
    (joinList cmp ga gb gc as bs).map f = joinList cmp (fun a => (ga a).map f) (fun b => (gb b).map f) (fun a b => (gc a b).map f) as bs := by
  fun_induction joinRef cmp (fun a => Emit.ret (ga a)) (fun b => Emit.ret (gb b)) (fun a b => Emit.ret (gc a b)) as bs with
  | case1 bs => rw [joinList_nil_left, joinList_nil_left]; exact filterMap_map' f _ _
  | case2 a as => rw [joinList_nil_right, joinList_nil_right]; exact filterMap_map' f _ _
  | case3 a as b bs h ih => rw [joinList_cons, joinList_cons, h]; simp only [List.map_append, ih]; cases ga a <;> simp
  | case4 a as b bs h ih => rw [joinList_cons, joinList_cons, h]; simp only [List.map_append, ih]; cases gb b <;> simp
  | case5 a as b bs h ih => rw [joinList_cons, joinList_cons, h]; simp only [List.map_append, ih]; cases gc a b <;> simp

variable [TransOrd K] [LawfulEqOrd K]

/-- result of the boolean merge of children -/
theorem mergeBool_eq {takeA : Bool} {rec : Tree K V → Tree K W → Call Bool} {g : Tree K V → Tree K W → Bool} {as : List (Tree K V)}
    {bs : List (Tree K W)} (ha : Kids as) (hb : Kids bs) (hrec : ∀ x ∈ as, ∀ y ∈ bs, hd x = hd y → rec x y = .ret (g x y)) :
    ∃ b, mergeBool (boolOp takeA rec) as bs = .ret b ∧
      (b = true ↔ ∃ c x, findBy hd as (some c) = some x ∧
        ((takeA = true ∧ findBy hd bs (some c) = none) ∨ ∃ y, findBy hd bs (some c) = some y ∧ g x y = true)) := by
  have S := BoolMS.merge_spec (boolOp_implements takeA rec) (ka := hd) (kb := hd) headCmp_eq ha.asc hb.asc
  let GA : Tree K V → Option (Tree K V) := fun x => if takeA then some x else none
  let GB : Tree K W → Option (Tree K V) := fun _ => none
  let GC : Tree K V → Tree K W → Option (Tree K V) := fun x y => if g x y then some x else none
  have e : joinRef headCmp (fun _ => Emit.first (if takeA then some () else none)) (fun _ => Emit.first none) (fun x y => testEmit (rec x y)) as bs =
      joinRef headCmp (fun x => Emit.first ((GA x).map (fun _ => ()))) (fun y => Emit.first ((GB y).map (fun _ => ())))
        (fun x y => Emit.first ((GC x y).map (fun _ => ()))) as bs := by
    apply joinRef_congr
    · intro x _; cases takeA <;> rfl
    · intro y _; rfl
    · intro x hx y hy hc
      rw [headCmp_eq] at hc
      rw [hrec x hx y hy (cmp_eq_iff.1 hc)]
      simp only [testEmit, GC]
      cases g x y <;> rfl
  have hop : (boolOp takeA rec).cmp = headCmp := rfl
  rw [hop, e] at S
  have hfl := joinRef_first_flow (cmp := headCmp) (ga := fun x => (GA x).map (fun _ => ())) (gb := fun y => (GB y).map (fun _ => ()))
    (gc := fun x y => (GC x y).map (fun _ => ())) as bs
  rw [← S.2] at hfl
  refine ⟨(BoolMS.merge as bs (boolOp takeA rec)).1, ?_, ?_⟩
  · unfold mergeBool
    rw [ha.headed, hb.headed]
    simp only [Bool.and_self, ↓reduceIte]
  · rw [S.1, joinRef_first, ← joinList_map (fun _ => ()) (ga := GA) (gb := GB) (gc := GC)]
    have hk : KeyOk (hd (K := K) (V := V)) (hd (K := K) (V := W)) (hd (K := K) (V := V)) GA GB GC as bs := by
      refine ⟨?_, ?_, ?_⟩
      · intro x _ r hr
        have : r = x := by simp only [GA] at hr; cases takeA <;> simp at hr; exact hr.symm
        rw [this]; exact cmp_self _
      · intro y _ r hr; cases hr
      · intro x _ y _ _ r hr
        have : r = x := by simp only [GC] at hr; cases h : g x y <;> simp [h] at hr; exact hr.symm
        rw [this]; exact cmp_self _
    have hf := findBy_joinList headCmp_eq as bs ha.asc hb.asc hk
    have hne : (!(List.take 1 ((joinList headCmp GA GB GC as bs).map (fun _ => ()))).isEmpty) = true ↔ joinList headCmp GA GB GC as bs ≠ [] := by
      cases joinList headCmp GA GB GC as bs <;> simp
    rw [hne, ascendingBy_ne_nil_iff (kr := hd)]
    constructor
    · rintro ⟨k, hk'⟩
      rw [hf] at hk'
      cases h1 : findBy hd as k with
      | none =>
        cases h2 : findBy hd bs k with
        | none => rw [h1, h2] at hk'; exact absurd rfl hk'
        | some y => rw [h1, h2] at hk'; exact absurd rfl hk'
      | some x =>
        have hx := findBy_some_mem h1
        obtain ⟨c, r, hp⟩ := head?_some_of_ne (ha.ne x hx.1)
        have hkc : k = some c := by
          have := cmp_eq_iff.1 hx.2
          rw [← this]; simp [hd, hp]
        subst hkc
        refine ⟨c, x, h1, ?_⟩
        cases h2 : findBy hd bs (some c) with
        | none =>
          rw [h1, h2] at hk'
          left
          refine ⟨?_, rfl⟩
          simp only [pointJoin, GA] at hk'
          cases takeA <;> simp at hk' ⊢
        | some y =>
          rw [h1, h2] at hk'
          right
          refine ⟨y, rfl, ?_⟩
          simp only [pointJoin, GC] at hk'
          cases hg : g x y <;> simp [hg] at hk' ⊢
    · rintro ⟨c, x, h1, h2 | ⟨y, h2, h3⟩⟩
      · refine ⟨some c, ?_⟩
        rw [hf, h1, h2.2]
        simp [pointJoin, GA, h2.1]
      · refine ⟨some c, ?_⟩
        rw [hf, h1, h2]
        simp [pointJoin, GC, h3]

omit [Ord K] [TransOrd K] [LawfulEqOrd K] in
theorem anyC_eq {α : Type _} {p : α → Call Bool} {g : α → Bool} {l : List α} (h : ∀ x ∈ l, p x = .ret (g x)) : anyC p l = .ret (l.any g) := by
  induction l with
  | nil => rfl
  | cons x l ih =>
    rw [anyC, h x (by simp)]
    cases hg : g x with
    | true => simp [hg]
    | false => simp [hg, ih (fun y hy => h y (by simp [hy]))]
omit [Ord K] [TransOrd K] [LawfulEqOrd K] in
theorem allC_eq {α : Type _} {p : α → Call Bool} {g : α → Bool} {l : List α} (h : ∀ x ∈ l, p x = .ret (g x)) : allC p l = .ret (l.all g) := by
  induction l with
  | nil => rfl
  | cons x l ih =>
    rw [allC, h x (by simp)]
    cases hg : g x with
    | false => simp [hg]
    | true => simp [hg, ih (fun y hy => h y (by simp [hy]))]

variable [DecidableEq K]

theorem Full.has : ∀ n (t : Tree K V), t.size ≤ n → Valid t → Full t → ∃ k, (den t k).isSome = true := by
  intro n
  induction n with
  | zero => intro t hs; rw [size_eq] at hs; omega
  | succ n ih =>
    intro t hs hv hf
    cases h : t.val with
    | some v => exact ⟨t.pre, by rw [den_at, h]; rfl⟩
    | none =>
      have h2 := (full_iff.1 hf).1 h
      cases hk : t.kids with
      | nil => rw [hk] at h2; simp at h2
      | cons x ks =>
        have hx : x ∈ t.kids := by rw [hk]; simp
        obtain ⟨k, he⟩ := ih x (by have := kid_size hx; omega) (hv.kids.valid x hx) ((full_iff.1 hf).2 x hx)
        obtain ⟨v, he⟩ := Option.isSome_iff_exists.1 he
        have e := (den_iff_entry (hv.kids.valid x hx) k v).1 he
        refine ⟨t.pre ++ k, ?_⟩
        have : Entry t (t.pre ++ k) v := by
          obtain ⟨p, w, ks⟩ := t
          exact .there hx e
        rw [(den_iff_entry hv _ _).2 this]; rfl

/-- keys of a child start with its head -/
theorem den_head {t : Tree K V} {k : List K} (hp : t.pre ≠ []) (h : (den t k).isSome = true) : ∃ c s, k = c :: s ∧ hd t = some c := by
  cases k with
  | nil =>
    rw [den_out t []] at h
    · cases h
    · intro r e
      obtain ⟨c, s, hc⟩ := head?_some_of_ne hp
      rw [hc] at e
      cases e
  | cons c s =>
    refine ⟨c, s, rfl, ?_⟩
    apply Classical.byContradiction
    intro hn
    rw [den_ne_prefix hp hn] at h
    cases h

theorem findBy_hd_of_mem {ks : List (Tree K V)} (h : Kids ks) {x : Tree K V} (hx : x ∈ ks) {c : K} (hc : hd x = some c) :
    findBy hd ks (some c) = some x := h.asc.findBy_eq_some.2 ⟨hx, by rw [hc]; exact cmp_self _⟩

/-- a pointwise relation between two trees with the same prefix -/
theorem node_all {Q : Option V → Option W → Prop} (hQ : Q none none) {a : Tree K V} {b : Tree K W} (h : a.pre = b.pre) :
    (∀ k, Q (den a k) (den b k)) ↔ Q a.val b.val ∧ ∀ c s, Q (denL a.kids (c :: s)) (denL b.kids (c :: s)) := by
  constructor
  · intro H
    refine ⟨?_, ?_⟩
    · have := H a.pre
      rw [den_at, h, den_at] at this
      exact this
    · intro c s
      have := H (a.pre ++ c :: s)
      rw [den_below, h, den_below] at this
      exact this
  · rintro ⟨H1, H2⟩ k
    by_cases hk : ∃ r, k = a.pre ++ r
    · obtain ⟨r, rfl⟩ := hk
      cases r with
      | nil => rw [List.append_nil, den_at, h, den_at]; exact H1
      | cons c s => rw [den_below, h, den_below]; exact H2 c s
    · have hk' : ∀ r, k ≠ a.pre ++ r := fun r e => hk ⟨r, e⟩
      rw [den_out a k hk', den_out b k (by rw [← h]; exact hk')]
      exact hQ

/-- splitting a tree does not change what it stores -/
theorem split_den {a : Tree K V} {n : Nat} (hn : n < a.pre.length) (k : List K) : den a k = den ⟨a.pre.take n, none, [a.shorten n]⟩ k := by
  by_cases hk : ∃ r, k = a.pre.take n ++ r
  · obtain ⟨r, rfl⟩ := hk
    cases r with
    | nil =>
      rw [List.append_nil, den_at ⟨a.pre.take n, none, [a.shorten n]⟩, den_out a]
      intro s e
      have := congrArg List.length e
      simp at this
      omega
    | cons c s =>
      rw [den_below ⟨a.pre.take n, none, [a.shorten n]⟩ c s]
      simp only [denL, Option.or_none]
      rw [shorten_den a n (by omega)]
  · rw [den_out ⟨a.pre.take n, none, [a.shorten n]⟩ k (fun r e => hk ⟨r, e⟩), den_out a k]
    intro r e
    apply hk
    exact ⟨a.pre.drop n ++ r, by rw [e, ← List.append_assoc, List.take_append_drop]⟩

/-! ### intersects -/

/-- no key in common -/
def Apart (a : Tree K V) (b : Tree K W) : Prop := ∀ k, ¬((den a k).isSome = true ∧ (den b k).isSome = true)

theorem kids_apart {as : List (Tree K V)} {bs : List (Tree K W)} (ha : Kids as) (hb : Kids bs) :
    (∀ c s, ¬((denL as (c :: s)).isSome = true ∧ (denL bs (c :: s)).isSome = true)) ↔
      ∀ x ∈ as, ∀ y ∈ bs, Apart x y := by
  constructor
  · rintro H x hx y hy k ⟨h1, h2⟩
    obtain ⟨c, s, rfl, hc⟩ := den_head (ha.ne x hx) h1
    obtain ⟨c', s', e, hc'⟩ := den_head (hb.ne y hy) h2
    simp at e
    obtain ⟨rfl, rfl⟩ := e
    apply H c s
    rw [denL_eq ha, denL_eq hb, findBy_hd_of_mem ha hx hc, findBy_hd_of_mem hb hy hc']
    exact ⟨h1, h2⟩
  · rintro H c s ⟨h1, h2⟩
    rw [denL_eq ha] at h1
    rw [denL_eq hb] at h2
    cases hx : findBy hd as (some c) with
    | none => rw [hx] at h1; cases h1
    | some x =>
      cases hy : findBy hd bs (some c) with
      | none => rw [hy] at h2; cases h2
      | some y =>
        rw [hx] at h1
        rw [hy] at h2
        exact H x (findBy_hd_mem hx).1 y (findBy_hd_mem hy).1 (c :: s) ⟨h1, h2⟩

omit [TransOrd K] [LawfulEqOrd K] in
/-- the prefix fields of the arguments are not looked at -/
theorem intersectsGo_congr : ∀ (fuel : Nat) {l l' : Tree K V} (lp : List K) {r r' : Tree K W} (rp : List K), l.val = l'.val → l.kids = l'.kids →
    r.val = r'.val → r.kids = r'.kids → intersectsGo fuel l lp r rp = intersectsGo fuel l' lp r' rp := by
  intro fuel
  induction fuel with
  | zero => intros; rfl
  | succ fuel ih =>
    intro l l' lp r r' rp h1 h2 h3 h4
    rw [intersectsGo, intersectsGo, h1, h2, h3, h4]
    have e1 : (fun lc : Tree K V => intersectsGo fuel lc lc.pre r (rp.drop (commonPrefix lp rp))) =
        (fun lc => intersectsGo fuel lc lc.pre r' (rp.drop (commonPrefix lp rp))) := by
      funext lc; exact ih _ _ rfl rfl h3 h4
    have e2 : (fun rc : Tree K W => intersectsGo fuel l (lp.drop (commonPrefix lp rp)) rc rc.pre) =
        (fun rc => intersectsGo fuel l' (lp.drop (commonPrefix lp rp)) rc rc.pre) := by
      funext rc; exact ih _ _ h1 h2 rfl rfl
    rw [e1, e2]

theorem intersects_spec : ∀ fuel (l : Tree K V) (r : Tree K W), Valid l → Valid r → l.size + r.size < fuel →
    ∃ b, intersectsGo fuel l l.pre r r.pre = .ret b ∧ (b = false ↔ Apart l r) := by
  intro fuel
  induction fuel with
  | zero => intro l r _ _ h; omega
  | succ fuel ih =>
    intro l r hl hr hs
    -- a total version of the recursive call
    have hg : ∃ g : Tree K V → Tree K W → Bool, ∀ x y, Valid x → Valid y → x.size + y.size < fuel →
        intersectsGo fuel x x.pre y y.pre = .ret (g x y) ∧ (g x y = false ↔ Apart x y) := by
      refine ⟨fun x y => match intersectsGo fuel x x.pre y y.pre with | .ret b => b | .panic => false, ?_⟩
      intro x y hx hy h
      obtain ⟨b, h1, h2⟩ := ih x y hx hy h
      simp only [h1]
      exact ⟨trivial, h2⟩
    obtain ⟨g, hg⟩ := hg
    have hla := commonPrefix_le_left l.pre r.pre
    have hlb := commonPrefix_le_right l.pre r.pre
    have htk := commonPrefix_take l.pre r.pre
    have hdf := commonPrefix_differ l.pre r.pre
    rw [intersectsGo]
    revert hla hlb htk hdf
    generalize commonPrefix l.pre r.pre = n
    intro hla hlb htk hdf
    by_cases h1 : n = l.pre.length ∧ n = r.pre.length
    · rw [if_pos h1]
      have hpre : l.pre = r.pre := by
        rw [h1.2, List.take_length, ← h1.2, h1.1, List.take_length] at htk
        exact htk
      obtain ⟨b, hb1, hb2⟩ := mergeBool_eq (takeA := false) (g := g) hl.kids hr.kids (fun x hx y hy _ =>
        (hg x y (hl.kids.valid x hx) (hr.kids.valid y hy) (by have := kid_size hx; have := kid_size hy; omega)).1)
      rw [hb1]
      have hA : Apart l r ↔ ¬(l.val.isSome = true ∧ r.val.isSome = true) ∧ ∀ x ∈ l.kids, ∀ y ∈ r.kids, Apart x y := by
        rw [← kids_apart hl.kids hr.kids]
        exact node_all (Q := fun x y => ¬(x.isSome = true ∧ y.isSome = true)) (by simp) hpre
      have hK : b = false ↔ ∀ x ∈ l.kids, ∀ y ∈ r.kids, Apart x y := by
        rw [← Bool.not_eq_true, hb2]
        constructor
        · intro H x hx y hy k hk
          apply H
          obtain ⟨c, s, rfl, hc⟩ := den_head (hl.kids.ne x hx) hk.1
          obtain ⟨c', s', e, hc'⟩ := den_head (hr.kids.ne y hy) hk.2
          simp at e
          obtain ⟨rfl, rfl⟩ := e
          refine ⟨c, x, findBy_hd_of_mem hl.kids hx hc, .inr ⟨y, findBy_hd_of_mem hr.kids hy hc', ?_⟩⟩
          have := (hg x y (hl.kids.valid x hx) (hr.kids.valid y hy) (by have := kid_size hx; have := kid_size hy; omega)).2
          cases hgx : g x y with
          | true => rfl
          | false => exact absurd hk (this.1 hgx (c :: s))
        · rintro H ⟨c, x, hx, h | ⟨y, hy, h⟩⟩
          · cases h.1
          · have hx := (findBy_hd_mem hx).1
            have hy := (findBy_hd_mem hy).1
            have := (hg x y (hl.kids.valid x hx) (hr.kids.valid y hy) (by have := kid_size hx; have := kid_size hy; omega)).2
            rw [this.2 (H x hx y hy)] at h
            cases h
      rw [hA, ← hK]
      unfold orC
      cases hv : (l.val.isSome && r.val.isSome) with
      | true =>
        refine ⟨true, rfl, ?_⟩
        simp at hv
        simp [hv]
      | false =>
        refine ⟨b, rfl, ?_⟩
        simp at hv
        simp
        intro _ h
        simpa using hv h
    rw [if_neg h1]
    by_cases h2 : n = l.pre.length
    · rw [if_pos h2]
      have hnb : n < r.pre.length := by omega
      have hpre : l.pre = r.pre.take n := by rw [← htk, h2, List.take_length]
      have hkr : Kids [r.shorten n] := Kids.single (hr.shorten n) (shorten_ne hnb)
      have hgx : ∀ x ∈ l.kids, intersectsGo fuel x x.pre r (r.pre.drop n) = .ret (g x (r.shorten n)) ∧ (g x (r.shorten n) = false ↔ Apart x (r.shorten n)) := by
        intro x hx
        have h := hg x (r.shorten n) (hl.kids.valid x hx) (hr.shorten n) (by have := kid_size hx; have := size_shorten r n (by omega); omega)
        exact ⟨(intersectsGo_congr fuel (l := x) (l' := x) _ (r := r) (r' := r.shorten n) _ rfl rfl rfl rfl).trans h.1, h.2⟩
      rw [anyC_eq (fun x hx => (hgx x hx).1)]
      refine ⟨_, rfl, ?_⟩
      have hA : Apart l r ↔ ∀ x ∈ l.kids, ∀ y ∈ [r.shorten n], Apart x y := by
        rw [← kids_apart hl.kids hkr]
        have := node_all (Q := fun x y => ¬(x.isSome = true ∧ y.isSome = true)) (a := l) (b := ⟨r.pre.take n, none, [r.shorten n]⟩) (by simp) hpre
        simp only [Option.isSome_none, Bool.false_eq_true, and_false, not_false_eq_true, true_and] at this
        rw [← this]
        simp only [Apart, split_den hnb]
      rw [hA, List.any_eq_false]
      constructor
      · intro H x hx y hy
        simp at hy; subst hy
        exact (hgx x hx).2.1 (by simpa using H x hx)
      · intro H x hx
        simp [(hgx x hx).2.2 (H x hx _ (by simp))]
    rw [if_neg h2]
    have hna : n < l.pre.length := by omega
    by_cases h3 : n = r.pre.length
    · rw [if_pos h3]
      have hpre : l.pre.take n = r.pre := by rw [htk, h3, List.take_length]
      have hkl : Kids [l.shorten n] := Kids.single (hl.shorten n) (shorten_ne hna)
      have hgx : ∀ y ∈ r.kids, intersectsGo fuel l (l.pre.drop n) y y.pre = .ret (g (l.shorten n) y) ∧ (g (l.shorten n) y = false ↔ Apart (l.shorten n) y) := by
        intro y hy
        have h := hg (l.shorten n) y (hl.shorten n) (hr.kids.valid y hy) (by have := kid_size hy; have := size_shorten l n (by omega); omega)
        exact ⟨(intersectsGo_congr fuel (l := l) (l' := l.shorten n) _ (r := y) (r' := y) _ rfl rfl rfl rfl).trans h.1, h.2⟩
      rw [anyC_eq (fun x hx => (hgx x hx).1)]
      refine ⟨_, rfl, ?_⟩
      have hA : Apart l r ↔ ∀ x ∈ [l.shorten n], ∀ y ∈ r.kids, Apart x y := by
        rw [← kids_apart hkl hr.kids]
        have := node_all (Q := fun x y => ¬(x.isSome = true ∧ y.isSome = true)) (a := ⟨l.pre.take n, none, [l.shorten n]⟩) (b := r) (by simp) hpre
        simp only [Option.isSome_none, Bool.false_eq_true, false_and, not_false_eq_true, true_and] at this
        rw [← this]
        simp only [Apart, split_den hna]
      rw [hA, List.any_eq_false]
      constructor
      · intro H x hx y hy
        simp at hx; subst hx
        exact (hgx y hy).2.1 (by simpa using H y hy)
      · intro H y hy
        simp [(hgx y hy).2.2 (H _ (by simp) y hy)]
    rw [if_neg h3]
    refine ⟨false, rfl, ?_⟩
    have hnb : n < r.pre.length := by omega
    have hkl : Kids [l.shorten n] := Kids.single (hl.shorten n) (shorten_ne hna)
    have hkr : Kids [r.shorten n] := Kids.single (hr.shorten n) (shorten_ne hnb)
    have hA : Apart l r ↔ ∀ x ∈ [l.shorten n], ∀ y ∈ [r.shorten n], Apart x y := by
      rw [← kids_apart hkl hkr]
      have := node_all (Q := fun x y => ¬(x.isSome = true ∧ y.isSome = true)) (a := ⟨l.pre.take n, none, [l.shorten n]⟩)
        (b := ⟨r.pre.take n, none, [r.shorten n]⟩) (by simp) htk
      simp only [Option.isSome_none, Bool.false_eq_true, false_and, not_false_eq_true, true_and] at this
      rw [← this]
      simp only [Apart, split_den hna, split_den hnb]
    simp only [true_iff]
    rw [hA]
    intro x hx y hy k hk
    simp at hx hy
    subst hx hy
    obtain ⟨c, s, rfl, hc⟩ := den_head (shorten_ne hna) hk.1
    obtain ⟨c', s', e, hc'⟩ := den_head (shorten_ne hnb) hk.2
    simp at e
    obtain ⟨rfl, rfl⟩ := e
    exact hdf hna hnb (by rw [show (l.pre.drop n).head? = some c from hc, show (r.pre.drop n).head? = some c from hc'])

/-! ### is_subset -/

/-- every key of `a` is a key of `b` -/
def Within (a : Tree K V) (b : Tree K W) : Prop := ∀ k, (den a k).isSome = true → (den b k).isSome = true

theorem kids_within {as : List (Tree K V)} {bs : List (Tree K W)} (ha : Kids as) (hb : Kids bs) :
    (∀ c s, (denL as (c :: s)).isSome = true → (denL bs (c :: s)).isSome = true) ↔
      ∀ x ∈ as, ∀ k, (den x k).isSome = true → ∃ y ∈ bs, (den y k).isSome = true := by
  constructor
  · intro H x hx k hk
    obtain ⟨c, s, rfl, hc⟩ := den_head (ha.ne x hx) hk
    have := H c s (by rw [denL_eq ha, findBy_hd_of_mem ha hx hc]; exact hk)
    rw [denL_eq hb] at this
    cases hy : findBy hd bs (some c) with
    | none => rw [hy] at this; cases this
    | some y => rw [hy] at this; exact ⟨y, (findBy_hd_mem hy).1, this⟩
  · intro H c s h1
    rw [denL_eq ha] at h1
    cases hx : findBy hd as (some c) with
    | none => rw [hx] at h1; cases h1
    | some x =>
      rw [hx] at h1
      obtain ⟨y, hy, h2⟩ := H x (findBy_hd_mem hx).1 (c :: s) h1
      obtain ⟨c', s', e, hc'⟩ := den_head (hb.ne y hy) h2
      simp at e
      obtain ⟨rfl, rfl⟩ := e
      rw [denL_eq hb, findBy_hd_of_mem hb hy hc']
      exact h2

omit [TransOrd K] [LawfulEqOrd K] in
theorem isSubsetGo_congr : ∀ (fuel : Nat) {l l' : Tree K V} (lp : List K) {r r' : Tree K W} (rp : List K), l.val = l'.val → l.kids = l'.kids →
    r.val = r'.val → r.kids = r'.kids → isSubsetGo fuel l lp r rp = isSubsetGo fuel l' lp r' rp := by
  intro fuel
  induction fuel with
  | zero => intros; rfl
  | succ fuel ih =>
    intro l l' lp r r' rp h1 h2 h3 h4
    rw [isSubsetGo, isSubsetGo, h1, h2, h3, h4]
    have e1 : (fun lc : Tree K V => isSubsetGo fuel lc lc.pre r (rp.drop (commonPrefix lp rp))) =
        (fun lc => isSubsetGo fuel lc lc.pre r' (rp.drop (commonPrefix lp rp))) := by
      funext lc; exact ih _ _ rfl rfl h3 h4
    have e2 : (fun rc : Tree K W => isSubsetGo fuel l (lp.drop (commonPrefix lp rp)) rc rc.pre) =
        (fun rc => isSubsetGo fuel l' (lp.drop (commonPrefix lp rp)) rc rc.pre) := by
      funext rc; exact ih _ _ h1 h2 rfl rfl
    rw [e1, e2]

theorem isSubset_spec : ∀ fuel (l : Tree K V) (r : Tree K W), Valid l → Valid r → (∀ c ∈ l.kids, Full c) → (l.pre ≠ [] → Full l) →
    l.size + r.size < fuel → ∃ b, isSubsetGo fuel l l.pre r r.pre = .ret b ∧ (b = true ↔ Within l r) := by
  intro fuel
  induction fuel with
  | zero => intro l r _ _ _ _ h; omega
  | succ fuel ih =>
    intro l r hl hr hfk hfl hs
    have hg : ∃ g : Tree K V → Tree K W → Bool, ∀ x y, Valid x → Valid y → Full x → x.size + y.size < fuel →
        isSubsetGo fuel x x.pre y y.pre = .ret (g x y) ∧ (g x y = true ↔ Within x y) := by
      refine ⟨fun x y => match isSubsetGo fuel x x.pre y y.pre with | .ret b => b | .panic => false, ?_⟩
      intro x y hx hy hf h
      obtain ⟨b, h1, h2⟩ := ih x y hx hy (full_iff.1 hf).2 (fun _ => hf) h
      simp only [h1]
      exact ⟨trivial, h2⟩
    obtain ⟨g, hg⟩ := hg
    have hla := commonPrefix_le_left l.pre r.pre
    have hlb := commonPrefix_le_right l.pre r.pre
    have htk := commonPrefix_take l.pre r.pre
    have hdf := commonPrefix_differ l.pre r.pre
    rw [isSubsetGo]
    revert hla hlb htk hdf
    generalize commonPrefix l.pre r.pre = n
    intro hla hlb htk hdf
    by_cases h1 : n = l.pre.length ∧ n = r.pre.length
    · rw [if_pos h1]
      have hpre : l.pre = r.pre := by
        rw [h1.2, List.take_length, ← h1.2, h1.1, List.take_length] at htk
        exact htk
      have hgk : ∀ x ∈ l.kids, ∀ y ∈ r.kids, isSubsetGo fuel x x.pre y y.pre = .ret (g x y) ∧ (g x y = true ↔ Within x y) := fun x hx y hy =>
        hg x y (hl.kids.valid x hx) (hr.kids.valid y hy) (hfk x hx) (by have := kid_size hx; have := kid_size hy; omega)
      obtain ⟨b, hb1, hb2⟩ := mergeBool_eq (takeA := true) (rec := fun x y => notC (isSubsetGo fuel x x.pre y y.pre)) (g := fun x y => !g x y)
        hl.kids hr.kids (fun x hx y hy _ => by rw [(hgk x hx y hy).1]; rfl)
      rw [hb1]
      have hA : Within l r ↔ (l.val.isSome = true → r.val.isSome = true) ∧
          ∀ x ∈ l.kids, ∀ k, (den x k).isSome = true → ∃ y ∈ r.kids, (den y k).isSome = true := by
        rw [← kids_within hl.kids hr.kids]
        exact node_all (Q := fun x y => x.isSome = true → y.isSome = true) (by simp) hpre
      have hK : b = false ↔ ∀ x ∈ l.kids, ∀ k, (den x k).isSome = true → ∃ y ∈ r.kids, (den y k).isSome = true := by
        rw [← Bool.not_eq_true, hb2]
        constructor
        · intro H x hx k hk
          obtain ⟨c, s, rfl, hc⟩ := den_head (hl.kids.ne x hx) hk
          have hfx := findBy_hd_of_mem hl.kids hx hc
          cases hy : findBy hd r.kids (some c) with
          | none => exact absurd ⟨c, x, hfx, .inl ⟨rfl, hy⟩⟩ H
          | some y =>
            have hym := (findBy_hd_mem hy).1
            refine ⟨y, hym, ?_⟩
            cases hgx : g x y with
            | true => exact (hgk x hx y hym).2.1 hgx _ hk
            | false => exact absurd ⟨c, x, hfx, .inr ⟨y, hy, by simp [hgx]⟩⟩ H
        · rintro H ⟨c, x, hx, h | ⟨y, hy, h⟩⟩
          · have hxm := findBy_hd_mem hx
            obtain ⟨k, hk⟩ := Full.has _ x (Nat.le_refl _) (hl.kids.valid x hxm.1) (hfk x hxm.1)
            obtain ⟨y, hy, hk2⟩ := H x hxm.1 k hk
            obtain ⟨c1, s1, rfl, hc1⟩ := den_head (hl.kids.ne x hxm.1) hk
            obtain ⟨c2, s2, e, hc2⟩ := den_head (hr.kids.ne y hy) hk2
            simp at e
            obtain ⟨rfl, rfl⟩ := e
            have : c = c1 := by
              have := hxm.2.symm.trans hc1
              simpa using this
            subst this
            rw [findBy_hd_of_mem hr.kids hy hc2] at h
            cases h.2
          · have hxm := findBy_hd_mem hx
            have hym := findBy_hd_mem hy
            have hw : Within x y := by
              intro k hk
              obtain ⟨y', hy', hk2⟩ := H x hxm.1 k hk
              obtain ⟨c1, s1, rfl, hc1⟩ := den_head (hl.kids.ne x hxm.1) hk
              obtain ⟨c2, s2, e, hc2⟩ := den_head (hr.kids.ne y' hy') hk2
              simp at e
              obtain ⟨rfl, rfl⟩ := e
              have : c = c1 := by
                have := hxm.2.symm.trans hc1
                simpa using this
              subst this
              have := findBy_hd_of_mem hr.kids hy' hc2
              rw [hy] at this
              cases this
              exact hk2
            rw [(hgk x hxm.1 y hym.1).2.2 hw] at h
            cases h
      rw [hA, ← hK]
      unfold andC notC
      cases hv : (l.val.isNone || r.val.isSome) with
      | false =>
        refine ⟨false, rfl, ?_⟩
        simp at hv
        simp [hv]
      | true =>
        refine ⟨!b, rfl, ?_⟩
        simp at hv
        cases hlv : l.val with
        | none => simp
        | some v => simp [hlv] at hv; simp [hv]
    rw [if_neg h1]
    by_cases h2 : n = l.pre.length
    · rw [if_pos h2]
      have hnb : n < r.pre.length := by omega
      have hpre : l.pre = r.pre.take n := by rw [← htk, h2, List.take_length]
      have hkr : Kids [r.shorten n] := Kids.single (hr.shorten n) (shorten_ne hnb)
      have hgx : ∀ x ∈ l.kids, isSubsetGo fuel x x.pre r (r.pre.drop n) = .ret (g x (r.shorten n)) ∧ (g x (r.shorten n) = true ↔ Within x (r.shorten n)) := by
        intro x hx
        have h := hg x (r.shorten n) (hl.kids.valid x hx) (hr.shorten n) (hfk x hx)
          (by have := kid_size hx; have := size_shorten r n (by omega); omega)
        exact ⟨(isSubsetGo_congr fuel (l := x) (l' := x) _ (r := r) (r' := r.shorten n) _ rfl rfl rfl rfl).trans h.1, h.2⟩
      rw [allC_eq (fun x hx => (hgx x hx).1)]
      have hA : Within l r ↔ (l.val.isSome = true → False) ∧ ∀ x ∈ l.kids, Within x (r.shorten n) := by
        have e2 : (∀ x ∈ l.kids, Within x (r.shorten n)) ↔
            ∀ x ∈ l.kids, ∀ k, (den x k).isSome = true → ∃ y ∈ [r.shorten n], (den y k).isSome = true := by simp [Within]
        rw [e2, ← kids_within hl.kids hkr]
        have := node_all (Q := fun x y => x.isSome = true → y.isSome = true) (a := l) (b := ⟨r.pre.take n, none, [r.shorten n]⟩) (by simp) hpre
        simp only [Option.isSome_none, Bool.false_eq_true] at this
        rw [← this]
        simp only [Within, split_den hnb]
      rw [hA]
      unfold andC
      have hK : (l.kids.all fun x => g x (r.shorten n)) = true ↔ ∀ x ∈ l.kids, Within x (r.shorten n) := by
        rw [List.all_eq_true]
        exact ⟨fun H x hx => (hgx x hx).2.1 (H x hx), fun H x hx => (hgx x hx).2.2 (H x hx)⟩
      cases hv : l.val with
      | none => exact ⟨_, rfl, by rw [hK]; simp⟩
      | some v => exact ⟨false, rfl, by simp⟩
    rw [if_neg h2]
    have hna : n < l.pre.length := by omega
    have hf : Full l := hfl (by intro e; rw [e] at hna; simp at hna)
    have hfs : Full (l.shorten n) := hf.setPre _
    by_cases h3 : n = r.pre.length
    · rw [if_pos h3]
      have hpre : l.pre.take n = r.pre := by rw [htk, h3, List.take_length]
      have hkl : Kids [l.shorten n] := Kids.single (hl.shorten n) (shorten_ne hna)
      have hgx : ∀ y ∈ r.kids, isSubsetGo fuel l (l.pre.drop n) y y.pre = .ret (g (l.shorten n) y) ∧ (g (l.shorten n) y = true ↔ Within (l.shorten n) y) := by
        intro y hy
        have h := hg (l.shorten n) y (hl.shorten n) (hr.kids.valid y hy) hfs (by have := kid_size hy; have := size_shorten l n (by omega); omega)
        exact ⟨(isSubsetGo_congr fuel (l := l) (l' := l.shorten n) _ (r := y) (r' := y) _ rfl rfl rfl rfl).trans h.1, h.2⟩
      rw [anyC_eq (fun x hx => (hgx x hx).1)]
      refine ⟨_, rfl, ?_⟩
      have hA : Within l r ↔ ∀ x ∈ [l.shorten n], ∀ k, (den x k).isSome = true → ∃ y ∈ r.kids, (den y k).isSome = true := by
        rw [← kids_within hkl hr.kids]
        have := node_all (Q := fun x y => x.isSome = true → y.isSome = true) (a := ⟨l.pre.take n, none, [l.shorten n]⟩) (b := r) (by simp) hpre
        simp only [Option.isSome_none, Bool.false_eq_true, false_implies, true_and] at this
        rw [← this]
        simp only [Within, split_den hna]
      rw [hA, List.any_eq_true]
      constructor
      · rintro ⟨y, hy, hgy⟩ x hx k hk
        simp at hx; subst hx
        exact ⟨y, hy, (hgx y hy).2.1 hgy k hk⟩
      · intro H
        have H := H _ (List.mem_singleton.2 rfl)
        obtain ⟨k, hk⟩ := Full.has _ (l.shorten n) (Nat.le_refl _) (hl.shorten n) hfs
        obtain ⟨y, hy, hk2⟩ := H k hk
        refine ⟨y, hy, (hgx y hy).2.2 ?_⟩
        intro k' hk'
        obtain ⟨y', hy', hk2'⟩ := H k' hk'
        obtain ⟨c1, s1, rfl, hc1⟩ := den_head (shorten_ne hna) hk
        obtain ⟨c2, s2, rfl, hc2⟩ := den_head (shorten_ne hna) hk'
        obtain ⟨c3, s3, e3, hc3⟩ := den_head (hr.kids.ne y hy) hk2
        obtain ⟨c4, s4, e4, hc4⟩ := den_head (hr.kids.ne y' hy') hk2'
        simp at e3 e4
        obtain ⟨rfl, rfl⟩ := e3
        obtain ⟨rfl, rfl⟩ := e4
        have e : some c1 = some c2 := hc1.symm.trans hc2
        have := findBy_hd_of_mem hr.kids hy hc3
        rw [e, findBy_hd_of_mem hr.kids hy' hc4] at this
        cases this
        exact hk2'
    rw [if_neg h3]
    refine ⟨false, rfl, ?_⟩
    have hnb : n < r.pre.length := by omega
    simp only [Bool.false_eq_true, false_iff]
    intro H
    obtain ⟨k, hk⟩ := Full.has _ l (Nat.le_refl _) hl hf
    have hk2 := H k hk
    rw [split_den hna] at hk
    rw [split_den hnb] at hk2
    have hex : ∃ c s, k = l.pre.take n ++ c :: s ∧ (l.pre.drop n).head? = some c := by
      by_cases he : ∃ r, k = l.pre.take n ++ r
      · obtain ⟨q, rfl⟩ := he
        cases q with
        | nil => rw [List.append_nil, den_at ⟨l.pre.take n, none, [l.shorten n]⟩] at hk; cases hk
        | cons c s =>
          rw [den_below ⟨l.pre.take n, none, [l.shorten n]⟩ c s] at hk
          simp only [denL, Option.or_none] at hk
          obtain ⟨c', s', e, hc⟩ := den_head (shorten_ne hna) hk
          simp at e
          obtain ⟨rfl, rfl⟩ := e
          exact ⟨c, s, rfl, hc⟩
      · rw [den_out ⟨l.pre.take n, none, [l.shorten n]⟩ k (fun r e => he ⟨r, e⟩)] at hk; cases hk
    obtain ⟨c, s, rfl, hc⟩ := hex
    rw [htk, den_below ⟨r.pre.take n, none, [r.shorten n]⟩ c s] at hk2
    simp only [denL, Option.or_none] at hk2
    obtain ⟨c', s', e, hc'⟩ := den_head (shorten_ne hnb) hk2
    simp at e
    obtain ⟨rfl, rfl⟩ := e
    exact hdf hna hnb (by rw [hc, show (r.pre.drop n).head? = some c from hc'])

/-- On valid trees that need not be canonical the test does not panic and "yes" is reliable. -/
theorem isSubset_sound : ∀ fuel (l : Tree K V) (r : Tree K W), Valid l → Valid r →
    l.size + r.size < fuel → ∃ b, isSubsetGo fuel l l.pre r r.pre = .ret b ∧ (b = true → Within l r) := by
  intro fuel
  induction fuel with
  | zero => intro l r _ _ h; omega
  | succ fuel ih =>
    intro l r hl hr hs
    have hg : ∃ g : Tree K V → Tree K W → Bool, ∀ x y, Valid x → Valid y → x.size + y.size < fuel →
        isSubsetGo fuel x x.pre y y.pre = .ret (g x y) ∧ (g x y = true → Within x y) := by
      refine ⟨fun x y => match isSubsetGo fuel x x.pre y y.pre with | .ret b => b | .panic => false, ?_⟩
      intro x y hx hy h
      obtain ⟨b, h1, h2⟩ := ih x y hx hy h
      simp only [h1]
      exact ⟨trivial, h2⟩
    obtain ⟨g, hg⟩ := hg
    have hla := commonPrefix_le_left l.pre r.pre
    have hlb := commonPrefix_le_right l.pre r.pre
    have htk := commonPrefix_take l.pre r.pre
    rw [isSubsetGo]
    revert hla hlb htk
    generalize commonPrefix l.pre r.pre = n
    intro hla hlb htk
    by_cases h1 : n = l.pre.length ∧ n = r.pre.length
    · rw [if_pos h1]
      have hpre : l.pre = r.pre := by
        rw [h1.2, List.take_length, ← h1.2, h1.1, List.take_length] at htk
        exact htk
      have hgk : ∀ x ∈ l.kids, ∀ y ∈ r.kids, isSubsetGo fuel x x.pre y y.pre = .ret (g x y) ∧ (g x y = true → Within x y) := fun x hx y hy =>
        hg x y (hl.kids.valid x hx) (hr.kids.valid y hy) (by have := kid_size hx; have := kid_size hy; omega)
      obtain ⟨b, hb1, hb2⟩ := mergeBool_eq (takeA := true) (rec := fun x y => notC (isSubsetGo fuel x x.pre y y.pre)) (g := fun x y => !g x y)
        hl.kids hr.kids (fun x hx y hy _ => by rw [(hgk x hx y hy).1]; rfl)
      rw [hb1]
      have hA : Within l r ↔ (l.val.isSome = true → r.val.isSome = true) ∧
          ∀ x ∈ l.kids, ∀ k, (den x k).isSome = true → ∃ y ∈ r.kids, (den y k).isSome = true := by
        rw [← kids_within hl.kids hr.kids]
        exact node_all (Q := fun x y => x.isSome = true → y.isSome = true) (by simp) hpre
      have hK : b = false → ∀ x ∈ l.kids, ∀ k, (den x k).isSome = true → ∃ y ∈ r.kids, (den y k).isSome = true := by
        rw [← Bool.not_eq_true, hb2]
        intro H x hx k hk
        obtain ⟨c, s, rfl, hc⟩ := den_head (hl.kids.ne x hx) hk
        have hfx := findBy_hd_of_mem hl.kids hx hc
        cases hy : findBy hd r.kids (some c) with
        | none => exact absurd ⟨c, x, hfx, .inl ⟨rfl, hy⟩⟩ H
        | some y =>
          have hym := (findBy_hd_mem hy).1
          refine ⟨y, hym, ?_⟩
          cases hgx : g x y with
          | true => exact (hgk x hx y hym).2 hgx _ hk
          | false => exact absurd ⟨c, x, hfx, .inr ⟨y, hy, by simp [hgx]⟩⟩ H
      rw [hA]
      unfold andC notC
      cases hv : (l.val.isNone || r.val.isSome) with
      | false => exact ⟨false, rfl, fun h => by cases h⟩
      | true =>
        refine ⟨!b, rfl, fun h => ⟨?_, hK (by simpa using h)⟩⟩
        simp at hv
        cases hlv : l.val with
        | none => simp
        | some v => simp [hlv] at hv; simp [hv]
    rw [if_neg h1]
    by_cases h2 : n = l.pre.length
    · rw [if_pos h2]
      have hnb : n < r.pre.length := by omega
      have hpre : l.pre = r.pre.take n := by rw [← htk, h2, List.take_length]
      have hkr : Kids [r.shorten n] := Kids.single (hr.shorten n) (shorten_ne hnb)
      have hgx : ∀ x ∈ l.kids, isSubsetGo fuel x x.pre r (r.pre.drop n) = .ret (g x (r.shorten n)) ∧ (g x (r.shorten n) = true → Within x (r.shorten n)) := by
        intro x hx
        have h := hg x (r.shorten n) (hl.kids.valid x hx) (hr.shorten n)
          (by have := kid_size hx; have := size_shorten r n (by omega); omega)
        exact ⟨(isSubsetGo_congr fuel (l := x) (l' := x) _ (r := r) (r' := r.shorten n) _ rfl rfl rfl rfl).trans h.1, h.2⟩
      rw [allC_eq (fun x hx => (hgx x hx).1)]
      have hA : Within l r ↔ (l.val.isSome = true → False) ∧ ∀ x ∈ l.kids, Within x (r.shorten n) := by
        have e2 : (∀ x ∈ l.kids, Within x (r.shorten n)) ↔
            ∀ x ∈ l.kids, ∀ k, (den x k).isSome = true → ∃ y ∈ [r.shorten n], (den y k).isSome = true := by simp [Within]
        rw [e2, ← kids_within hl.kids hkr]
        have := node_all (Q := fun x y => x.isSome = true → y.isSome = true) (a := l) (b := ⟨r.pre.take n, none, [r.shorten n]⟩) (by simp) hpre
        simp only [Option.isSome_none, Bool.false_eq_true] at this
        rw [← this]
        simp only [Within, split_den hnb]
      rw [hA]
      unfold andC
      cases hv : l.val with
      | none =>
        refine ⟨_, rfl, fun H => ⟨by simp, fun x hx => (hgx x hx).2 ?_⟩⟩
        rw [List.all_eq_true] at H
        exact H x hx
      | some v => exact ⟨false, rfl, by simp⟩
    rw [if_neg h2]
    have hna : n < l.pre.length := by omega
    by_cases h3 : n = r.pre.length
    · rw [if_pos h3]
      have hpre : l.pre.take n = r.pre := by rw [htk, h3, List.take_length]
      have hkl : Kids [l.shorten n] := Kids.single (hl.shorten n) (shorten_ne hna)
      have hgx : ∀ y ∈ r.kids, isSubsetGo fuel l (l.pre.drop n) y y.pre = .ret (g (l.shorten n) y) ∧ (g (l.shorten n) y = true → Within (l.shorten n) y) := by
        intro y hy
        have h := hg (l.shorten n) y (hl.shorten n) (hr.kids.valid y hy) (by have := kid_size hy; have := size_shorten l n (by omega); omega)
        exact ⟨(isSubsetGo_congr fuel (l := l) (l' := l.shorten n) _ (r := y) (r' := y) _ rfl rfl rfl rfl).trans h.1, h.2⟩
      rw [anyC_eq (fun x hx => (hgx x hx).1)]
      refine ⟨_, rfl, ?_⟩
      have hA : Within l r ↔ ∀ x ∈ [l.shorten n], ∀ k, (den x k).isSome = true → ∃ y ∈ r.kids, (den y k).isSome = true := by
        rw [← kids_within hkl hr.kids]
        have := node_all (Q := fun x y => x.isSome = true → y.isSome = true) (a := ⟨l.pre.take n, none, [l.shorten n]⟩) (b := r) (by simp) hpre
        simp only [Option.isSome_none, Bool.false_eq_true, false_implies, true_and] at this
        rw [← this]
        simp only [Within, split_den hna]
      rw [hA, List.any_eq_true]
      rintro ⟨y, hy, hgy⟩ x hx k hk
      simp at hx; subst hx
      exact ⟨y, hy, (hgx y hy).2 hgy k hk⟩
    rw [if_neg h3]
    exact ⟨false, rfl, fun h => by cases h⟩

end
end Tree
end Verif
