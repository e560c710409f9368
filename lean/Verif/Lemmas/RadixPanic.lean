import Verif.Lemmas.RadixSem
import Verif.Lemmas.RadixMisc
import Verif.Spec.RadixPanic
/-! In-place combinations whose closure panics. -/
namespace Verif
open Std

section
variable {A B R : Type _} {cmp : A → B → Ordering} {ga : A → Option R} {gb : B → Option R} {gc : A → B → Option R}
  {κ : Type _} [Ord κ] [TransOrd κ] {ka : A → κ} {kb : B → κ} {kr : R → κ}

/-- the merge stopped at the pair `x`, `y`, whose callback panicked: `out` is what was built, `rest` what is missing -/
structure CutList (cmp : A → B → Ordering) (ka : A → κ) (kr : R → κ) (fc : A → B → Emit R) (gc : A → B → Option R) (as : List A) (bs : List B)
    (x : A) (y : B) (out rest : List R) : Prop where
  mx : x ∈ as
  my : y ∈ bs
  eq : cmp x y = .eq
  pan : fc x y = ([], .panic)
  before : ∀ a ∈ as, ∀ b ∈ bs, cmp a b = .eq → compare (ka a) (ka x) = .lt → fc a b = Emit.ret (gc a b)
  out : ∀ c ∈ out, compare (kr c) (ka x) = .lt
  rest : ∀ c ∈ rest, compare (kr c) (ka x) ≠ .lt

theorem Emit.seq_cont {o : Option R} {e : Emit R} {l : List R} (h : e = (l, .cont)) : (Emit.ret o).seq e = (o.toList ++ l, .cont) := by
  rw [seq_ret, h]

/-- a merge whose callbacks for pairs may panic -/
theorem joinRef_cut {fa : A → Emit R} {fb : B → Emit R} {fc : A → B → Emit R} (hcmp : ∀ a b, cmp a b = compare (ka a) (kb b)) (as : List A)
    (bs : List B) (sa : AscendingBy ka as) (sb : AscendingBy kb bs) (hk : KeyOk ka kb kr ga gb gc as bs)
    (ha : ∀ a ∈ as, fa a = Emit.ret (ga a)) (hb : ∀ b ∈ bs, fb b = Emit.ret (gb b))
    (hc : ∀ a ∈ as, ∀ b ∈ bs, cmp a b = .eq → fc a b = Emit.ret (gc a b) ∨ fc a b = ([], .panic)) :
    (joinRef cmp fa fb fc as bs = (joinList cmp ga gb gc as bs, .cont) ∧ ∀ a ∈ as, ∀ b ∈ bs, cmp a b = .eq → fc a b = Emit.ret (gc a b)) ∨
      ∃ x y out rest, joinRef cmp fa fb fc as bs = (out, .panic) ∧ joinList cmp ga gb gc as bs = out ++ rest ∧
        CutList cmp ka kr fc gc as bs x y out rest := by
  fun_induction joinRef cmp fa fb fc as bs with
  | case1 bs => rw [joinList_nil_left, collect_congr hb, collect_ret]; exact .inl ⟨rfl, by simp⟩
  | case2 a as => rw [joinList_nil_right, collect_congr ha, collect_ret]; exact .inl ⟨rfl, by simp⟩
  | case3 a as b bs h ih =>
    have sa' := ascendingBy_cons.1 sa
    have sb' := ascendingBy_cons.1 sb
    have no : ∀ b' ∈ b :: bs, cmp a b' ≠ .eq := by
      intro b' hb' he
      rw [hcmp] at h he
      rcases List.mem_cons.1 hb' with rfl | hb'
      · rw [h] at he; cases he
      · rw [cmp_lt_trans h (sb'.1 b' hb')] at he; cases he
    rw [joinList_cons, h, ha a (by simp)]
    rcases ih sa'.2 sb (hk.mono (by simp +contextual) (fun _ h => h)) (fun x hx => ha x (by simp [hx])) hb
      (fun x hx => hc x (by simp [hx])) with ⟨h1, h2⟩ | ⟨x, y, out, rest, h1, h2, h3⟩
    · refine .inl ⟨Emit.seq_cont h1, ?_⟩
      intro a' ha' b' hb' he
      rcases List.mem_cons.1 ha' with rfl | ha'
      · exact absurd he (no b' hb')
      · exact h2 a' ha' b' hb' he
    · refine .inr ⟨x, y, (ga a).toList ++ out, rest, by rw [seq_ret, h1], by simp [h2], by simp [h3.mx], h3.my, h3.eq, h3.pan, ?_, ?_, h3.rest⟩
      · intro a' ha' b' hb' he hl
        rcases List.mem_cons.1 ha' with rfl | ha'
        · exact absurd he (no b' hb')
        · exact h3.before a' ha' b' hb' he hl
      · intro c hc
        rcases List.mem_append.1 hc with hc | hc
        · rw [Option.mem_toList] at hc
          exact cmp_lt_of_eq_of_lt (hk.a a (by simp) c hc) (sa'.1 x h3.mx)
        · exact h3.out c hc
  | case4 a as b bs h ih =>
    have sa' := ascendingBy_cons.1 sa
    have sb' := ascendingBy_cons.1 sb
    have lt : ∀ a' ∈ a :: as, compare (kb b) (ka a') = .lt := by
      intro a' ha'
      rw [hcmp, cmp_gt_iff] at h
      rcases List.mem_cons.1 ha' with rfl | ha'
      · exact h
      · exact cmp_lt_trans h (sa'.1 a' ha')
    have no : ∀ a' ∈ a :: as, cmp a' b ≠ .eq := by
      intro a' ha' he
      rw [hcmp] at he
      have := lt a' ha'
      rw [cmp_symm he] at this; cases this
    rw [joinList_cons, h, hb b (by simp)]
    rcases ih sa sb'.2 (hk.mono (fun _ h => h) (by simp +contextual)) ha (fun x hx => hb x (by simp [hx]))
      (fun x hx y hy => hc x hx y (by simp [hy])) with ⟨h1, h2⟩ | ⟨x, y, out, rest, h1, h2, h3⟩
    · refine .inl ⟨Emit.seq_cont h1, ?_⟩
      intro a' ha' b' hb' he
      rcases List.mem_cons.1 hb' with rfl | hb'
      · exact absurd he (no a' ha')
      · exact h2 a' ha' b' hb' he
    · refine .inr ⟨x, y, (gb b).toList ++ out, rest, by rw [seq_ret, h1], by simp [h2], h3.mx, by simp [h3.my], h3.eq, h3.pan, ?_, ?_, h3.rest⟩
      · intro a' ha' b' hb' he hl
        rcases List.mem_cons.1 hb' with rfl | hb'
        · exact absurd he (no a' ha')
        · exact h3.before a' ha' b' hb' he hl
      · intro c hc
        rcases List.mem_append.1 hc with hc | hc
        · rw [Option.mem_toList] at hc
          exact cmp_lt_of_eq_of_lt (hk.b b (by simp) c hc) (lt x h3.mx)
        · exact h3.out c hc
  | case5 a as b bs h ih =>
    have sa' := ascendingBy_cons.1 sa
    have sb' := ascendingBy_cons.1 sb
    have he0 : compare (ka a) (kb b) = .eq := by rw [← hcmp]; exact h
    have no1 : ∀ b' ∈ bs, cmp a b' ≠ .eq := by
      intro b' hb' he
      rw [hcmp, cmp_lt_of_eq_of_lt he0 (sb'.1 b' hb')] at he; cases he
    have no2 : ∀ a' ∈ as, cmp a' b ≠ .eq := by
      intro a' ha' he
      rw [hcmp] at he
      have := cmp_lt_of_lt_of_eq (sa'.1 a' ha') he
      rw [he0] at this; cases this
    rcases hc a (by simp) b (by simp) h with hp | hp
    · rw [joinList_cons, h, hp]
      have all : ∀ {P : A → B → Prop}, P a b → (∀ a' ∈ as, ∀ b' ∈ bs, cmp a' b' = .eq → P a' b') →
          ∀ a' ∈ a :: as, ∀ b' ∈ b :: bs, cmp a' b' = .eq → P a' b' := by
        intro P h1 h2 a' ha' b' hb' he
        rcases List.mem_cons.1 ha' with rfl | ha'
        · rcases List.mem_cons.1 hb' with rfl | hb'
          · exact h1
          · exact absurd he (no1 b' hb')
        · rcases List.mem_cons.1 hb' with rfl | hb'
          · exact absurd he (no2 a' ha')
          · exact h2 a' ha' b' hb' he
      rcases ih sa'.2 sb'.2 (hk.mono (by simp +contextual) (by simp +contextual)) (fun x hx => ha x (by simp [hx]))
        (fun x hx => hb x (by simp [hx])) (fun x hx y hy => hc x (by simp [hx]) y (by simp [hy])) with ⟨h1, h2⟩ | ⟨x, y, out, rest, h1, h2, h3⟩
      · exact .inl ⟨Emit.seq_cont h1, all hp h2⟩
      · refine .inr ⟨x, y, (gc a b).toList ++ out, rest, by rw [seq_ret, h1], by simp [h2], by simp [h3.mx], by simp [h3.my], h3.eq, h3.pan, ?_, ?_,
          h3.rest⟩
        · exact all (fun _ => hp) h3.before
        · intro c hc
          rcases List.mem_append.1 hc with hc | hc
          · rw [Option.mem_toList] at hc
            exact cmp_lt_of_eq_of_lt (hk.c a (by simp) b (by simp) he0 c hc) (sa'.1 x h3.mx)
          · exact h3.out c hc
    · refine .inr ⟨a, b, [], joinList cmp ga gb gc (a :: as) (b :: bs), by rw [hp]; rfl, rfl, by simp, by simp, h, hp, ?_, by simp, ?_⟩
      · intro a' ha' b' hb' he hl
        rcases List.mem_cons.1 ha' with rfl | ha'
        · rw [cmp_self] at hl; cases hl
        · have := cmp_lt_trans hl (sa'.1 a' ha')
          rw [cmp_self] at this; cases this
      · intro c hcm hl
        rcases mem_joinList hcmp _ _ hk hcm with ⟨z, hz, e⟩ | ⟨z, hz, e⟩
        · have hl := cmp_lt_of_eq_of_lt (cmp_symm e) hl
          rcases List.mem_cons.1 hz with rfl | hz
          · rw [cmp_self] at hl; cases hl
          · have := cmp_lt_trans hl (sa'.1 z hz)
            rw [cmp_self] at this; cases this
        · have hl := cmp_lt_of_lt_of_eq (cmp_lt_of_eq_of_lt (cmp_symm e) hl) he0
          rcases List.mem_cons.1 hz with rfl | hz
          · rw [cmp_self] at hl; cases hl
          · have := cmp_lt_trans hl (sb'.1 z hz)
            rw [cmp_self] at this; cases this
end

namespace Tree
variable {K V W : Type _}

theorem completed_noPanic (u : Bool) (f : MutFn V W) : NoPanic (completed u f) := by
  intro v w h
  unfold completed at h
  cases h' : (f v w).2 with
  | panic => rw [h'] at h; exact absurd h (by simp)
  | ret b => rw [h'] at h; exact absurd h (by simp)

/-- the call for the root panicked: nothing else has happened -/
def RootPanic (f : MutFn V W) (a : Tree K V) (b : Tree K W) (t : Tree K V) : Prop :=
  ∃ v w, a.pre = b.pre ∧ a.val = some v ∧ b.val = some w ∧ (f v w).2 = .panic ∧ t = { a with val := some (f v w).1 }

theorem applyMut_part (u : Bool) (f : MutFn V W) (v : V) (w : W) :
    (applyMut f v w = (pureOf (completed u f) v w, .cont) ∧ (f v w).2 ≠ .panic) ∨ ((f v w).2 = .panic ∧ applyMut f v w = (some (f v w).1, .panic)) := by
  unfold applyMut pureOf completed
  rcases h : f v w with ⟨v', c⟩
  cases c with
  | panic => exact .inr ⟨rfl, rfl⟩
  | ret b => cases b <;> exact .inl ⟨rfl, by simp⟩

theorem val_part {u : Bool} {f : MutFn V W} {val : Option V → Option W → Option V × Flow} {pv : Option V → Option W → Option V}
    (h : ∀ v w, val (some v) (some w) = applyMut f v w) (h' : ∀ v w, pv (some v) (some w) = pureOf (completed u f) v w)
    (hn : ∀ v w, v = none ∨ w = none → val v w = (pv v w, .cont)) (v : Option V) (w : Option W) :
    (val v w = (pv v w, .cont) ∧ ∀ x y, v = some x → w = some y → (f x y).2 ≠ .panic) ∨
      ∃ x y, v = some x ∧ w = some y ∧ (f x y).2 = .panic ∧ val v w = (some (f x y).1, .panic) := by
  cases v with
  | none => exact .inl ⟨hn _ _ (.inl rfl), by simp⟩
  | some x =>
    cases w with
    | none => exact .inl ⟨hn _ _ (.inr rfl), by simp⟩
    | some y =>
      rw [h, h']
      rcases applyMut_part u f x y with e | ⟨e1, e2⟩
      · refine .inl ⟨e.1, ?_⟩
        intro x' y' h1 h2
        cases h1; cases h2
        exact e.2
      · exact .inr ⟨x, y, rfl, rfl, e1, e2⟩

section
variable [Ord K] [TransOrd K] [LawfulEqOrd K]

omit [Ord K] [TransOrd K] [LawfulEqOrd K] in
theorem entry_pre {c : Tree K V} {k : List K} {v : V} (h : Entry c k v) : ∃ r, k = c.pre ++ r := by
  cases h with
  | here => exact ⟨[], by simp⟩
  | there _ _ => exact ⟨_, rfl⟩

/-- comparing keys below different children -/
theorem lexLt_heads {p k k' : List K} {x y : K} {r s : List K} (hk : k = x :: r) (hk' : k' = y :: s) (h : LexLt (p ++ k) (p ++ k')) :
    compare x y ≠ .gt := by
  subst hk hk'
  rcases h with ⟨c, t, h⟩ | ⟨q, u, v, r1, s1, h1, h2, h3⟩
  · rw [List.append_assoc, List.append_cancel_left_eq] at h
    simp only [List.cons_append, List.cons.injEq] at h
    rw [h.1]
    simp [cmp_self]
  · rcases Nat.lt_trichotomy p.length q.length with hl | hl | hl
    · obtain ⟨q', rfl⟩ : ∃ q', q = p ++ q' := by
        refine ⟨q.drop p.length, ?_⟩
        have := congrArg (List.take p.length) h1
        rw [List.take_left, List.take_append_of_le_length (by omega)] at this
        have e := List.take_append_drop p.length q
        rw [← this] at e
        exact e.symm
      rw [List.append_assoc, List.append_cancel_left_eq] at h1 h2
      cases q' with
      | nil => simp at hl
      | cons z q' =>
        simp only [List.cons_append, List.cons.injEq] at h1 h2
        rw [h1.1, h2.1]
        simp [cmp_self]
    · have e := List.append_inj h1 hl
      have e' := List.append_inj h2 hl
      simp only [List.cons.injEq] at e e'
      rw [e.2.1, e'.2.1, h3]
      simp
    · have e := congrArg (fun l => l[q.length]?) h1
      have e' := congrArg (fun l => l[q.length]?) h2
      simp only [List.getElem?_append_left hl, List.getElem?_append_right (Nat.le_refl _)] at e e'
      rw [e] at e'
      simp only [Nat.sub_self, List.getElem?_cons_zero, Option.some.injEq] at e'
      rw [e', cmp_self] at h3
      exact absurd h3 (by simp)


omit [TransOrd K] [LawfulEqOrd K] in
theorem lexLt_append {k k' : List K} (p : List K) (h : LexLt k k') : LexLt (p ++ k) (p ++ k') := by
  rcases h with ⟨c, r, rfl⟩ | ⟨q, x, y, r, s, rfl, rfl, h⟩
  · exact .inl ⟨c, r, by simp⟩
  · exact .inr ⟨p ++ q, x, y, r, s, by simp, by simp, h⟩

omit [Ord K] [TransOrd K] [LawfulEqOrd K] in
/-- the keys below a node -/
theorem entry_node_iff {p : List K} {tv : Option V} {ks : List (Tree K V)} {k : List K} {v : V} :
    Entry ⟨p, tv, ks⟩ k v ↔ (k = p ∧ tv = some v) ∨ ∃ c ∈ ks, ∃ k1, k = p ++ k1 ∧ Entry c k1 v := by
  constructor
  · intro h
    cases h with
    | here => exact .inl ⟨rfl, rfl⟩
    | there h1 h2 => exact .inr ⟨_, h1, _, rfl, h2⟩
  · rintro (⟨rfl, rfl⟩ | ⟨c, h1, k1, rfl, h2⟩)
    · exact .here
    · exact .there h1 h2

omit [TransOrd K] [LawfulEqOrd K] in
/-- keys of a child start with its head -/
theorem entry_head {ks : List (Tree K V)} (hk : Kids ks) {c : Tree K V} (hc : c ∈ ks) {k : List K} {v : V} (h : Entry c k v) :
    ∃ x r, hd c = some x ∧ k = x :: r := by
  obtain ⟨r, rfl⟩ := entry_pre h
  obtain ⟨x, xs, hx⟩ := head?_some_of_ne (hk.ne c hc)
  exact ⟨x, xs ++ r, by simp [hd, hx], by simp [hx]⟩

/-- a child is determined by its head -/
theorem kids_unique {ks : List (Tree K V)} (hk : Kids ks) {c d : Tree K V} (hc : c ∈ ks) (hd' : d ∈ ks) (h : hd c = hd d) : c = d := by
  have ps := hk.asc
  rw [AscendingBy, List.pairwise_iff_getElem] at ps
  obtain ⟨i, hi, rfl⟩ := List.getElem_of_mem hc
  obtain ⟨j, hj, rfl⟩ := List.getElem_of_mem hd'
  rcases Nat.lt_trichotomy i j with hl | rfl | hl
  · have := ps i j hi hj hl
    rw [h, cmp_self] at this; cases this
  · rfl
  · have := ps j i hj hi hl
    rw [h, cmp_self] at this; cases this

/-- common keys of two nodes with the same prefix -/
theorem common_key {p : List K} {va : Option V} {vb : Option W} {A : List (Tree K V)} {B : List (Tree K W)} (hA : Kids A) (hB : Kids B)
    {k : List K} {v : V} {w : W} (h1 : Entry ⟨p, va, A⟩ k v) (h2 : Entry ⟨p, vb, B⟩ k w) :
    (va = some v ∧ vb = some w ∧ k = p) ∨ ∃ x ∈ A, ∃ y ∈ B, ∃ k1, hd x = hd y ∧ k = p ++ k1 ∧ Entry x k1 v ∧ Entry y k1 w := by
  rcases entry_node_iff.1 h1 with ⟨rfl, e1⟩ | ⟨x, hx, k1, rfl, e1⟩
  · rcases entry_node_iff.1 h2 with ⟨_, e2⟩ | ⟨y, hy, k2, e, e2⟩
    · exact .inl ⟨e1, e2, rfl⟩
    · obtain ⟨c, r, _, rfl⟩ := entry_head hB hy e2
      have := congrArg List.length e
      simp at this
  · obtain ⟨c, r, hc, rfl⟩ := entry_head hA hx e1
    rcases entry_node_iff.1 h2 with ⟨e, e2⟩ | ⟨y, hy, k2, e, e2⟩
    · have := congrArg List.length e
      simp at this
    · rw [List.append_cancel_left_eq] at e
      subst e
      obtain ⟨d, s, hd', e⟩ := entry_head hB hy e2
      simp only [List.cons.injEq] at e
      exact .inr ⟨x, hx, y, hy, _, by rw [hc, hd', e.1], rfl, e1, e2⟩

/-- the children of an interrupted combination: `out` was built, `rest` is lost -/
def CutKids (f : MutFn V W) (A : List (Tree K V)) (B : List (Tree K W)) (out rest : List (Tree K V)) : Prop :=
  ∃ x ∈ A, ∃ y ∈ B, hd x = hd y ∧ (∃ k, FirstPanic f x y k) ∧
    (∀ x' ∈ A, ∀ y' ∈ B, hd x' = hd y' → compare (hd x') (hd x) = .lt → ¬Pan f x' y') ∧
    (∀ c ∈ out, compare (hd c) (hd x) = .lt) ∧ ∀ c ∈ rest, compare (hd c) (hd x) ≠ .lt

/-- complete (and there is no key for which `f` panics), or panicked (and there is) -/
abbrev RecOk (f : MutFn V W) (rec : Tree K V → Tree K W → Tree K V × Flow) (r : Tree K V → Tree K W → Tree K V) (x : Tree K V) (y : Tree K W) : Prop :=
  ((rec x y = (r x y, .cont) ∧ ¬Pan f x y) ∨ ((rec x y).2 = .panic ∧ ∃ k, FirstPanic f x y k)) ∧
    ∀ c, hd x = some c → hd y = some c → (r x y).isEmpty = false → hd (r x y) = some c

theorem childrenWith_cut {f : MutFn V W} {P : Par K V W} {takeA takeB : Bool} {conv : Tree K W → Call (Tree K V)}
    {rec : Tree K V → Tree K W → Tree K V × Flow} {r : Tree K V → Tree K W → Tree K V} {p : List K} {tv : Option V} {A : List (Tree K V)}
    {B : List (Tree K W)} (hA : Kids A) (hB : Kids B) (hga : ∀ x, P.ga x = if takeA then some x else none)
    (hgb : ∀ y ∈ B, (if takeB then (conv y).emit else ([], .cont)) = Emit.ret (P.gb y)) (hgb' : ∀ y ∈ B, ∀ z, P.gb y = some z → hd z = hd y)
    (hrec : ∀ x ∈ A, ∀ y ∈ B, hd x = hd y → RecOk f rec r x y) :
    (childrenWith (inPlaceOp takeA takeB conv rec) ⟨p, tv, A⟩ B = (⟨p, tv, kidsRef P r A B⟩, .cont) ∧
      ∀ x ∈ A, ∀ y ∈ B, hd x = hd y → ¬Pan f x y) ∨
    ∃ out rest, childrenWith (inPlaceOp takeA takeB conv rec) ⟨p, tv, A⟩ B = (⟨p, tv, out⟩, .panic) ∧ kidsRef P r A B = out ++ rest ∧
      CutKids f A B out rest := by
  have S := mergeAll_spec (inPlaceOp_implements takeA takeB conv rec) (ka := hd) (kb := hd) headCmp_eq
    ({ tgt := [], src := A, b := B } : InPlaceMS _ _) trivial hA.asc hB.asc
  have np : ∀ {x y}, (rec x y).2 = .cont → RecOk f rec r x y → ¬Pan f x y := by
    intro x y h h'
    rcases h'.1 with h' | h'
    · exact h'.2
    · rw [h'.1] at h; cases h
  have e := joinRef_cut (cmp := headCmp) (ka := hd) (kb := hd) (kr := hd) (ga := P.ga) (gb := P.gb) (gc := fun x y => nonEmpty (r x y))
    (fa := fun x => Emit.ret (if takeA then some x else none)) (fb := fun y => if takeB then (conv y).emit else ([], .cont))
    (fc := fun x y => recEmit (rec x y)) headCmp_eq A B hA.asc hB.asc ⟨by
      intro a ha z hz
      rw [hga] at hz
      cases takeA <;> simp at hz
      rw [hz]; exact cmp_self _, by
      intro b hb z hz
      rw [hgb' b hb z hz]; exact cmp_self _, by
      intro a ha b hb he z hz
      rw [cmp_eq_iff] at he
      obtain ⟨c, cs, hc⟩ := head?_some_of_ne (hA.ne a ha)
      have hc : hd a = some c := by simp [hd, hc]
      unfold nonEmpty at hz
      cases hem : (r a b).isEmpty with
      | true => simp [hem] at hz
      | false =>
        simp [hem] at hz
        rw [← hz, (hrec a ha b hb he).2 c hc (he ▸ hc) hem, hc]
        exact cmp_self _⟩
    (fun x _ => by rw [hga]) hgb (by
      intro a ha b hb hc
      rw [headCmp_eq, cmp_eq_iff] at hc
      rcases (hrec a ha b hb hc).1 with h | h
      · left; rw [h.1]; rfl
      · right; unfold recEmit; rw [h.1])
  have S1 := S.flow
  have S2 := S.out
  change (mergeAll (inPlaceOp takeA takeB conv rec) _).2 = (joinRef headCmp _ _ _ A B).2 at S1
  change (mergeAll (inPlaceOp takeA takeB conv rec) _).1.tgt = [] ++ (joinRef headCmp _ _ _ A B).1 at S2
  unfold childrenWith
  rw [hA.headed, hB.headed]
  simp only [Bool.and_self, ↓reduceIte, InPlaceMS.merge]
  rw [S1, S2]
  have flow : ∀ {x y}, recEmit (rec x y) = Emit.ret (nonEmpty (r x y)) → (rec x y).2 = .cont := by
    intro x y h
    have := congrArg Prod.snd h
    unfold recEmit at this
    cases hh : (rec x y).2 <;> rw [hh] at this <;> simp_all [Emit.ret]
  rcases e with ⟨e1, e2⟩ | ⟨x, y, out, rest, e1, e2, e3⟩
  · refine .inl ⟨by rw [e1]; rfl, ?_⟩
    intro x hx y hy h
    exact np (flow (e2 x hx y hy (by rw [headCmp_eq, h]; exact cmp_self _))) (hrec x hx y hy h)
  · refine .inr ⟨out, rest, by rw [e1]; rfl, e2, x, e3.mx, y, e3.my, ?_, ?_, ?_, e3.out, e3.rest⟩
    · have := e3.eq; rw [headCmp_eq, cmp_eq_iff] at this; exact this
    · have := e3.eq; rw [headCmp_eq, cmp_eq_iff] at this
      rcases (hrec x e3.mx y e3.my this).1 with h | h
      · have := e3.pan
        rw [h.1] at this
        simp [recEmit, Emit.ret] at this
      · exact h.2
    · intro x' hx' y' hy' h hl
      exact np (flow (e3.before x' hx' y' hy' (by rw [headCmp_eq, h]; exact cmp_self _) hl)) (hrec x' hx' y' hy' h)

omit [Ord K] [TransOrd K] [LawfulEqOrd K] in
theorem full_entry {t : Tree K V} : Full t → ∃ k v, Entry t k v := by
  refine induct (P := fun t => Full t → ∃ k v, Entry t k v) ?_ t
  intro p v ks ih h
  have f := full_iff.1 h
  simp only at f
  cases v with
  | some v => exact ⟨p, v, .here⟩
  | none =>
    match ks, f.1 rfl, ih, f.2 with
    | c :: _, _, ih, f2 =>
      obtain ⟨k, v, h⟩ := ih c (by simp) (f2 c (by simp))
      exact ⟨_, v, .there (by simp) h⟩

/-- a canonical node has keys outside any one of its branches -/
theorem full_other {p : List K} {v : Option V} {ks : List (Tree K V)} (h : Canonical (⟨p, v, ks⟩ : Tree K V)) {x : Tree K V} (hx : x ∈ ks) {c : K}
    (hc : hd x = some c) : ∃ k, HasEntry (⟨p, v, ks⟩ : Tree K V) k ∧ ∀ s, k ≠ p ++ c :: s := by
  have hk := h.1.kids
  simp only at hk
  rcases h.2 with h | h
  · simp only [empty, Tree.mk.injEq] at h
    rw [h.2.2] at hx; simp at hx
  · have f := full_iff.1 h
    cases v with
    | some v =>
      refine ⟨p, ⟨v, .here⟩, ?_⟩
      intro s e
      have := congrArg List.length e
      simp at this
    | none =>
      have len := f.1 rfl
      simp only at len
      obtain ⟨y, hy, hne⟩ : ∃ y ∈ ks, hd y ≠ some c := by
        match ks, len, hk with
        | y :: z :: ks, _, hk =>
          by_cases h1 : hd y = some c
          · refine ⟨z, by simp, ?_⟩
            intro h2
            have := (ascendingBy_cons.1 hk.asc).1 z (by simp)
            rw [h1, h2, cmp_self] at this
            cases this
          · exact ⟨y, by simp, h1⟩
      have fy := f.2 y hy
      obtain ⟨k, w, hw⟩ := full_entry fy
      obtain ⟨d, r, hd', rfl⟩ := entry_head hk hy hw
      refine ⟨p ++ d :: r, ⟨w, .there hy hw⟩, ?_⟩
      intro s e
      rw [List.append_cancel_left_eq] at e
      simp only [List.cons.injEq] at e
      rw [e.1] at hd'
      exact hne hd'

/-- the meaning of a cut -/
theorem stopped_of_cut {f : MutFn V W} {a : Tree K V} {b : Tree K W} {p : List K} {va tv : Option V} {vb : Option W} {A out rest : List (Tree K V)}
    {B : List (Tree K W)} (ea : ∀ k v, Entry a k v ↔ Entry ⟨p, va, A⟩ k v) (eb : ∀ k v, Entry b k v ↔ Entry ⟨p, vb, B⟩ k v) (hA : Kids A) (hB : Kids B)
    (hroot : ∀ x y, va = some x → vb = some y → (f x y).2 ≠ .panic) (hcan : a = ⟨p, va, A⟩ ∨ b = ⟨p, vb, B⟩) (hT : Kids (out ++ rest))
    (hc : CutKids f A B out rest) : StoppedAt f a b ⟨p, tv, out⟩ ⟨p, tv, out ++ rest⟩ := by
  obtain ⟨x, hx, y, hy, hxy, ⟨k, ⟨v, w, hv, hw, hp⟩, hmin⟩, hbef, hout, hrest⟩ := hc
  obtain ⟨c, r, hxc, rfl⟩ := entry_head hA hx hv
  refine ⟨p, c, r, ⟨⟨v, w, (ea _ _).2 (.there hx hv), (eb _ _).2 (.there hy hw), hp⟩, ?_⟩, ?_, ?_, ?_⟩
  · intro k' v' w' h1 h2 h3
    rcases common_key hA hB ((ea _ _).1 h1) ((eb _ _).1 h2) with ⟨e1, e2, _⟩ | ⟨x', hx', y', hy', k1, hh, rfl, e1, e2⟩
    · exact absurd h3 (hroot _ _ e1 e2)
    · cases ho : compare (hd x') (hd x) with
      | lt => exact absurd ⟨k1, v', w', e1, e2, h3⟩ (hbef x' hx' y' hy' hh ho)
      | eq =>
        rw [cmp_eq_iff] at ho
        have e := kids_unique hA hx' hx ho
        have e' := kids_unique hB hy' hy (by rw [← hh, ho, hxy])
        subst e e'
        rcases hmin k1 v' w' e1 e2 h3 with h | h
        · left; rw [h]
        · right; exact lexLt_append p h
      | gt =>
        obtain ⟨d, s, hd', rfl⟩ := entry_head hA hx' e1
        right
        rw [cmp_gt_iff, hd', hxc] at ho
        exact .inr ⟨p, c, d, r, s, rfl, rfl, ho⟩
  · rintro k (⟨v, h⟩ | ⟨v, h⟩)
    · rcases entry_node_iff.1 ((ea _ _).1 h) with ⟨rfl, _⟩ | ⟨_, _, s, rfl, _⟩
      · exact ⟨[], by simp⟩
      · exact ⟨s, rfl⟩
    · rcases entry_node_iff.1 ((eb _ _).1 h) with ⟨rfl, _⟩ | ⟨_, _, s, rfl, _⟩
      · exact ⟨[], by simp⟩
      · exact ⟨s, rfl⟩
  · intro ca cb
    rcases hcan with h | h
    · subst h
      obtain ⟨k, h1, h2⟩ := full_other ca hx hxc
      exact ⟨k, .inl h1, h2⟩
    · subst h
      obtain ⟨k, h1, h2⟩ := full_other cb hy (hxy ▸ hxc)
      exact ⟨k, .inr h1, h2⟩
  · intro k u
    constructor
    · intro h
      rcases entry_node_iff.1 h with ⟨rfl, rfl⟩ | ⟨z, hz, k1, rfl, h1⟩
      · refine ⟨.here, .inl ⟨c, r, rfl⟩, ?_⟩
        intro s e
        have := congrArg List.length e
        simp at this
      · obtain ⟨d, s, hd', rfl⟩ := entry_head hT (List.mem_append_left _ hz) h1
        have hl := hout z hz
        rw [hd', hxc] at hl
        have hl : compare d c = .lt := hl
        refine ⟨.there (List.mem_append_left _ hz) h1, .inr ⟨p, d, c, s, r, rfl, rfl, hl⟩, ?_⟩
        intro s' e
        rw [List.append_cancel_left_eq] at e
        simp only [List.cons.injEq] at e
        rw [e.1, cmp_self] at hl
        cases hl
    · rintro ⟨h1, h2, h3⟩
      rcases entry_node_iff.1 h1 with ⟨rfl, rfl⟩ | ⟨z, hz, k1, rfl, e1⟩
      · exact .here
      · rcases List.mem_append.1 hz with hz' | hz'
        · exact .there hz' e1
        · exfalso
          obtain ⟨d, s, hd', rfl⟩ := entry_head hT hz e1
          have hl := hrest z hz'
          rw [hd', hxc] at hl
          have hl : compare d c ≠ .lt := hl
          have hg := lexLt_heads rfl rfl h2
          cases ho : compare d c with
          | lt => exact hl ho
          | gt => exact hg ho
          | eq =>
            rw [cmp_eq_iff] at ho
            exact h3 s (by rw [ho])

/-- complete, or panicked in one of the two ways -/
def Partly (f : MutFn V W) (a : Tree K V) (b : Tree K W) (r : Tree K V × Flow) (T : Tree K V) : Prop :=
  Valid T → (r = (T, .cont) ∧ ¬Pan f a b) ∨ (r.2 = .panic ∧ ((Valid r.1 ∧ StoppedAt f a b r.1 T) ∨ RootPanic f a b r.1))

theorem kids_partly {f : MutFn V W} {P : Par K V W} {takeA takeB : Bool} {conv : Tree K W → Call (Tree K V)}
    {rec : Tree K V → Tree K W → Tree K V × Flow} {r : Tree K V → Tree K W → Tree K V} {a : Tree K V} {b : Tree K W} {p : List K}
    {va tv : Option V} {vb : Option W} {A : List (Tree K V)} {B : List (Tree K W)}
    (ea : ∀ k v, Entry a k v ↔ Entry ⟨p, va, A⟩ k v) (eb : ∀ k v, Entry b k v ↔ Entry ⟨p, vb, B⟩ k v) (hA : Kids A) (hB : Kids B)
    (hroot : ∀ x y, va = some x → vb = some y → (f x y).2 ≠ .panic) (hcan : a = ⟨p, va, A⟩ ∨ b = ⟨p, vb, B⟩)
    (hga : ∀ x, P.ga x = if takeA then some x else none)
    (hgb : ∀ y ∈ B, (if takeB then (conv y).emit else ([], .cont)) = Emit.ret (P.gb y)) (hgb' : ∀ y ∈ B, ∀ z, P.gb y = some z → hd z = hd y)
    (hrec : ∀ x ∈ A, ∀ y ∈ B, hd x = hd y → RecOk f rec r x y) :
    Partly f a b (childrenWith (inPlaceOp takeA takeB conv rec) ⟨p, tv, A⟩ B) ⟨p, tv, kidsRef P r A B⟩ := by
  intro hT
  rcases childrenWith_cut (p := p) (tv := tv) hA hB hga hgb hgb' hrec with ⟨h1, h2⟩ | ⟨out, rest, h1, h2, h3⟩
  · refine .inl ⟨h1, ?_⟩
    rintro ⟨k, v, w, e1, e2, e3⟩
    rcases common_key hA hB ((ea _ _).1 e1) ((eb _ _).1 e2) with ⟨e4, e5, _⟩ | ⟨x, hx, y, hy, k1, hh, _, e4, e5⟩
    · exact hroot _ _ e4 e5 e3
    · exact h2 x hx y hy hh ⟨k1, v, w, e4, e5, e3⟩
  · have hk := hT.kids
    simp only [h2] at hk
    rw [h1, h2]
    exact .inr ⟨rfl, .inl ⟨valid_iff.2 (hk.sublist (List.sublist_append_left _ _)), stopped_of_cut ea eb hA hB hroot hcan hk h3⟩⟩

variable [DecidableEq K]

/-- the recursive calls on smaller trees -/
abbrev AgreeP (f : MutFn V W) (rec : Tree K V → Tree K W → Tree K V × Flow) (r : Tree K V → Tree K W → Tree K V) (m : Nat) : Prop :=
  ∀ x y, Valid x → Valid y → x.size + y.size < m → RecOk f rec r x y

omit [Ord K] [TransOrd K] [LawfulEqOrd K] [DecidableEq K] in
theorem entry_here {a : Tree K V} {v : V} (h : a.val = some v) : Entry a a.pre v := by
  rcases a with ⟨p, w, ks⟩
  simp only at h
  subst h
  exact .here

omit [Ord K] [TransOrd K] [LawfulEqOrd K] [DecidableEq K] in
theorem entry_self (a : Tree K V) (k : List K) (v : V) : Entry a k v ↔ Entry ⟨a.pre, a.val, a.kids⟩ k v := by
  rcases a with ⟨p, w, ks⟩
  exact Iff.rfl

omit [Ord K] [TransOrd K] [LawfulEqOrd K] [DecidableEq K] in
/-- splitting a node does not change the keys -/
theorem entry_split (a : Tree K V) (n : Nat) (k : List K) (v : V) : Entry a k v ↔ Entry ⟨a.pre.take n, none, [a.shorten n]⟩ k v := by
  rcases a with ⟨p, w, ks⟩
  constructor
  · intro h
    rcases entry_node_iff.1 h with ⟨rfl, rfl⟩ | ⟨c, h1, k1, rfl, h2⟩
    · have : Entry (⟨k.take n, none, [(⟨k, some v, ks⟩ : Tree K V).shorten n]⟩ : Tree K V) (k.take n ++ k.drop n) v :=
        .there (c := ⟨k.drop n, some v, ks⟩) (by simp [shorten]) .here
      rwa [List.take_append_drop] at this
    · have : Entry (⟨p.take n, none, [(⟨p, w, ks⟩ : Tree K V).shorten n]⟩ : Tree K V) (p.take n ++ (p.drop n ++ k1)) v :=
        .there (c := ⟨p.drop n, w, ks⟩) (by simp [shorten]) (.there h1 h2)
      rwa [← List.append_assoc, List.take_append_drop] at this
  · intro h
    rcases entry_node_iff.1 h with ⟨_, h⟩ | ⟨c, h1, k1, rfl, h2⟩
    · cases h
    · simp only [List.mem_singleton] at h1
      subst h1
      simp only [shorten] at h2
      rcases entry_node_iff.1 h2 with ⟨rfl, rfl⟩ | ⟨c, h3, k2, rfl, h4⟩
      · simp only [List.take_append_drop]; exact .here
      · rw [← List.append_assoc, List.take_append_drop]; exact .there h3 h4

omit [TransOrd K] [LawfulEqOrd K] [DecidableEq K] in
theorem agreeP_kids {f : MutFn V W} {rec : Tree K V → Tree K W → Tree K V × Flow} {r : Tree K V → Tree K W → Tree K V} {a : Tree K V} {b : Tree K W}
    (h : AgreeP f rec r (a.size + b.size)) (ha : Valid a) (hb : Valid b) :
    ∀ x ∈ a.kids, ∀ y ∈ b.kids, hd x = hd y → RecOk f rec r x y := by
  intro x hx y hy _
  exact h x y (ha.kids.valid x hx) (hb.kids.valid y hy) (by have := kid_size hx; have := kid_size hy; omega)
omit [TransOrd K] [LawfulEqOrd K] in
theorem agreeP_kids_left {f : MutFn V W} {rec : Tree K V → Tree K W → Tree K V × Flow} {r : Tree K V → Tree K W → Tree K V} {a : Tree K V} {b : Tree K W}
    (h : AgreeP f rec r (a.size + b.size)) (ha : Valid a) (hb : Valid b) {n : Nat} (hn : n < a.pre.length) :
    ∀ x ∈ [a.shorten n], ∀ y ∈ b.kids, hd x = hd y → RecOk f rec r x y := by
  intro x hx y hy _
  simp at hx; subst hx
  exact h _ y (ha.shorten n) (hb.kids.valid y hy) (by have := kid_size hy; have := size_shorten a n (by omega); omega)
omit [TransOrd K] [LawfulEqOrd K] in
theorem agreeP_kids_right {f : MutFn V W} {rec : Tree K V → Tree K W → Tree K V × Flow} {r : Tree K V → Tree K W → Tree K V} {a : Tree K V} {b : Tree K W}
    (h : AgreeP f rec r (a.size + b.size)) (ha : Valid a) (hb : Valid b) {n : Nat} (hn : n < b.pre.length) :
    ∀ x ∈ a.kids, ∀ y ∈ [b.shorten n], hd x = hd y → RecOk f rec r x y := by
  intro x hx y hy _
  simp at hy; subst hy
  exact h x _ (ha.kids.valid x hx) (hb.shorten n) (by have := kid_size hx; have := size_shorten b n (by omega); omega)

omit [Ord K] [TransOrd K] [LawfulEqOrd K] in
theorem pre_eq_of_common {p q : List K} (h1 : commonPrefix p q = p.length) (h2 : commonPrefix p q = q.length) : p = q := by
  have := commonPrefix_take p q
  rw [List.take_of_length_le (by omega), List.take_of_length_le (by omega)] at this
  exact this

omit [Ord K] [TransOrd K] [LawfulEqOrd K] in
/-- keys of trees whose prefixes differ -/
theorem no_pan_differ {f : MutFn V W} {a : Tree K V} {b : Tree K W} {n : Nat} (hna : n < a.pre.length) (hnb : n < b.pre.length)
    (ht : a.pre.take n = b.pre.take n) (hdf : hd (a.shorten n) ≠ hd (b.shorten n)) : ¬Pan f a b := by
  rintro ⟨k, v, w, h1, h2, _⟩
  obtain ⟨r, h1⟩ := entry_pre h1
  obtain ⟨s, h2⟩ := entry_pre h2
  apply hdf
  simp only [shorten, hd, List.head?_drop]
  rw [h1] at h2
  have := congrArg (fun l => l[n]?) h2
  simp only [List.getElem?_append_left hna, List.getElem?_append_left hnb] at this
  exact this

/-- nodes with the same prefix: first the value, then the children -/
theorem partly_same {f : MutFn V W} {P : Par K V W} {takeA takeB : Bool} {conv : Tree K W → Call (Tree K V)}
    {rec : Tree K V → Tree K W → Tree K V × Flow} {r : Tree K V → Tree K W → Tree K V} {a : Tree K V} {b : Tree K W} {vr : Option V × Flow}
    {v : Option V} (hp : a.pre = b.pre) (ha : Valid a) (hb : Valid b)
    (hv : (vr = (v, .cont) ∧ ∀ x y, a.val = some x → b.val = some y → (f x y).2 ≠ .panic) ∨
      ∃ x y, a.val = some x ∧ b.val = some y ∧ (f x y).2 = .panic ∧ vr = (some (f x y).1, .panic))
    (hga : ∀ x, P.ga x = if takeA then some x else none)
    (hgb : ∀ y ∈ b.kids, (if takeB then (conv y).emit else ([], .cont)) = Emit.ret (P.gb y))
    (hgb' : ∀ y ∈ b.kids, ∀ z, P.gb y = some z → hd z = hd y) (hrec : AgreeP f rec r (a.size + b.size)) :
    Partly f a b (andThen (a.withVal vr) fun t => childrenWith (inPlaceOp takeA takeB conv rec) t b.kids) ⟨a.pre, v, kidsRef P r a.kids b.kids⟩ := by
  rcases hv with ⟨rfl, hv⟩ | ⟨x, y, h1, h2, h3, rfl⟩
  · exact kids_partly (va := a.val) (vb := b.val) (entry_self a) (fun k v => hp ▸ entry_self b k v) ha.kids hb.kids hv
      (.inl (by rcases a with ⟨_, _, _⟩; rfl)) hga hgb hgb' (agreeP_kids hrec ha hb)
  · intro _
    exact .inr ⟨rfl, .inr ⟨x, y, hp, h1, h2, h3, rfl⟩⟩


omit [Ord K] [TransOrd K] [LawfulEqOrd K] [DecidableEq K] in
theorem tree_eta (a : Tree K V) : a = ⟨a.pre, a.val, a.kids⟩ := by rcases a with ⟨_, _, _⟩; rfl

theorem outerWithCases_part {u : Bool} {rec : Tree K V → Tree K V → Tree K V × Flow} {r : Tree K V → Tree K V → Tree K V} {a b : Tree K V}
    {f : MutFn V V} (ha : Valid a) (hb : Valid b) (hrec : AgreeP f rec r (a.size + b.size)) :
    Partly f a b (outerWithCases (outerWithOp rec) f (commonPrefix a.pre b.pre) a b)
      (refCases (outerPar (pureOf (completed u f))) r (commonPrefix a.pre b.pre) a b) := by
  have hla := commonPrefix_le_left a.pre b.pre
  have hlb := commonPrefix_le_right a.pre b.pre
  have hdf := commonPrefix_differ a.pre b.pre
  have hpe := pre_eq_of_common (p := a.pre) (q := b.pre)
  have htk := commonPrefix_take a.pre b.pre
  revert hla hlb hdf hpe htk
  generalize commonPrefix a.pre b.pre = n
  intro hla hlb hdf hpe htk
  have gb' : ∀ y z, (outerPar (K := K) (pureOf (completed u f))).gb y = some z → hd z = hd y := by
    intro y z h; simp only [outerPar, Option.some.injEq] at h; rw [h]
  unfold outerWithCases refCases outerWithOp
  by_cases h1 : n = a.pre.length ∧ n = b.pre.length
  · rw [if_pos h1, if_pos h1]
    exact partly_same (P := outerPar (pureOf (completed u f))) (v := outerPureVal (pureOf (completed u f)) a.val b.val) (hpe h1.1 h1.2) ha hb
      (val_part (f := f) (val := outerVal f) (pv := outerPureVal (pureOf (completed u f))) (fun _ _ => rfl) (fun _ _ => rfl)
        (by
          intro v w h
          rcases h with rfl | rfl
          · cases w <;> rfl
          · cases v <;> rfl) a.val b.val) (by simp [outerPar]) (gb_some rfl hb.kids) (fun y _ => gb' y) hrec
  rw [if_neg h1, if_neg h1]
  by_cases h3 : n = a.pre.length
  · have hnb : n < b.pre.length := by omega
    rw [if_pos h3, if_neg (by omega), if_pos h3, materializeShortened_eq hb hnb]
    simp only [withMat]
    have hk : Kids [b.shorten n] := Kids.single (hb.shorten n) (shorten_ne hnb)
    have e : a.pre = b.pre.take n := by rw [← htk, List.take_of_length_le (by omega)]
    have := kids_partly (f := f) (P := outerPar (pureOf (completed u f))) (r := r) (rec := rec) (takeA := true) (takeB := true) (conv := materialize)
      (a := a) (b := b) (p := a.pre) (va := a.val) (tv := a.val) (vb := none) (A := a.kids) (B := [b.shorten n]) (entry_self a)
      (fun k v => by rw [e]; exact entry_split b n k v) ha.kids hk (by simp) (.inl (tree_eta a)) (by simp [outerPar]) (gb_some rfl hk)
      (fun y _ => gb' y) (agreeP_kids_right hrec ha hb hnb)
    rwa [← tree_eta a] at this
  rw [if_neg h3]
  have hna : n < a.pre.length := by omega
  rw [split_eq hna]
  by_cases h2 : n = b.pre.length
  · rw [if_pos h2, if_pos h2]
    have hk : Kids [a.shorten n] := Kids.single (ha.shorten n) (shorten_ne hna)
    have e : outerVal f none b.val = (outerPureVal (pureOf (completed u f)) none b.val, .cont) := by cases b.val <;> rfl
    have e' : (outerPar (K := K) (pureOf (completed u f))).vb b.val = outerPureVal (pureOf (completed u f)) none b.val := by
      cases b.val <;> rfl
    have e2 : a.pre.take n = b.pre := by rw [htk, List.take_of_length_le (by omega)]
    simp only [andThen, withVal, e]
    simp only [outerPar, Bool.false_eq_true, ↓reduceIte] at e' ⊢
    rw [e']
    exact kids_partly (f := f) (P := outerPar (pureOf (completed u f))) (r := r)
      (va := none) (vb := b.val) (entry_split a n) (fun k v => by rw [e2]; exact entry_self b k v) hk hb.kids (by simp)
      (.inr (by rw [e2]; exact tree_eta b)) (by simp [outerPar]) (gb_some rfl hb.kids) (fun y _ => gb' y) (agreeP_kids_left hrec ha hb hna)
  · have hnb : n < b.pre.length := by omega
    rw [if_neg h2, if_neg h2, if_neg h3, materializeShortened_eq hb hnb]
    simp only [andThen, withMat, List.singleton_append]
    have hh : headed [a.shorten n, b.shorten n] = true := by
      simp [headed, shorten_ne hna, shorten_ne hnb]
    rw [if_pos hh, sort_two (hdf hna hnb)]
    exact fun _ => .inl ⟨rfl, no_pan_differ hna hnb htk (hdf hna hnb)⟩

theorem innerWithCases_part {u : Bool} {rec : Tree K V → Tree K W → Tree K V × Flow} {r : Tree K V → Tree K W → Tree K V} {a : Tree K V} {b : Tree K W}
    {f : MutFn V W} (ha : Valid a) (hb : Valid b) (hrec : AgreeP f rec r (a.size + b.size)) :
    Partly f a b (innerWithCases (innerWithOp rec) f (commonPrefix a.pre b.pre) a b)
      (refCases (innerPar (pureOf (completed u f))) r (commonPrefix a.pre b.pre) a b) := by
  have hla := commonPrefix_le_left a.pre b.pre
  have hlb := commonPrefix_le_right a.pre b.pre
  have hdf := commonPrefix_differ a.pre b.pre
  have hpe := pre_eq_of_common (p := a.pre) (q := b.pre)
  have htk := commonPrefix_take a.pre b.pre
  revert hla hlb hdf hpe htk
  generalize commonPrefix a.pre b.pre = n
  intro hla hlb hdf hpe htk
  have gb' : ∀ y z, (innerPar (K := K) (pureOf (completed u f))).gb y = some z → hd z = hd y := by
    intro y z h; simp [innerPar] at h
  unfold innerWithCases refCases innerWithOp
  by_cases h1 : n = a.pre.length ∧ n = b.pre.length
  · rw [if_pos h1, if_pos h1]
    exact partly_same (P := innerPar (pureOf (completed u f))) (v := innerPureVal (pureOf (completed u f)) a.val b.val) (hpe h1.1 h1.2) ha hb
      (val_part (f := f) (val := innerVal f) (pv := innerPureVal (pureOf (completed u f))) (fun _ _ => rfl) (fun _ _ => rfl)
        (by
          intro v w h
          rcases h with rfl | rfl
          · cases w <;> rfl
          · cases v <;> rfl) a.val b.val) (by simp [innerPar]) (gb_none rfl) (fun y _ => gb' y) hrec
  rw [if_neg h1, if_neg h1]
  by_cases h3 : n = a.pre.length
  · have hnb : n < b.pre.length := by omega
    rw [if_pos h3, if_neg (by omega), if_pos h3, materializeShortened_eq hb hnb]
    simp only [withMat]
    have hk : Kids [b.shorten n] := Kids.single (hb.shorten n) (shorten_ne hnb)
    have e : a.pre = b.pre.take n := by rw [← htk, List.take_of_length_le (by omega)]
    exact kids_partly (f := f) (P := innerPar (pureOf (completed u f))) (r := r) (va := a.val) (vb := none) (entry_self a)
      (fun k v => by rw [e]; exact entry_split b n k v) ha.kids hk (by simp) (.inl (tree_eta a)) (by simp [innerPar]) (gb_none rfl)
      (fun y _ => gb' y) (agreeP_kids_right hrec ha hb hnb)
  rw [if_neg h3]
  have hna : n < a.pre.length := by omega
  by_cases h2 : n = b.pre.length
  · rw [if_pos h2, if_pos h2, split_eq hna]
    simp only [andThen]
    have hk : Kids [a.shorten n] := Kids.single (ha.shorten n) (shorten_ne hna)
    have e2 : a.pre.take n = b.pre := by rw [htk, List.take_of_length_le (by omega)]
    exact kids_partly (f := f) (P := innerPar (pureOf (completed u f))) (r := r) (va := none) (vb := b.val) (entry_split a n)
      (fun k v => by rw [e2]; exact entry_self b k v) hk hb.kids (by simp) (.inr (by rw [e2]; exact tree_eta b)) (by simp [innerPar]) (gb_none rfl)
      (fun y _ => gb' y) (agreeP_kids_left hrec ha hb hna)
  · rw [if_neg h2, if_neg h2, if_neg h3]
    exact fun _ => .inl ⟨rfl, no_pan_differ hna (by omega) htk (hdf hna (by omega))⟩

theorem leftWithCases_part {u : Bool} {rec : Tree K V → Tree K W → Tree K V × Flow} {r : Tree K V → Tree K W → Tree K V} {a : Tree K V} {b : Tree K W}
    {f : MutFn V W} (ha : Valid a) (hb : Valid b) (hrec : AgreeP f rec r (a.size + b.size)) :
    Partly f a b (leftWithCases (leftWithOp rec) f (commonPrefix a.pre b.pre) a b)
      (refCases (leftPar (leftMutVal (pureOf (completed u f)))) r (commonPrefix a.pre b.pre) a b) := by
  have hla := commonPrefix_le_left a.pre b.pre
  have hlb := commonPrefix_le_right a.pre b.pre
  have hdf := commonPrefix_differ a.pre b.pre
  have hpe := pre_eq_of_common (p := a.pre) (q := b.pre)
  have htk := commonPrefix_take a.pre b.pre
  revert hla hlb hdf hpe htk
  generalize commonPrefix a.pre b.pre = n
  intro hla hlb hdf hpe htk
  have gb' : ∀ y z, (leftPar (K := K) (leftMutVal (pureOf (completed u f)))).gb y = some z → hd z = hd y := by
    intro y z h; simp [leftPar] at h
  unfold leftWithCases refCases leftWithOp
  by_cases h1 : n = a.pre.length ∧ n = b.pre.length
  · rw [if_pos h1, if_pos h1]
    exact partly_same (P := leftPar (leftMutVal (pureOf (completed u f)))) (v := leftMutVal (pureOf (completed u f)) a.val b.val) (hpe h1.1 h1.2) ha hb
      (val_part (f := f) (val := leftVal f) (pv := leftMutVal (pureOf (completed u f))) (fun _ _ => rfl) (fun _ _ => rfl)
        (by
          intro v w h
          rcases h with rfl | rfl
          · cases w <;> rfl
          · cases v <;> rfl) a.val b.val) (by simp [leftPar]) (gb_none rfl) (fun y _ => gb' y) hrec
  rw [if_neg h1, if_neg h1]
  by_cases h3 : n = a.pre.length
  · have hnb : n < b.pre.length := by omega
    rw [if_pos h3, if_neg (by omega), if_pos h3, materializeShortened_eq hb hnb]
    simp only [withMat]
    have hk : Kids [b.shorten n] := Kids.single (hb.shorten n) (shorten_ne hnb)
    have e : a.pre = b.pre.take n := by rw [← htk, List.take_of_length_le (by omega)]
    have := kids_partly (f := f) (P := leftPar (leftMutVal (pureOf (completed u f)))) (r := r) (rec := rec) (takeA := true) (takeB := false)
      (conv := fun _ => .panic) (a := a) (b := b) (p := a.pre) (va := a.val) (tv := a.val) (vb := none) (A := a.kids) (B := [b.shorten n])
      (entry_self a) (fun k v => by rw [e]; exact entry_split b n k v) ha.kids hk (by simp) (.inl (tree_eta a)) (by simp [leftPar]) (gb_none rfl)
      (fun y _ => gb' y) (agreeP_kids_right hrec ha hb hnb)
    rwa [← tree_eta a] at this
  rw [if_neg h3]
  have hna : n < a.pre.length := by omega
  by_cases h2 : n = b.pre.length
  · rw [if_pos h2, if_pos h2, split_eq hna]
    simp only [andThen]
    have hk : Kids [a.shorten n] := Kids.single (ha.shorten n) (shorten_ne hna)
    have e2 : a.pre.take n = b.pre := by rw [htk, List.take_of_length_le (by omega)]
    exact kids_partly (f := f) (P := leftPar (leftMutVal (pureOf (completed u f)))) (r := r) (va := none) (vb := b.val) (entry_split a n)
      (fun k v => by rw [e2]; exact entry_self b k v) hk hb.kids (by simp) (.inr (by rw [e2]; exact tree_eta b)) (by simp [leftPar]) (gb_none rfl)
      (fun y _ => gb' y) (agreeP_kids_left hrec ha hb hna)
  · rw [if_neg h2, if_neg h2, if_neg h3]
    exact fun _ => .inl ⟨rfl, no_pan_differ hna (by omega) htk (hdf hna (by omega))⟩

omit [TransOrd K] [LawfulEqOrd K] [DecidableEq K] in
theorem root_part {f : MutFn V W} {a : Tree K V} {b : Tree K W} {t : Tree K V} (ha : Valid a) (h : RootPanic f a b t) :
    Valid t ∧ FirstCallPanicked f a b t := by
  obtain ⟨v, w, hp, hv, hw, hf, rfl⟩ := h
  refine ⟨valid_iff.2 ha.kids, a.pre, v, w, entry_here hv, hp ▸ entry_here hw, hf, ?_, ?_⟩
  · have key : ∀ r : List K, a.pre ++ r = a.pre ∨ LexLt a.pre (a.pre ++ r) := by
      intro r
      cases r with
      | nil => left; simp
      | cons c r => right; exact .inl ⟨c, r, rfl⟩
    rintro k' (⟨u, h⟩ | ⟨u, h⟩)
    · obtain ⟨r, rfl⟩ := entry_pre h; exact key r
    · obtain ⟨r, rfl⟩ := entry_pre h; rw [← hp]; exact key r
  · intro k' u
    obtain ⟨p, av, ks⟩ := a
    simp only at *
    have ne : ∀ c ∈ ks, ∀ k u, Entry c k u → p ++ k ≠ p := by
      intro c hc k u he e
      obtain ⟨r, rfl⟩ := entry_pre he
      have := congrArg List.length e
      have hne := ha.kids.ne c hc
      cases hp : c.pre with
      | nil => exact hne hp
      | cons x xs => rw [hp] at this; simp at this
    constructor
    · intro h
      cases h with
      | here => exact .inl ⟨rfl, rfl⟩
      | there h1 h2 => exact .inr ⟨ne _ h1 _ _ h2, .there h1 h2⟩
    · rintro (⟨rfl, rfl⟩ | ⟨h1, h2⟩)
      · exact .here
      · cases h2 with
        | here => exact absurd rfl h1
        | there h3 h4 => exact .there h3 h4

/-- complete, or panicked in one of the two ways -/
def Outcome (f : MutFn V W) (a : Tree K V) (b : Tree K W) (r : Tree K V × Flow) (T : Tree K V) : Prop :=
  (r = (T, .cont) ∧ ¬Pan f a b) ∨ (r.2 = .panic ∧ Valid r.1 ∧ (StoppedAt f a b r.1 T ∨ FirstCallPanicked f a b r.1))

omit [TransOrd K] [LawfulEqOrd K] [DecidableEq K] in
theorem Outcome.first {f : MutFn V W} {a : Tree K V} {b : Tree K W} {r : Tree K V × Flow} {T : Tree K V} (h : Outcome f a b r T) :
    (r = (T, .cont) ∧ ¬Pan f a b) ∨ (r.2 = .panic ∧ ∃ k, FirstPanic f a b k) := by
  rcases h with h | ⟨h1, _, ⟨p, c, r, h, _⟩ | ⟨k, v, w, h3, h4, h5, h6, _⟩⟩
  · exact .inl h
  · exact .inr ⟨h1, _, h⟩
  · refine .inr ⟨h1, k, ⟨v, w, h3, h4, h5⟩, ?_⟩
    intro k' v' w' h7 _ _
    exact h6 k' (.inl ⟨v', h7⟩)

theorem refCases_valid {O : Type _} {P : Par K V W} {o : Obs K W O} {H : Option V → O → Option V → Prop} (G : Good P o H) (L : ObsLaws o P.stop)
    {fuel : Nat} {a : Tree K V} {b : Tree K W} (ha : Valid a) (hb : Valid b) (hs : a.size + b.size < fuel + 1) :
    Valid (refCases P (ref P fuel) (commonPrefix a.pre b.pre) a b) := by
  have S := refCases_spec G L ha hb (rec := ref P fuel) (by
    intro x y hx hy hxy hh hxp hyp
    have := ref_spec G L fuel x y hx hy (by omega)
    refine ⟨this.1, this.2.1, ?_, ?_⟩
    · intro he
      cases hp : x.pre with
      | nil => exact absurd hp hxp
      | cons c r =>
        have hc : hd x = some c := by simp [hd, hp]
        rw [hc]
        exact this.2.2.1 c hc (by rw [← hh, hc]) he
    · intro fx fy he
      rcases (this.2.2.2 ⟨hx, .inr fx⟩ ⟨hy, .inr fy⟩).2 with e | f
      · rw [e] at he; simp [empty, isEmpty] at he
      · exact f)
  exact S.1

theorem finish_part {O : Type _} {P : Par K V W} {o : Obs K W O} {H : Option V → O → Option V → Prop} (G : Good P o H) (L : ObsLaws o P.stop)
    {f : MutFn V W} {fuel : Nat} {a : Tree K V} {b : Tree K W} {r : Tree K V × Flow} (ha : Valid a) (hb : Valid b) (hs : a.size + b.size < fuel + 1)
    (h : Partly f a b r (refCases P (ref P fuel) (commonPrefix a.pre b.pre) a b)) : Outcome f a b (finish r) (ref P (fuel + 1) a b) := by
  have S := refCases_valid G L ha hb hs
  rcases h S with ⟨rfl, hn⟩ | ⟨h1, h2⟩
  · exact .inl ⟨rfl, hn⟩
  · have : finish r = r := by
      unfold finish andThen
      rw [h1]
    rw [this]
    rcases h2 with ⟨h2, p, c, s, h3, h4, h5, h6⟩ | h2
    · refine .inr ⟨h1, h2, .inl ⟨p, c, s, h3, h4, h5, ?_⟩⟩
      intro k u
      rw [h6, ref, ← den_iff_entry S, ← den_iff_entry S.unsplit, unsplit_den S]
    · obtain ⟨h3, h4⟩ := root_part ha h2
      exact .inr ⟨h1, h3, .inr h4⟩

/-- the induction, for all three combinations -/
theorem go_part {O : Type _} {P : Par K V W} {o : Obs K W O} {H : Option V → O → Option V → Prop} (G : Good P o H) (L : ObsLaws o P.stop)
    {f : MutFn V W} {go : Nat → Tree K V → Tree K W → Tree K V × Flow}
    {cases : (Tree K V → Tree K W → Tree K V × Flow) → Tree K V → Tree K W → Tree K V × Flow}
    (hgo : ∀ fuel a b, go (fuel + 1) a b = finish (cases (go fuel) a b))
    (hcases : ∀ (rec : Tree K V → Tree K W → Tree K V × Flow) r a b, Valid a → Valid b → AgreeP f rec r (a.size + b.size) →
      Partly f a b (cases rec a b) (refCases P r (commonPrefix a.pre b.pre) a b)) :
    ∀ fuel (a : Tree K V) (b : Tree K W), Valid a → Valid b → a.size + b.size < fuel + 1 → Outcome f a b (go (fuel + 1) a b) (ref P (fuel + 1) a b) := by
  intro fuel
  induction fuel with
  | zero => intro a b _ _ h; have := size_eq a; have := size_eq b; omega
  | succ fuel ih =>
    intro a b ha hb hs
    rw [hgo]
    refine finish_part G L ha hb hs (hcases _ _ a b ha hb ?_)
    intro x y hx hy h
    exact ⟨(ih x y hx hy (by omega)).first, (ref_spec G L (fuel + 1) x y hx hy (by omega)).2.2.1⟩

theorem outerWithGo_part {u : Bool} {f : MutFn V V} {a b : Tree K V} (ha : Valid a) (hb : Valid b) :
    Outcome f a b (a.outerCombineWith b f) (ref (outerPar (pureOf (completed u f))) (a.size + b.size + 1) a b) :=
  go_part (outerPar_good _) denObs_laws (go := outerWithGo f) (cases := fun rec a b => outerWithCases (outerWithOp rec) f (commonPrefix a.pre b.pre) a b)
    (fun _ _ _ => rfl) (fun _ _ _ _ ha hb h => outerWithCases_part ha hb h) _ a b ha hb (by omega)
theorem innerWithGo_part {u : Bool} {f : MutFn V W} {a : Tree K V} {b : Tree K W} (ha : Valid a) (hb : Valid b) :
    Outcome f a b (a.innerCombineWith b f) (ref (innerPar (pureOf (completed u f))) (a.size + b.size + 1) a b) :=
  go_part (innerPar_good _) denObs_laws (go := innerWithGo f) (cases := fun rec a b => innerWithCases (innerWithOp rec) f (commonPrefix a.pre b.pre) a b)
    (fun _ _ _ => rfl) (fun _ _ _ _ ha hb h => innerWithCases_part ha hb h) _ a b ha hb (by omega)
theorem leftWithGo_part {u : Bool} {f : MutFn V W} {a : Tree K V} {b : Tree K W} (ha : Valid a) (hb : Valid b) :
    Outcome f a b (a.leftCombineWith b f) (ref (leftPar (leftMutVal (pureOf (completed u f)))) (a.size + b.size + 1) a b) :=
  go_part (leftMutPar_good _) denObs_laws (go := leftWithGo f) (cases := fun rec a b => leftWithCases (leftWithOp rec) f (commonPrefix a.pre b.pre) a b)
    (fun _ _ _ => rfl) (fun _ _ _ _ ha hb h => leftWithCases_part ha hb h) _ a b ha hb (by omega)

end
end Tree
end Verif
