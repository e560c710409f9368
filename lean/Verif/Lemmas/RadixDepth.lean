import Verif.Lemmas.RadixBool
import Verif.Lemmas.RadixOps
import Verif.Lemmas.RadixFind
import Verif.Lemmas.RadixMisc
import Verif.Spec.RadixDepth
/-! The recursion depth of the tree operations. -/
namespace Verif
namespace Tree
open Std
section
variable {K V W : Type _} [Ord K] [TransOrd K] [LawfulEqOrd K] [DecidableEq K]

omit [Ord K] [TransOrd K] [LawfulEqOrd K] [DecidableEq K] in
theorem reach_le_size : ∀ (t : Tree K V), t.reach ≤ t.size := by
  refine induct ?_
  intro p v ks ih
  rw [reach_eq, size_eq]
  have : reach.reachL ks ≤ size.sizeL ks := by
    clear v p
    induction ks with
    | nil => simp [reach.reachL]
    | cons c cs ihc =>
      have := ih c (by simp)
      have := ihc (fun c hc => ih c (by simp [hc]))
      simp only [reach.reachL, size.sizeL]
      omega
  show p.length + reach.reachL ks ≤ 1 + p.length + size.sizeL ks
  omega

theorem depth_headed {X : Type _} {go : Nat → Tree K V → Tree K W → X} {mk : Tree K V → X} {P : Par K V W}
    (hstep : ∀ fuel d a b, Valid a → Valid b → (∀ x y, Sub a b x y → go fuel x y = mk (ref P d x y)) →
      go (fuel + 1) a b = mk (ref P (d + 1) a b)) :
    ∀ d fuel a b, Valid a → Valid b → hd a = hd b → a.pre ≠ [] → b.pre ≠ [] → min a.reach b.reach ≤ d → d ≤ fuel →
      go fuel a b = mk (ref P d a b) := by
  intro d
  induction d with
  | zero =>
    intro fuel a b _ _ _ h1 h2 h
    have h1 := List.length_pos_iff.2 h1
    have h2 := List.length_pos_iff.2 h2
    rw [reach_eq a, reach_eq b] at h
    omega
  | succ d ih =>
    intro fuel a b ha hb hh h1 h2 h hf
    cases fuel with
    | zero => omega
    | succ fuel =>
      refine hstep fuel d a b ha hb fun x y S => ?_
      obtain ⟨n, hx, hy, hn⟩ := S.reach
      have := hn hh h1
      exact ih fuel x y S.left S.right S.heads S.leftNe S.rightNe (by omega) (by omega)

theorem depth_root {X : Type _} {go : Nat → Tree K V → Tree K W → X} {mk : Tree K V → X} {P : Par K V W}
    (hstep : ∀ fuel d a b, Valid a → Valid b → (∀ x y, Sub a b x y → go fuel x y = mk (ref P d x y)) →
      go (fuel + 1) a b = mk (ref P (d + 1) a b)) {d fuel : Nat} {a : Tree K V} {b : Tree K W} (ha : Valid a) (hb : Valid b)
    (h : min a.reach b.reach ≤ d) (hf : d < fuel) : go fuel a b = mk (ref P (d + 1) a b) := by
  cases fuel with
  | zero => omega
  | succ fuel =>
    refine hstep fuel d a b ha hb fun x y S => ?_
    obtain ⟨n, hx, hy, _⟩ := S.reach
    exact depth_headed hstep d fuel x y S.left S.right S.heads S.leftNe S.rightNe (by omega) (by omega)

/-- Any two recursion limits above the shorter of the two trees give the same result. -/
theorem depth_any {X : Type _} {go : Nat → Tree K V → Tree K W → X} {mk : Tree K V → X} {P : Par K V W}
    (hstep : ∀ fuel d a b, Valid a → Valid b → (∀ x y, Sub a b x y → go fuel x y = mk (ref P d x y)) →
      go (fuel + 1) a b = mk (ref P (d + 1) a b)) {fuel : Nat} {a : Tree K V} {b : Tree K W} (ha : Valid a) (hb : Valid b)
    (hf : min a.reach b.reach < fuel) : go fuel a b = go (a.size + b.size + 1) a b := by
  rw [depth_root hstep ha hb (Nat.le_refl _) hf,
    depth_root hstep (fuel := a.size + b.size + 1) ha hb (Nat.le_refl _) (by have := reach_le_size a; have := reach_le_size b; omega)]

theorem outerGo_depth (f : V → V → Option V) {a b : Tree K V} (ha : Valid a) (hb : Valid b) {fuel : Nat} (hf : min a.reach b.reach < fuel) :
    outerGo f fuel a b = a.outerCombine b f :=
  depth_any (mk := Call.ret) (P := outerPar f) (fun _ d a b ha hb h => outerCases_eq (r := ref (outerPar f) d) ha hb h) ha hb hf
theorem innerGo_depth (f : V → W → Option V) {a : Tree K V} {b : Tree K W} (ha : Valid a) (hb : Valid b) {fuel : Nat} (hf : min a.reach b.reach < fuel) :
    innerGo f fuel a b = a.innerCombine b f :=
  depth_any (mk := Call.ret) (P := innerPar f) (fun _ d a b ha hb h => innerCases_eq (r := ref (innerPar f) d) ha hb h) ha hb hf
theorem leftGo_depth (f : V → Option W → Option V) {a : Tree K V} {b : Tree K W} (ha : Valid a) (hb : Valid b) {fuel : Nat}
    (hf : min a.reach b.reach < fuel) : leftGo f fuel a b = a.leftCombine b f :=
  depth_any (mk := Call.ret) (P := leftPar (leftPureVal f)) (fun _ d a b ha hb h => leftCases_eq (r := ref _ d) ha hb h) ha hb hf
theorem outerWithGo_depth {f : MutFn V V} (hp : NoPanic f) {a b : Tree K V} (ha : Valid a) (hb : Valid b) {fuel : Nat}
    (hf : min a.reach b.reach < fuel) : outerWithGo f fuel a b = a.outerCombineWith b f :=
  depth_any (mk := fun t => (t, Flow.cont)) (P := outerPar (pureOf f))
    (fun _ d a b ha hb h => by rw [outerWithGo, outerWithCases_eq (r := ref _ d) hp ha hb h]; rfl) ha hb hf
theorem innerWithGo_depth {f : MutFn V W} (hp : NoPanic f) {a : Tree K V} {b : Tree K W} (ha : Valid a) (hb : Valid b) {fuel : Nat}
    (hf : min a.reach b.reach < fuel) : innerWithGo f fuel a b = a.innerCombineWith b f :=
  depth_any (mk := fun t => (t, Flow.cont)) (P := innerPar (pureOf f))
    (fun _ d a b ha hb h => by rw [innerWithGo, innerWithCases_eq (r := ref _ d) hp ha hb h]; rfl) ha hb hf
theorem leftWithGo_depth {f : MutFn V W} (hp : NoPanic f) {a : Tree K V} {b : Tree K W} (ha : Valid a) (hb : Valid b) {fuel : Nat}
    (hf : min a.reach b.reach < fuel) : leftWithGo f fuel a b = a.leftCombineWith b f :=
  depth_any (mk := fun t => (t, Flow.cont)) (P := leftPar (leftMutVal (pureOf f)))
    (fun _ d a b ha hb h => by rw [leftWithGo, leftWithCases_eq (r := ref _ d) hp ha hb h]; rfl) ha hb hf
theorem removePrefixGo_depth (f : W → Bool) {a : Tree K V} {b : Tree K W} (ha : Valid a) (hb : Valid b) {fuel : Nat}
    (hf : min a.reach b.reach < fuel) : removePrefixGo f fuel a b = a.removePrefixWith b f :=
  depth_any (mk := fun t => (t, Flow.cont)) (P := removePar f)
    (fun _ d a b ha hb h => by rw [removePrefixGo, removePrefixCases_eq (r := ref _ d) ha hb h]; rfl) ha hb hf
theorem retainPrefixGo_depth (f : W → Bool) {a : Tree K V} {b : Tree K W} (ha : Valid a) (hb : Valid b) {fuel : Nat}
    (hf : min a.reach b.reach < fuel) : retainPrefixGo f fuel a b = a.retainPrefixWith b f :=
  depth_any (mk := fun t => (t, Flow.cont)) (P := retainPar f)
    (fun _ d a b ha hb h => by rw [retainPrefixGo, retainPrefixCases_eq (r := ref _ d) ha hb h]; rfl) ha hb hf

/-! ### The relations -/

/-- what is known about the pair of a recursive call of `intersects` and `is_subset` -/
structure SubB (a : Tree K V) (b : Tree K W) (x : Tree K V) (y : Tree K W) : Prop where
  left : Valid x
  right : Valid y
  leftNe : x.pre ≠ []
  rightNe : y.pre ≠ []
  reach : ∃ n, x.reach + n ≤ a.reach ∧ y.reach + n ≤ b.reach ∧ (a.pre ≠ [] → b.pre ≠ [] → 1 ≤ n)

/-- one level of `intersects` -/
theorem intersects_step {l : Tree K V} {r : Tree K W} (hl : Valid l) (hr : Valid r) (g : Tree K V → Tree K W → Bool) :
    ∃ b, ∀ fuel, (∀ x y, SubB l r x y → intersectsGo fuel x x.pre y y.pre = .ret (g x y)) → intersectsGo (fuel + 1) l l.pre r r.pre = .ret b := by
  have hla := commonPrefix_le_left l.pre r.pre
  have hlb := commonPrefix_le_right l.pre r.pre
  generalize hn : commonPrefix l.pre r.pre = n at hla hlb
  by_cases h1 : commonPrefix l.pre r.pre = l.pre.length ∧ commonPrefix l.pre r.pre = r.pre.length
  · have kk : ∀ x ∈ l.kids, ∀ y ∈ r.kids, SubB l r x y := fun x hx y hy =>
      { left := hl.kids.valid x hx, right := hr.kids.valid y hy, leftNe := hl.kids.ne x hx, rightNe := hr.kids.ne y hy
        reach := ⟨n, by have := kid_reach hx; omega, by have := kid_reach hy; omega, fun h _ => by have := List.length_pos_iff.2 h; omega⟩ }
    obtain ⟨b, h0, hb⟩ := mergeBool_eq (takeA := false) (rec := fun x y => .ret (g x y)) (g := g) hl.kids hr.kids (fun _ _ _ _ _ => rfl)
    refine ⟨(l.val.isSome && r.val.isSome) || b, fun fuel h => ?_⟩
    rw [intersectsGo, if_pos h1]
    obtain ⟨b', h0', hb'⟩ := mergeBool_eq (takeA := false) (rec := fun x y => intersectsGo fuel x x.pre y y.pre) (g := g) hl.kids hr.kids
      (fun x hx y hy _ => h x y (kk x hx y hy))
    rw [h0', show b' = b from by rw [Bool.eq_iff_iff, hb', hb]]
    unfold orC
    cases (l.val.isSome && r.val.isSome) <;> rfl
  by_cases h2 : commonPrefix l.pre r.pre = l.pre.length
  · have hnb : n < r.pre.length := by omega
    have := reach_shorten r n (by omega)
    have kl : ∀ x ∈ l.kids, SubB l r x (r.shorten (commonPrefix l.pre r.pre)) := fun x hx => hn ▸
      { left := hl.kids.valid x hx, right := hr.shorten n, leftNe := hl.kids.ne x hx, rightNe := shorten_ne hnb
        reach := ⟨n, by have := kid_reach hx; omega, by omega, fun h _ => by have := List.length_pos_iff.2 h; omega⟩ }
    refine ⟨l.kids.any (fun x => g x (r.shorten (commonPrefix l.pre r.pre))), fun fuel h => ?_⟩
    rw [intersectsGo, if_neg h1, if_pos h2]
    exact anyC_eq fun x hx => (intersectsGo_congr fuel (l := x) (l' := x) _ (r := r) (r' := r.shorten (commonPrefix l.pre r.pre)) _ rfl rfl rfl rfl).trans (h x _ (kl x hx))
  by_cases h3 : commonPrefix l.pre r.pre = r.pre.length
  · have hna : n < l.pre.length := by omega
    have := reach_shorten l n (by omega)
    have kr : ∀ y ∈ r.kids, SubB l r (l.shorten (commonPrefix l.pre r.pre)) y := fun y hy => hn ▸
      { left := hl.shorten n, right := hr.kids.valid y hy, leftNe := shorten_ne hna, rightNe := hr.kids.ne y hy
        reach := ⟨n, by omega, by have := kid_reach hy; omega, fun _ h => by have := List.length_pos_iff.2 h; omega⟩ }
    refine ⟨r.kids.any (fun y => g (l.shorten (commonPrefix l.pre r.pre)) y), fun fuel h => ?_⟩
    rw [intersectsGo, if_neg h1, if_neg h2, if_pos h3]
    exact anyC_eq fun y hy => (intersectsGo_congr fuel (l := l) (l' := l.shorten (commonPrefix l.pre r.pre)) _ (r := y) (r' := y) _ rfl rfl rfl rfl).trans (h _ y (kr y hy))
  refine ⟨false, fun fuel h => ?_⟩
  rw [intersectsGo, if_neg h1, if_neg h2, if_neg h3]

theorem intersects_depth_ne : ∀ d (l : Tree K V) (r : Tree K W), Valid l → Valid r → l.pre ≠ [] → r.pre ≠ [] → min l.reach r.reach ≤ d →
    ∃ b, ∀ fuel, d ≤ fuel → intersectsGo fuel l l.pre r r.pre = .ret b := by
  intro d
  induction d with
  | zero =>
    intro a b _ _ h1 h2 h
    have h1 := List.length_pos_iff.2 h1
    have h2 := List.length_pos_iff.2 h2
    rw [reach_eq a, reach_eq b] at h
    omega
  | succ d ih =>
    intro l r hl hr h1 h2 h
    obtain ⟨b, hb⟩ := intersects_step hl hr (fun x y => match intersectsGo d x x.pre y y.pre with | .ret b => b | .panic => false)
    refine ⟨b, fun fuel hf => ?_⟩
    cases fuel with
    | zero => omega
    | succ fuel =>
      refine hb fuel fun x y S => ?_
      obtain ⟨n, hx, hy, hn⟩ := S.reach
      have := hn h1 h2
      obtain ⟨b', hb'⟩ := ih x y S.left S.right S.leftNe S.rightNe (by omega)
      simp only [hb' d (Nat.le_refl _)]
      exact hb' fuel (by omega)

theorem intersects_depth {l : Tree K V} {r : Tree K W} (hl : Valid l) (hr : Valid r) {fuel : Nat} (hf : min l.reach r.reach < fuel) :
    intersectsGo fuel l l.pre r r.pre = l.intersects r := by
  obtain ⟨b, hb⟩ := intersects_step hl hr (fun x y => match intersectsGo (min l.reach r.reach) x x.pre y y.pre with | .ret b => b | .panic => false)
  have key : ∀ fuel, min l.reach r.reach < fuel → intersectsGo fuel l l.pre r r.pre = .ret b := by
    intro fuel hf
    cases fuel with
    | zero => omega
    | succ fuel =>
      refine hb fuel fun x y S => ?_
      obtain ⟨n, hx, hy, hn⟩ := S.reach
      obtain ⟨b', hb'⟩ := intersects_depth_ne (min l.reach r.reach) x y S.left S.right S.leftNe S.rightNe (by omega)
      simp only [hb' _ (Nat.le_refl _)]
      exact hb' fuel (by omega)
  rw [key fuel hf]
  exact (key (l.size + r.size + 1) (by have := reach_le_size l; have := reach_le_size r; omega)).symm

/-- one level of `isSubset` -/
theorem isSubset_step {l : Tree K V} {r : Tree K W} (hl : Valid l) (hr : Valid r) (g : Tree K V → Tree K W → Bool) :
    ∃ b, ∀ fuel, (∀ x y, SubB l r x y → isSubsetGo fuel x x.pre y y.pre = .ret (g x y)) → isSubsetGo (fuel + 1) l l.pre r r.pre = .ret b := by
  have hla := commonPrefix_le_left l.pre r.pre
  have hlb := commonPrefix_le_right l.pre r.pre
  generalize hn : commonPrefix l.pre r.pre = n at hla hlb
  by_cases h1 : commonPrefix l.pre r.pre = l.pre.length ∧ commonPrefix l.pre r.pre = r.pre.length
  · have kk : ∀ x ∈ l.kids, ∀ y ∈ r.kids, SubB l r x y := fun x hx y hy =>
      { left := hl.kids.valid x hx, right := hr.kids.valid y hy, leftNe := hl.kids.ne x hx, rightNe := hr.kids.ne y hy
        reach := ⟨n, by have := kid_reach hx; omega, by have := kid_reach hy; omega, fun h _ => by have := List.length_pos_iff.2 h; omega⟩ }
    obtain ⟨b, h0, hb⟩ := mergeBool_eq (takeA := true) (rec := fun x y => .ret (!g x y)) (g := fun x y => !g x y) hl.kids hr.kids (fun _ _ _ _ _ => rfl)
    refine ⟨(l.val.isNone || r.val.isSome) && !b, fun fuel h => ?_⟩
    rw [isSubsetGo, if_pos h1]
    obtain ⟨b', h0', hb'⟩ := mergeBool_eq (takeA := true) (rec := fun x y => notC (isSubsetGo fuel x x.pre y y.pre)) (g := fun x y => !g x y)
      hl.kids hr.kids (fun x hx y hy _ => by rw [h x y (kk x hx y hy)]; rfl)
    rw [h0', show b' = b from by rw [Bool.eq_iff_iff, hb', hb]]
    unfold andC
    cases (l.val.isNone || r.val.isSome) <;> rfl
  by_cases h2 : commonPrefix l.pre r.pre = l.pre.length
  · have hnb : n < r.pre.length := by omega
    have := reach_shorten r n (by omega)
    have kl : ∀ x ∈ l.kids, SubB l r x (r.shorten (commonPrefix l.pre r.pre)) := fun x hx => hn ▸
      { left := hl.kids.valid x hx, right := hr.shorten n, leftNe := hl.kids.ne x hx, rightNe := shorten_ne hnb
        reach := ⟨n, by have := kid_reach hx; omega, by omega, fun h _ => by have := List.length_pos_iff.2 h; omega⟩ }
    refine ⟨l.val.isNone && l.kids.all (fun x => g x (r.shorten (commonPrefix l.pre r.pre))), fun fuel h => ?_⟩
    rw [isSubsetGo, if_neg h1, if_pos h2]
    rw [allC_eq (p := fun lc => isSubsetGo fuel lc lc.pre r (r.pre.drop (commonPrefix l.pre r.pre)))
      (g := fun x => g x (r.shorten (commonPrefix l.pre r.pre))) fun x hx =>
      (isSubsetGo_congr fuel (l := x) (l' := x) _ (r := r) (r' := r.shorten (commonPrefix l.pre r.pre)) _ rfl rfl rfl rfl).trans (h x _ (kl x hx))]
    unfold andC
    cases l.val.isNone <;> rfl
  by_cases h3 : commonPrefix l.pre r.pre = r.pre.length
  · have hna : n < l.pre.length := by omega
    have := reach_shorten l n (by omega)
    have kr : ∀ y ∈ r.kids, SubB l r (l.shorten (commonPrefix l.pre r.pre)) y := fun y hy => hn ▸
      { left := hl.shorten n, right := hr.kids.valid y hy, leftNe := shorten_ne hna, rightNe := hr.kids.ne y hy
        reach := ⟨n, by omega, by have := kid_reach hy; omega, fun _ h => by have := List.length_pos_iff.2 h; omega⟩ }
    refine ⟨r.kids.any (fun y => g (l.shorten (commonPrefix l.pre r.pre)) y), fun fuel h => ?_⟩
    rw [isSubsetGo, if_neg h1, if_neg h2, if_pos h3]
    exact anyC_eq fun y hy => (isSubsetGo_congr fuel (l := l) (l' := l.shorten (commonPrefix l.pre r.pre)) _ (r := y) (r' := y) _ rfl rfl rfl rfl).trans (h _ y (kr y hy))
  refine ⟨false, fun fuel h => ?_⟩
  rw [isSubsetGo, if_neg h1, if_neg h2, if_neg h3]

theorem isSubset_depth_ne : ∀ d (l : Tree K V) (r : Tree K W), Valid l → Valid r → l.pre ≠ [] → r.pre ≠ [] → min l.reach r.reach ≤ d →
    ∃ b, ∀ fuel, d ≤ fuel → isSubsetGo fuel l l.pre r r.pre = .ret b := by
  intro d
  induction d with
  | zero =>
    intro a b _ _ h1 h2 h
    have h1 := List.length_pos_iff.2 h1
    have h2 := List.length_pos_iff.2 h2
    rw [reach_eq a, reach_eq b] at h
    omega
  | succ d ih =>
    intro l r hl hr h1 h2 h
    obtain ⟨b, hb⟩ := isSubset_step hl hr (fun x y => match isSubsetGo d x x.pre y y.pre with | .ret b => b | .panic => false)
    refine ⟨b, fun fuel hf => ?_⟩
    cases fuel with
    | zero => omega
    | succ fuel =>
      refine hb fuel fun x y S => ?_
      obtain ⟨n, hx, hy, hn⟩ := S.reach
      have := hn h1 h2
      obtain ⟨b', hb'⟩ := ih x y S.left S.right S.leftNe S.rightNe (by omega)
      simp only [hb' d (Nat.le_refl _)]
      exact hb' fuel (by omega)

theorem isSubset_depth {l : Tree K V} {r : Tree K W} (hl : Valid l) (hr : Valid r) {fuel : Nat} (hf : min l.reach r.reach < fuel) :
    isSubsetGo fuel l l.pre r r.pre = l.isSubset r := by
  obtain ⟨b, hb⟩ := isSubset_step hl hr (fun x y => match isSubsetGo (min l.reach r.reach) x x.pre y y.pre with | .ret b => b | .panic => false)
  have key : ∀ fuel, min l.reach r.reach < fuel → isSubsetGo fuel l l.pre r r.pre = .ret b := by
    intro fuel hf
    cases fuel with
    | zero => omega
    | succ fuel =>
      refine hb fuel fun x y S => ?_
      obtain ⟨n, hx, hy, hn⟩ := S.reach
      obtain ⟨b', hb'⟩ := isSubset_depth_ne (min l.reach r.reach) x y S.left S.right S.leftNe S.rightNe (by omega)
      simp only [hb' _ (Nat.le_refl _)]
      exact hb' fuel (by omega)
  rw [key fuel hf]
  exact (key (l.size + r.size + 1) (by have := reach_le_size l; have := reach_le_size r; omega)).symm

/-! ### Lookup -/

omit [TransOrd K] [LawfulEqOrd K] in
theorem findGo_step (f1 f2 : Nat) (t : Tree K V) (p : List K)
    (h : t.pre.length < p.length → ∀ x ∈ t.kids, findGo f1 x (p.drop t.pre.length) = findGo f2 x (p.drop t.pre.length)) :
    findGo (f1 + 1) t p = findGo (f2 + 1) t p := by
  have hla := commonPrefix_le_left t.pre p
  have hlb := commonPrefix_le_right t.pre p
  rw [findGo, findGo]
  revert hla hlb
  generalize commonPrefix t.pre p = n
  intro hla hlb
  by_cases h1 : p.length - n = 0 ∧ t.pre.length - n = 0
  · rw [if_pos h1, if_pos h1]
  rw [if_neg h1, if_neg h1]
  by_cases h2 : p.length - n = 0
  · rw [if_pos h2, if_pos h2]
  rw [if_neg h2, if_neg h2]
  by_cases h3 : t.pre.length - n = 0
  · rw [if_pos h3, if_pos h3]
    have e : n = t.pre.length := by omega
    cases p[n]? with
    | none => rfl
    | some c =>
      simp only
      cases binarySearchBy (fun e : Tree K V => compare e.pre.head? (some c)) t.kids with
      | notFound i => rfl
      | found i =>
        simp only
        cases hk : t.kids[i]? with
        | none => rfl
        | some x =>
          simp only
          rw [e, h (by omega) x (List.mem_of_getElem? hk)]
  · rw [if_neg h3, if_neg h3]

omit [TransOrd K] [LawfulEqOrd K] in
theorem findGo_depth_ne : ∀ d (t : Tree K V) (p : List K), Valid t → t.pre ≠ [] → p.length ≤ d → 1 ≤ d → ∀ fuel, d ≤ fuel →
    findGo fuel t p = findGo d t p := by
  intro d
  induction d with
  | zero => intros; omega
  | succ d ih =>
    intro t p hv hne hp _ fuel hf
    cases fuel with
    | zero => omega
    | succ fuel =>
      refine findGo_step fuel d t p fun hlt x hx => ?_
      have := List.length_pos_iff.2 hne
      exact ih x _ (hv.kids.valid x hx) (hv.kids.ne x hx) (by rw [List.length_drop]; omega) (by omega) fuel (by omega)

omit [TransOrd K] [LawfulEqOrd K] in
/-- a lookup visits at most one node more than the key has components -/
theorem findGo_depth {t : Tree K V} (hv : Valid t) (p : List K) {f1 f2 : Nat} (h1 : p.length < f1) (h2 : p.length < f2) :
    findGo f1 t p = findGo f2 t p := by
  cases f1 with
  | zero => omega
  | succ f1 =>
    cases f2 with
    | zero => omega
    | succ f2 =>
      refine findGo_step f1 f2 t p fun hlt x hx => ?_
      have h := findGo_depth_ne p.length x (p.drop t.pre.length) (hv.kids.valid x hx) (hv.kids.ne x hx) (by rw [List.length_drop]; omega) (by omega)
      rw [h f1 (by omega), h f2 (by omega)]

omit [TransOrd K] [LawfulEqOrd K] in
/-- nor does it visit more nodes than there are -/
theorem findGo_size : ∀ {f1 f2 : Nat} {t : Tree K V} (_ : Valid t) (p : List K), t.size < f1 → t.size < f2 → findGo f1 t p = findGo f2 t p
  | 0, _, _, _, _, h, _ => by omega
  | _ + 1, 0, _, _, _, _, h => by omega
  | f1 + 1, f2 + 1, t, hv, p, h1, h2 =>
    findGo_step f1 f2 t p fun _ x hx => findGo_size (hv.kids.valid x hx) _ (by have := kid_size hx; omega) (by have := kid_size hx; omega)

/-! ### The shape of trees -/

omit [Ord K] [TransOrd K] [LawfulEqOrd K] [DecidableEq K] in
theorem reach_node (t : Tree K V) : ∃ p, NodeBy t p ∧ p.length = t.reach := by
  refine induct (P := fun t => ∃ p, NodeBy t p ∧ p.length = t.reach) ?_ t
  intro p v ks ih
  have : reach.reachL ks = 0 ∨ ∃ c ∈ ks, c.reach = reach.reachL ks := by
    clear ih
    induction ks with
    | nil => exact .inl rfl
    | cons c cs ihc =>
      simp only [reach.reachL]
      by_cases h : reach.reachL cs ≤ c.reach
      · exact .inr ⟨c, by simp, by omega⟩
      · rcases ihc with h0 | ⟨x, hx, e⟩
        · omega
        · exact .inr ⟨x, by simp [hx], by omega⟩
  rcases this with h0 | ⟨c, hc, e⟩
  · exact ⟨p, .here, by rw [reach_eq]; simp [h0]⟩
  · obtain ⟨q, hq, hl⟩ := ih c hc
    exact ⟨p ++ q, .there hc hq, by rw [reach_eq]; simp [hl, e]⟩

omit [Ord K] [TransOrd K] [LawfulEqOrd K] [DecidableEq K] in
theorem Shallow.reach {n : Nat} {t : Tree K V} (h : Shallow n t) : t.reach ≤ n := by
  obtain ⟨p, hp, e⟩ := reach_node t
  exact e ▸ h p hp

omit [Ord K] [TransOrd K] [LawfulEqOrd K] [DecidableEq K] in
theorem NodeBy.reach {t : Tree K V} {p : List K} (h : NodeBy t p) : p.length ≤ t.reach := by
  induction h with
  | here => rw [reach_eq]; simp
  | there hc _ ih => have := mem_reach hc; rw [reach_eq]; simp; omega

omit [Ord K] [TransOrd K] [LawfulEqOrd K] [DecidableEq K] in
theorem shallow_iff {n : Nat} {t : Tree K V} : Shallow n t ↔ t.reach ≤ n :=
  ⟨Shallow.reach, fun h _ hp => Nat.le_trans hp.reach h⟩

omit [Ord K] [TransOrd K] [LawfulEqOrd K] [DecidableEq K] in
theorem Entry.node {t : Tree K V} {k : List K} {v : V} (h : Entry t k v) : NodeBy t k := by
  induction h with
  | here => exact .here
  | there hc _ ih => exact .there hc ih

omit [TransOrd K] [LawfulEqOrd K] [DecidableEq K] [Ord K] in
/-- below every node of a tree without superfluous nodes there is an entry -/
theorem Full.entry_below {t : Tree K V} (hf : Full t) : ∃ r, HasEntry t r := by
  revert hf
  refine induct (P := fun t => Full t → ∃ r, HasEntry t r) ?_ t
  intro p v ks ih hf
  cases v with
  | some v => exact ⟨p, v, .here⟩
  | none =>
    have h2 := (full_iff.1 hf).1 rfl
    have h3 := (full_iff.1 hf).2
    simp only at h2 h3
    cases ks with
    | nil => simp at h2
    | cons c cs =>
      obtain ⟨r, v, h⟩ := ih c (by simp) (h3 c (by simp))
      exact ⟨p ++ r, v, .there (by simp) h⟩

omit [TransOrd K] [LawfulEqOrd K] [DecidableEq K] [Ord K] in
theorem Full.node_entry {t : Tree K V} (hf : Full t) {p : List K} (h : NodeBy t p) : ∃ r, HasEntry t (p ++ r) := by
  induction h with
  | @here p v ks =>
    obtain ⟨r, v', he⟩ := hf.entry_below
    cases he with
    | here => exact ⟨[], _, by simpa using Entry.here⟩
    | there hc he => exact ⟨_, _, .there hc he⟩
  | there hc _ ih =>
    obtain ⟨r, v, he⟩ := ih ((full_iff.1 hf).2 _ hc)
    exact ⟨r, v, by rw [List.append_assoc]; exact .there hc he⟩

omit [TransOrd K] [LawfulEqOrd K] [DecidableEq K] in
theorem Chain.le_reach {t : Tree K V} {n : Nat} (h : Chain t n) (hv : Valid t) : n + t.pre.length ≤ t.reach + 1 := by
  induction h with
  | root => rw [reach_eq]; omega
  | down hc _ ih =>
    have h1 := ih (hv.kids.valid _ hc)
    have h2 := List.length_pos_iff.2 (hv.kids.ne _ hc)
    have := mem_reach hc
    rw [reach_eq]
    simp only
    omega

/-! ### Iterators -/

/-- the nodes on the stack of an iterator over `root`: each is a child of the one below it -/
inductive OnPath (root : Tree K V) : List (Tree K V × Nat) → Prop
  | nil : OnPath root []
  | root {pos : Nat} : OnPath root [(root, pos)]
  | push {c x : Tree K V} {pos pos' : Nat} {rest : List (Tree K V × Nat)} :
      c ∈ x.kids → OnPath root ((x, pos') :: rest) → OnPath root ((c, pos) :: (x, pos') :: rest)

omit [Ord K] [TransOrd K] [LawfulEqOrd K] [DecidableEq K] in
theorem OnPath.setPos {root t : Tree K V} {pos : Nat} (pos' : Nat) {rest : List (Tree K V × Nat)} (h : OnPath root ((t, pos) :: rest)) :
    OnPath root ((t, pos') :: rest) := by
  cases h with
  | root => exact .root
  | push hc h => exact .push hc h

omit [Ord K] [TransOrd K] [LawfulEqOrd K] [DecidableEq K] in
theorem OnPath.pop {root t : Tree K V} {pos : Nat} {rest : List (Tree K V × Nat)} (h : OnPath root ((t, pos) :: rest)) : OnPath root rest := by
  cases h with
  | root => exact .nil
  | push hc h => exact h

omit [TransOrd K] [LawfulEqOrd K] [DecidableEq K] in
theorem OnPath.bound {root : Tree K V} (hv : Valid root) {stack : List (Tree K V × Nat)} (h : OnPath root stack) :
    stack.length ≤ root.reach + 1 ∧ ∀ t pos rest, stack = (t, pos) :: rest →
      Valid t ∧ stack.length + t.reach ≤ root.reach + 1 + (if t.pre = [] ∨ rest = [] then 0 else 1) ∧ (rest ≠ [] → t.pre ≠ []) := by
  induction h with
  | nil => exact ⟨by simp, fun _ _ _ e => by cases e⟩
  | root =>
    refine ⟨by simp, fun t pos rest e => ?_⟩
    simp only [List.cons.injEq, Prod.mk.injEq] at e
    obtain ⟨⟨rfl, _⟩, rfl⟩ := e
    exact ⟨hv, by simp only [List.length_cons, List.length_nil]; omega, fun h => absurd rfl h⟩
  | @push c x pos pos' rest hc h ih =>
    obtain ⟨_, ih⟩ := ih
    obtain ⟨hx, hb, hr⟩ := ih x pos' rest rfl
    have hne := hx.kids.ne c hc
    have hcr := kid_reach hc
    have hpos := List.length_pos_iff.2 hne
    have hce := reach_eq c
    have key : ((c, pos) :: (x, pos') :: rest).length + c.reach ≤ root.reach + 2 := by
      simp only [List.length_cons] at hb ⊢
      by_cases hrest : rest = []
      · rw [if_pos (.inr hrest)] at hb; omega
      · have := List.length_pos_iff.2 (hr hrest)
        split at hb <;> omega
    refine ⟨by omega, fun t p r e => ?_⟩
    simp only [List.cons.injEq, Prod.mk.injEq] at e
    obtain ⟨⟨rfl, _⟩, rfl⟩ := e
    refine ⟨hx.kids.valid _ hc, ?_, fun _ => hne⟩
    rw [if_neg (by simp [hne])]
    omega

omit [Ord K] [TransOrd K] [LawfulEqOrd K] [DecidableEq K] in
theorem iter_onPath (root : Tree K V) {s s' : Iter K V} (h : OnPath root s.stack) (hl : Later Iter.turn s s') : OnPath root s'.stack := by
  induction hl with
  | start => exact h
  | @again a b _ e ih =>
    revert e ih
    obtain ⟨path, stack⟩ := a
    cases stack with
    | nil => intro e; cases e
    | cons top rest =>
      obtain ⟨t, pos⟩ := top
      cases pos with
      | zero =>
        simp only [Iter.turn]
        cases t.val with
        | some v => intro e; cases e
        | none => intro e ih; cases e; exact ih.setPos 1
      | succ pos =>
        simp only [Iter.turn]
        cases hk : t.kids[pos]? with
        | some c => intro e ih; cases e; exact .push (List.mem_of_getElem? hk) (ih.setPos _)
        | none => intro e ih; cases e; exact ih.pop
  | @yield a b _ _ e ih =>
    revert e ih
    obtain ⟨path, stack⟩ := a
    cases stack with
    | nil => intro e; cases e
    | cons top rest =>
      obtain ⟨t, pos⟩ := top
      cases pos with
      | zero =>
        simp only [Iter.turn]
        cases t.val with
        | some v => intro e ih; cases e; exact ih.setPos 1
        | none => intro e; cases e
      | succ pos =>
        simp only [Iter.turn]
        cases hk : t.kids[pos]? with
        | some c => intro e; cases e
        | none => intro e; cases e

omit [Ord K] [TransOrd K] [LawfulEqOrd K] [DecidableEq K] in
theorem values_onPath (root : Tree K V) {s s' : Values K V} (h : OnPath root s.stack) (hl : Later Values.turn s s') : OnPath root s'.stack := by
  induction hl with
  | start => exact h
  | @again a b _ e ih =>
    revert e ih
    obtain ⟨stack⟩ := a
    cases stack with
    | nil => intro e; cases e
    | cons top rest =>
      obtain ⟨t, pos⟩ := top
      cases pos with
      | zero =>
        simp only [Values.turn]
        cases t.val with
        | some v => intro e; cases e
        | none => intro e ih; cases e; exact ih.setPos 1
      | succ pos =>
        simp only [Values.turn]
        cases hk : t.kids[pos]? with
        | some c => intro e ih; cases e; exact .push (List.mem_of_getElem? hk) (ih.setPos _)
        | none => intro e ih; cases e; exact ih.pop
  | @yield a b _ _ e ih =>
    revert e ih
    obtain ⟨stack⟩ := a
    cases stack with
    | nil => intro e; cases e
    | cons top rest =>
      obtain ⟨t, pos⟩ := top
      cases pos with
      | zero =>
        simp only [Values.turn]
        cases t.val with
        | some v => intro e ih; cases e; exact ih.setPos 1
        | none => intro e; cases e
      | succ pos =>
        simp only [Values.turn]
        cases hk : t.kids[pos]? with
        | some c => intro e; cases e
        | none => intro e; cases e

omit [Ord K] [TransOrd K] [LawfulEqOrd K] [DecidableEq K] in
theorem iter_turns : ∀ (t : Tree K V) (q : List K) (rest : List (Tree K V × Nat)) (n : Nat),
    (∀ q', Turns Iter.turn ⟨q', rest⟩ n) → Turns Iter.turn ⟨q, (t, 0) :: rest⟩ (3 * t.nodes - 1 + n) := by
  refine induct ?_
  intro p v ks ih q rest n hn
  have kids : ∀ m pos q, pos + m = ks.length →
      Turns Iter.turn ⟨q, (⟨p, v, ks⟩, pos + 1) :: rest⟩ (1 + 3 * nodes.nodesL (ks.drop pos) + n) := by
    intro m
    induction m with
    | zero =>
      intro pos q hp
      rw [List.drop_of_length_le (by omega), show 1 + 3 * nodes.nodesL ([] : List (Tree K V)) + n = n + 1 by simp [nodes.nodesL]; omega]
      refine .again (s' := ⟨q.take (q.length - p.length), rest⟩) ?_ (hn _)
      simp only [Iter.turn]
      rw [List.getElem?_eq_none (by omega)]
    | succ m ihm =>
      intro pos q hp
      have hlt : pos < ks.length := by omega
      have := ih ks[pos] (List.getElem_mem hlt) (q ++ ks[pos].pre) ((⟨p, v, ks⟩, pos + 2) :: rest) _ (fun q' => ihm (pos + 1) q' (by omega))
      have hpos : 1 ≤ ks[pos].nodes := by generalize ks[pos] = c; obtain ⟨p, v, ks⟩ := c; simp only [nodes]; omega
      rw [List.drop_eq_getElem_cons hlt, show 1 + 3 * nodes.nodesL (ks[pos] :: ks.drop (pos + 1)) + n =
        3 * ks[pos].nodes - 1 + (1 + 3 * nodes.nodesL (ks.drop (pos + 1)) + n) + 1 by simp only [nodes.nodesL]; omega]
      refine .again ?_ this
      simp only [Iter.turn]
      rw [List.getElem?_eq_getElem hlt]
  have hk := kids ks.length 0 q (by omega)
  simp only [List.drop_zero] at hk
  rw [show 3 * nodes (⟨p, v, ks⟩ : Tree K V) - 1 + n = 1 + 3 * nodes.nodesL ks + n + 1 by simp only [nodes]; omega]
  cases v with
  | none => exact .again (by simp [Iter.turn]) hk
  | some v => exact .yield rfl hk

omit [Ord K] [TransOrd K] [LawfulEqOrd K] [DecidableEq K] in
theorem values_turns : ∀ (t : Tree K V) (rest : List (Tree K V × Nat)) (n : Nat),
    Turns Values.turn ⟨rest⟩ n → Turns Values.turn ⟨(t, 0) :: rest⟩ (3 * t.nodes - 1 + n) := by
  refine induct ?_
  intro p v ks ih rest n hn
  have kids : ∀ m pos, pos + m = ks.length →
      Turns Values.turn ⟨(⟨p, v, ks⟩, pos + 1) :: rest⟩ (1 + 3 * nodes.nodesL (ks.drop pos) + n) := by
    intro m
    induction m with
    | zero =>
      intro pos hp
      rw [List.drop_of_length_le (by omega), show 1 + 3 * nodes.nodesL ([] : List (Tree K V)) + n = n + 1 by simp [nodes.nodesL]; omega]
      refine .again (s' := ⟨rest⟩) ?_ hn
      simp only [Values.turn]
      rw [List.getElem?_eq_none (by omega)]
    | succ m ihm =>
      intro pos hp
      have hlt : pos < ks.length := by omega
      have := ih ks[pos] (List.getElem_mem hlt) ((⟨p, v, ks⟩, pos + 2) :: rest) _ (ihm (pos + 1) (by omega))
      have hpos : 1 ≤ ks[pos].nodes := by generalize ks[pos] = c; obtain ⟨p, v, ks⟩ := c; simp only [nodes]; omega
      rw [List.drop_eq_getElem_cons hlt, show 1 + 3 * nodes.nodesL (ks[pos] :: ks.drop (pos + 1)) + n =
        3 * ks[pos].nodes - 1 + (1 + 3 * nodes.nodesL (ks.drop (pos + 1)) + n) + 1 by simp only [nodes.nodesL]; omega]
      refine .again ?_ this
      simp only [Values.turn]
      rw [List.getElem?_eq_getElem hlt]
  have hk := kids ks.length 0 (by omega)
  simp only [List.drop_zero] at hk
  rw [show 3 * nodes (⟨p, v, ks⟩ : Tree K V) - 1 + n = 1 + 3 * nodes.nodesL ks + n + 1 by simp only [nodes]; omega]
  cases v with
  | none => exact .again (by simp [Values.turn]) hk
  | some v => exact .yield rfl hk

/-! ### Space -/

omit [Ord K] [TransOrd K] [LawfulEqOrd K] [DecidableEq K] in
theorem nodes_bound : ∀ (t : Tree K V), Full t → ∀ q, t.nodes + 1 ≤ 2 * (items q t).length := by
  refine induct ?_
  intro p v ks ih hf q
  have h2 := (full_iff.1 hf).1
  have h3 := (full_iff.1 hf).2
  simp only at h2 h3
  have key : nodes.nodesL ks + ks.length ≤ 2 * (itemsL q ks).length := by
    clear h2 hf
    induction ks with
    | nil => simp [nodes.nodesL]
    | cons c cs ihc =>
      have := ih c (by simp) (h3 c (by simp)) (q ++ c.pre)
      have := ihc (fun c hc => ih c (by simp [hc])) (fun c hc => h3 c (by simp [hc]))
      simp only [nodes.nodesL, itemsL, List.length_append, List.length_cons]
      omega
  simp only [nodes, items, List.length_append, List.length_map]
  cases v with
  | none => have := h2 rfl; simp; omega
  | some v => simp; omega

omit [Ord K] [TransOrd K] [LawfulEqOrd K] [DecidableEq K] in
theorem components_bound : ∀ (t : Tree K V), Full t → ∀ q : List K,
    1 ≤ (items (q ++ t.pre) t).length ∧
    t.components + q.length * (items (q ++ t.pre) t).length ≤ ((items (q ++ t.pre) t).map (fun e => e.1.length)).sum := by
  refine induct ?_
  intro p v ks ih hf q
  have h2 := (full_iff.1 hf).1
  have h3 := (full_iff.1 hf).2
  simp only at h2 h3
  have key : ks.length ≤ (itemsL (q ++ p) ks).length ∧ components.componentsL ks + (q ++ p).length * (itemsL (q ++ p) ks).length ≤ ((itemsL (q ++ p) ks).map (fun e => e.1.length)).sum := by
    clear h2 hf
    generalize q ++ p = q
    induction ks with
    | nil => simp [components.componentsL, itemsL]
    | cons c cs ihc =>
      have h := ih c (by simp) (h3 c (by simp)) q
      have := ihc (fun c hc => ih c (by simp [hc])) (fun c hc => h3 c (by simp [hc]))
      simp only [components.componentsL, itemsL, List.length_append, List.length_cons, List.map_append, List.sum_append, Nat.mul_add]
      omega
  have hk : 1 ≤ (items (q ++ p) (⟨p, v, ks⟩ : Tree K V)).length := by
    rw [items_eq]
    cases v with
    | none => have := h2 rfl; simp; omega
    | some v => simp
  refine ⟨hk, ?_⟩
  rw [items_eq] at hk ⊢
  simp only [components, List.length_append, List.length_map, List.map_append, List.sum_append] at hk key ⊢
  obtain ⟨_, key⟩ := key
  generalize (itemsL (q ++ p) ks).length = m at *
  generalize ((itemsL (q ++ p) ks).map (fun e => e.1.length)).sum = S at *
  cases v with
  | none =>
    have hm : p.length ≤ p.length * m := by
      have : 1 ≤ m := by simpa using hk
      exact Nat.le_mul_of_pos_right _ this
    simp [Nat.add_mul, Nat.mul_add] at key ⊢
    omega
  | some v =>
    simp [Nat.add_mul, Nat.mul_add] at key ⊢
    omega
end
end Tree
end Verif
