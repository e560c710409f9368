import Verif.Lemmas.RadixOps
/-! Pointwise meaning of the tree combinations. -/
namespace Verif
namespace Tree
open Std

section
variable {K V W : Type _}

/-! ### Observations -/

section obs
variable [DecidableEq K]

/-- look at the value stored -/
def denObs : Obs K W (Option W) := { no := none, all := none, here := id, get := den }

mutual
/-- the value field of the node at exactly this key, if there is a node -/
def nodeAt : Tree K W → List K → Option (Option W)
  | ⟨p, v, ks⟩, k =>
    match strip p k with
    | none => none
    | some [] => some v
    | some (c :: r) => nodeAtL ks (c :: r)
/-- first child that has such a node -/
def nodeAtL : List (Tree K W) → List K → Option (Option W)
  | [], _ => none
  | c :: cs, k => (nodeAt c k).or (nodeAtL cs k)
end

/-- look at the node -/
def nodeObs : Obs K W (Option (Option W)) := { no := none, all := none, here := some, get := nodeAt }

/-- look whether a selected key is a prefix -/
def coverObs (f : W → Bool) : Obs K W Prop :=
  { no := False, all := True, here := fun w => selected f w = true
    get := fun t k => ∃ p r w, k = p ++ r ∧ den t p = some w ∧ f w = true }

theorem nodeAt_at (t : Tree K W) : nodeAt t t.pre = some t.val := by
  obtain ⟨p, v, ks⟩ := t
  have := strip_append p []
  simp only [List.append_nil] at this
  simp [nodeAt, this]
theorem nodeAt_below (t : Tree K W) (c : K) (r : List K) : nodeAt t (t.pre ++ c :: r) = nodeAtL t.kids (c :: r) := by
  obtain ⟨p, v, ks⟩ := t
  simp [nodeAt, strip_append]
theorem nodeAt_out (t : Tree K W) (k : List K) (h : ∀ r, k ≠ t.pre ++ r) : nodeAt t k = none := by
  obtain ⟨p, v, ks⟩ := t
  simp [nodeAt, strip_eq_none.2 h]

variable [Ord K] [TransOrd K] [LawfulEqOrd K]

theorem nodeAtL_eq {ks : List (Tree K W)} (h : Kids ks) (c : K) (r : List K) :
    nodeAtL ks (c :: r) = (findBy hd ks (some c)).bind (fun x => nodeAt x (c :: r)) := by
  induction ks with
  | nil => rfl
  | cons x ks ih =>
    rw [nodeAtL, findBy_cons, ih (h.sublist (List.sublist_cons_self ..))]
    by_cases hx : compare (hd x) (some c) = .eq
    · rw [if_pos hx]
      have hn : findBy hd ks (some c) = none := by
        refine findBy_none_of_lt (k' := hd x) ?_ hx
        exact (ascendingBy_cons.1 h.asc).1
      simp [hn]
    · rw [if_neg hx]
      have : nodeAt x (c :: r) = none := by
        refine nodeAt_out x _ ?_
        intro s e
        obtain ⟨c', r', hp⟩ := head?_some_of_ne (h.ne x (by simp))
        rw [hp] at e
        simp at e
        exact hx (by simp [hd, hp, e.1, cmp_self])
      simp [this]

theorem denObs_laws : ObsLaws (denObs : Obs K W (Option W)) (fun _ => false) where
  out := den_out
  node := den_at
  below t h _ c r := by
    show den t _ = _
    rw [den_below, denL_eq h.kids]
    cases findBy hd t.kids (some c) <;> rfl
  stopped t _ h := by cases h

theorem nodeObs_laws : ObsLaws (nodeObs : Obs K W (Option (Option W))) (fun _ => false) where
  out := nodeAt_out
  node := nodeAt_at
  below t h _ c r := by
    show nodeAt t _ = _
    rw [nodeAt_below, nodeAtL_eq h.kids]
    cases findBy hd t.kids (some c) <;> rfl
  stopped t _ h := by cases h

theorem selected_iff {f : W → Bool} {v : Option W} : selected f v = true ↔ ∃ w, v = some w ∧ f w = true := by
  cases v <;> simp [selected]

theorem coverObs_laws (f : W → Bool) : ObsLaws (coverObs f : Obs K W Prop) (selected f) where
  out t k h := by
    apply propext
    refine ⟨?_, False.elim⟩
    rintro ⟨p, r, w, rfl, hd, _⟩
    have : ∀ s, p ≠ t.pre ++ s := by
      rintro s rfl
      exact h (s ++ r) (by simp)
    rw [den_out t p this] at hd
    cases hd
  node t := by
    apply propext
    show _ ↔ selected f t.val = true
    rw [selected_iff]
    constructor
    · rintro ⟨p, r, w, hk, hd, hf⟩
      by_cases hp : ∃ s, p = t.pre ++ s
      · obtain ⟨s, rfl⟩ := hp
        have : s = [] := by
          have := congrArg List.length hk
          simp only [List.length_append] at this
          exact List.length_eq_zero_iff.1 (by omega)
        subst this
        rw [List.append_nil, den_at] at hd
        exact ⟨w, hd, hf⟩
      · rw [den_out t p (fun s e => hp ⟨s, e⟩)] at hd; cases hd
    · rintro ⟨w, hv, hf⟩
      exact ⟨t.pre, [], w, by simp, by rw [den_at, hv], hf⟩
  below t h hs c r := by
    apply propext
    constructor
    · rintro ⟨p, r', w, hk, hd, hf⟩
      by_cases hp : ∃ s, p = t.pre ++ s
      · obtain ⟨s, rfl⟩ := hp
        cases s with
        | nil =>
          rw [List.append_nil, den_at] at hd
          rw [selected_iff.2 ⟨w, hd, hf⟩] at hs
          cases hs
        | cons c' s =>
          simp at hk
          obtain ⟨rfl, rfl⟩ := hk
          rw [den_below, denL_eq h.kids] at hd
          cases hx : findBy Tree.hd t.kids (some c) with
          | none => rw [hx] at hd; cases hd
          | some x =>
            rw [hx] at hd
            exact ⟨c :: s, r', w, rfl, hd, hf⟩
      · rw [den_out t p (fun s e => hp ⟨s, e⟩)] at hd; cases hd
    · intro hg
      cases hx : findBy Tree.hd t.kids (some c) with
      | none => rw [hx] at hg; exact False.elim hg
      | some x =>
        rw [hx] at hg
        obtain ⟨p, r', w, hk, hd, hf⟩ := hg
        have hxm := findBy_hd_mem hx
        cases p with
        | nil =>
          rw [den_out x [] ?_] at hd
          · cases hd
          · intro s e
            have : x.pre = [] := by
              cases hp : x.pre with
              | nil => rfl
              | cons a b => rw [hp] at e; simp at e
            exact h.kids.ne x hxm.1 this
        | cons c' s =>
          simp at hk
          obtain ⟨rfl, rfl⟩ := hk
          refine ⟨t.pre ++ c :: s, r', w, by simp, ?_, hf⟩
          rw [den_below, denL_eq h.kids, hx]
          exact hd
  stopped t _ hs r := by
    apply propext
    refine ⟨fun _ => trivial, fun _ => ?_⟩
    obtain ⟨w, hv, hf⟩ := selected_iff.1 hs
    exact ⟨t.pre, r, w, rfl, by rw [den_at, hv], hf⟩

/-! ### Parameters -/

theorem outerPar_good (f : V → V → Option V) :
    Good (outerPar f : Par K V V) denObs (fun x y z => z = outerPureVal f x y) where
  no := rfl
  va v := by cases v <;> rfl
  vb w _ := by cases w <;> rfl
  vs v w _ := rfl
  gaEq a t h := by simp [outerPar] at h; exact h.symm
  ga a k _ _ := by show den a k = _; cases den a k <;> rfl
  gbOk b t hv _ h := by simp [outerPar] at h; subst h; exact ⟨hv, rfl, id⟩
  gb b k _ _ := by
    show den b k = outerPureVal f none (den b k)
    cases den b k <;> rfl
  stop _ h := by cases h
  dis d h := by cases h

theorem innerPar_good (f : V → W → Option V) :
    Good (innerPar f : Par K V W) denObs (fun x y z => z = innerPureVal f x y) where
  no := rfl
  va v := by cases v <;> rfl
  vb w _ := by cases w <;> rfl
  vs v w _ := rfl
  gaEq a t h := by simp [innerPar] at h
  ga a k _ _ := by show none = _; cases den a k <;> rfl
  gbOk b t hv _ h := by simp [innerPar] at h
  gb b k _ _ := by
    show none = innerPureVal f none (den b k)
    cases den b k <;> rfl
  stop _ h := by cases h
  dis d h := by
    simp [innerPar] at h; subst h
    exact ⟨fun v => by cases v <;> rfl, fun y => by cases y <;> rfl⟩

theorem leftMutPar_good (f : V → W → Option V) :
    Good (leftPar (leftMutVal f) : Par K V W) denObs (fun x y z => z = leftMutVal f x y) where
  no := rfl
  va v := rfl
  vb w _ := by cases w <;> rfl
  vs v w _ := rfl
  gaEq a t h := by simp [leftPar] at h; exact h.symm
  ga a k _ _ := rfl
  gbOk b t hv _ h := by simp [leftPar] at h
  gb b k _ _ := by
    show none = leftMutVal f none (den b k)
    cases den b k <;> rfl
  stop _ h := by cases h
  dis d h := by
    simp [leftPar] at h; subst h
    exact ⟨fun v => rfl, fun y => by cases y <;> rfl⟩

/-- `left_combine` consults `f` where the right tree has a node -/
def leftAt (f : V → Option W → Option V) (x : Option V) (y : Option (Option W)) : Option V :=
  match y with
  | some w => leftPureVal f x w
  | none => x

theorem leftPar_good (f : V → Option W → Option V) :
    Good (leftPar (leftPureVal f) : Par K V W) nodeObs (fun x y z => z = leftAt f x y) where
  no := rfl
  va v := rfl
  vb w _ := rfl
  vs v w _ := rfl
  gaEq a t h := by simp [leftPar] at h; exact h.symm
  ga a k _ _ := rfl
  gbOk b t hv _ h := by simp [leftPar] at h
  gb b k _ _ := by
    show none = leftAt f none (nodeAt b k)
    cases nodeAt b k <;> rfl
  stop _ h := by cases h
  dis d h := by
    simp [leftPar] at h; subst h
    exact ⟨fun v => rfl, fun y => by cases y <;> rfl⟩

theorem removePar_good (f : W → Bool) :
    Good (removePar f : Par K V W) (coverObs f) (fun x y z => (y → z = none) ∧ (¬y → z = x)) where
  no := ⟨fun _ => rfl, fun _ => rfl⟩
  va v := ⟨False.elim, fun _ => rfl⟩
  vb w _ := ⟨fun _ => rfl, fun _ => rfl⟩
  vs v w h := ⟨fun h' => absurd (show selected f w = true from h') (by rw [show selected f w = false from h]; simp), fun _ => rfl⟩
  gaEq a t h := by simp [removePar] at h; exact h.symm
  ga a k _ _ := ⟨False.elim, fun _ => rfl⟩
  gbOk b t hv _ h := by simp [removePar] at h
  gb b k _ _ := ⟨fun _ => rfl, fun _ => rfl⟩
  stop _ h v := ⟨fun _ => rfl, fun h => absurd trivial h⟩
  dis d h := by
    simp [removePar] at h; subst h
    exact ⟨fun v => ⟨False.elim, fun _ => rfl⟩, fun y => ⟨fun _ => rfl, fun _ => rfl⟩⟩

theorem retainPar_good (f : W → Bool) :
    Good (retainPar f : Par K V W) (coverObs f) (fun x y z => (y → z = x) ∧ (¬y → z = none)) where
  no := ⟨fun _ => rfl, fun _ => rfl⟩
  va v := ⟨False.elim, fun _ => rfl⟩
  vb w _ := ⟨fun _ => rfl, fun _ => rfl⟩
  vs v w h := ⟨fun h' => absurd (show selected f w = true from h') (by rw [show selected f w = false from h]; simp), fun _ => rfl⟩
  gaEq a t h := by simp [retainPar] at h
  ga a k _ _ := ⟨False.elim, fun _ => rfl⟩
  gbOk b t hv _ h := by simp [retainPar] at h
  gb b k _ _ := ⟨fun _ => rfl, fun _ => rfl⟩
  stop _ h v := ⟨fun _ => rfl, fun h => absurd trivial h⟩
  dis d h := by
    simp [retainPar] at h; subst h
    exact ⟨fun v => ⟨False.elim, fun _ => rfl⟩, fun y => ⟨fun _ => rfl, fun _ => rfl⟩⟩

/-! ### The operations -/

/-- what every combination guarantees about the shape of its result -/
structure Shape (a : Tree K V) (b : Tree K W) (r : Tree K V) : Prop where
  valid : Valid r
  canonical : Canonical a → Canonical b → Canonical r

theorem outerCombine_spec {a b : Tree K V} (ha : Valid a) (hb : Valid b) (f : V → V → Option V) :
    ∃ r, outerCombine a b f = .ret r ∧ Shape a b r ∧ ∀ k, den r k = outerPureVal f (den a k) (den b k) := by
  have S := ref_spec (outerPar_good f) denObs_laws (a.size + b.size + 1) a b ha hb (by omega)
  exact ⟨_, outerGo_eq _ a b ha hb (by omega), ⟨S.1, S.2.2.2⟩, S.2.1⟩

theorem outerCombineWith_spec {a b : Tree K V} (ha : Valid a) (hb : Valid b) {f : MutFn V V} (hf : NoPanic f) :
    outerCombineWith a b f = (match outerCombine a b (pureOf f) with | .ret r => r | .panic => a, .cont) := by
  unfold outerCombineWith outerCombine
  rw [outerGo_eq _ a b ha hb (by omega), outerWithGo_eq hf _ a b ha hb (by omega)]

theorem innerCombine_spec {a : Tree K V} {b : Tree K W} (ha : Valid a) (hb : Valid b) (f : V → W → Option V) :
    ∃ r, innerCombine a b f = .ret r ∧ Shape a b r ∧ ∀ k, den r k = innerPureVal f (den a k) (den b k) := by
  have S := ref_spec (innerPar_good f) denObs_laws (a.size + b.size + 1) a b ha hb (by omega)
  exact ⟨_, innerGo_eq _ a b ha hb (by omega), ⟨S.1, S.2.2.2⟩, S.2.1⟩

theorem innerCombineWith_spec {a : Tree K V} {b : Tree K W} (ha : Valid a) (hb : Valid b) {f : MutFn V W} (hf : NoPanic f) :
    innerCombineWith a b f = (match innerCombine a b (pureOf f) with | .ret r => r | .panic => a, .cont) := by
  unfold innerCombineWith innerCombine
  rw [innerGo_eq _ a b ha hb (by omega), innerWithGo_eq hf _ a b ha hb (by omega)]

theorem leftCombine_spec {a : Tree K V} {b : Tree K W} (ha : Valid a) (hb : Valid b) (f : V → Option W → Option V) :
    ∃ r, leftCombine a b f = .ret r ∧ Shape a b r ∧ ∀ k, den r k = leftAt f (den a k) (nodeAt b k) := by
  have S := ref_spec (leftPar_good f) nodeObs_laws (a.size + b.size + 1) a b ha hb (by omega)
  exact ⟨_, leftGo_eq _ a b ha hb (by omega), ⟨S.1, S.2.2.2⟩, S.2.1⟩

theorem leftCombineWith_spec {a : Tree K V} {b : Tree K W} (ha : Valid a) (hb : Valid b) {f : MutFn V W} (hf : NoPanic f) :
    ∃ r, leftCombineWith a b f = (r, .cont) ∧ Shape a b r ∧ ∀ k, den r k = leftMutVal (pureOf f) (den a k) (den b k) := by
  have S := ref_spec (leftMutPar_good (pureOf f)) denObs_laws (a.size + b.size + 1) a b ha hb (by omega)
  exact ⟨_, leftWithGo_eq hf _ a b ha hb (by omega), ⟨S.1, S.2.2.2⟩, S.2.1⟩

/-- `left_combine` with a closure that keeps unmatched values is the same as `left_combine_with` -/
theorem leftCombine_eq {a : Tree K V} {b : Tree K W} (ha : Valid a) (hb : Valid b) {f : MutFn V W} (hf : NoPanic f)
    {g : V → Option W → Option V} (hg : ∀ v w, g v w = leftMutVal (pureOf f) (some v) w) :
    leftCombineWith a b f = (match leftCombine a b g with | .ret r => r | .panic => a, .cont) := by
  have e : leftPureVal g = leftMutVal (pureOf f) := by
    funext v w
    cases v with
    | none => cases w <;> rfl
    | some v => exact hg v w
  unfold leftCombineWith leftCombine
  rw [leftGo_eq _ a b ha hb (by omega), leftWithGo_eq hf _ a b ha hb (by omega), e]

/-- `b` has a selected key that is a prefix of `k` -/
def Covered (f : W → Bool) (b : Tree K W) (k : List K) : Prop := ∃ p r w, k = p ++ r ∧ den b p = some w ∧ f w = true

theorem removePrefixWith_spec {a : Tree K V} {b : Tree K W} (ha : Valid a) (hb : Valid b) (f : W → Bool) :
    ∃ r, removePrefixWith a b f = (r, .cont) ∧ Shape a b r ∧
      ∀ k, (Covered f b k → den r k = none) ∧ (¬Covered f b k → den r k = den a k) := by
  have S := ref_spec (removePar_good f) (coverObs_laws f) (a.size + b.size + 1) a b ha hb (by omega)
  exact ⟨_, removePrefixGo_eq _ a b ha hb (by omega), ⟨S.1, S.2.2.2⟩, S.2.1⟩

theorem retainPrefixWith_spec {a : Tree K V} {b : Tree K W} (ha : Valid a) (hb : Valid b) (f : W → Bool) :
    ∃ r, retainPrefixWith a b f = (r, .cont) ∧ Shape a b r ∧
      ∀ k, (Covered f b k → den r k = den a k) ∧ (¬Covered f b k → den r k = none) := by
  have S := ref_spec (retainPar_good f) (coverObs_laws f) (a.size + b.size + 1) a b ha hb (by omega)
  exact ⟨_, retainPrefixGo_eq _ a b ha hb (by omega), ⟨S.1, S.2.2.2⟩, S.2.1⟩

end obs
end
end Tree
end Verif
