import Verif.Lemmas.HostileRadix
/-! Radix trees over key components that obey no law: the combinations in place end without undefined behaviour and invent no values. -/
namespace Verif
namespace Hostile
namespace Radix
variable {W K V X : Type}

theorem childrenWith_acc {op : HOp W (InPlaceMS (Tree K V) (Tree K X)) (Tree K V) (Tree K X)} {t : Tree K V} {rhs : List (Tree K X)} {gb : Tree K X → List V}
    (h : OpOk True (AccJ t.kids rhs gb) (AccI t.kids rhs gb) (fun _ _ => True) op) (w : W) :
    OkS True (fun t' => t'.val = t.val ∧ Within (t'.kids.flatMap vals) (t.kids.flatMap vals ++ rhs.flatMap gb)) (fun _ => True) (childrenWith op t rhs w) := by
  obtain ⟨h1, h2, -⟩ := driveAll_ok h { tgt := [], src := t.kids, b := rhs } w ⟨[], [], rfl, rfl, Within.nil _⟩
  exact ⟨⟨rfl, h1⟩, h2, fun _ => trivial, fun _ => trivial⟩

theorem isEmpty_vals {t : Tree K V} (h : t.isEmpty = true) : vals t = [] := by
  rw [vals_eq]
  simp only [Tree.isEmpty, Bool.and_eq_true, Option.isNone_iff_eq_none, List.isEmpty_iff] at h
  rw [h.1, h.2]; rfl

theorem filter_vals (ks : List (Tree K V)) : (ks.filter fun x => !x.isEmpty).flatMap vals = ks.flatMap vals := by
  induction ks with
  | nil => rfl
  | cons c cs ih =>
    rw [List.filter_cons]
    split
    · rw [List.flatMap_cons, List.flatMap_cons, ih]
    · rename_i h
      rw [List.flatMap_cons, ih, isEmpty_vals (by simpa using h), List.nil_append]

theorem prepend_vals (t : Tree K V) (p : List K) : vals (t.prepend p) = vals t := by
  unfold Tree.prepend
  split
  · rw [vals_eq, vals_eq]
  · rfl

theorem unsplit_vals (t : Tree K V) : vals t.unsplit = vals t := by
  have h1 : vals t.dropEmptyKids = vals t := by
    rw [vals_eq, vals_eq t]; unfold Tree.dropEmptyKids; rw [filter_vals]
  have h2 : ∀ t : Tree K V, vals t.mergeOnlyChild = vals t := by
    intro t
    unfold Tree.mergeOnlyChild
    split
    · rename_i c hk hv
      rw [prepend_vals, vals_eq t, hk, hv]; simp
    · rfl
  have h3 : ∀ t : Tree K V, vals t.clearEmptyPrefix = vals t := by
    intro t
    unfold Tree.clearEmptyPrefix
    split
    · rw [vals_eq, vals_eq t]
    · rfl
  unfold Tree.unsplit
  rw [h3, h2, h1]

theorem materialize_facts {t t' : Tree K V} {n : Nat} (h : t.materializeShortened n = .ret t') : n < t.pre.length ∧ t' = { t with pre := t.pre.drop n } := by
  have := Tree.materializeShortened_ret t n t' h
  refine ⟨?_, ?_⟩
  · cases t with
    | mk p v ks =>
      rw [Tree.materializeShortened] at h
      split at h
      · assumption
      · cases h
  · exact this.2

theorem applyMut_keep {f : Tree.MutFn V X} {v : V} {w : X} : Within (Tree.applyMut f v w).1.toList [(f v w).1] := by
  unfold Tree.applyMut
  split
  · rename_i h; rw [h]; exact Within.refl _
  · exact Within.nil _
  · rename_i h; rw [h]; exact Within.refl _

theorem outerVal_within {f : Tree.MutFn V V} (hf : Chooses f) (v w : Option V) : Within (Tree.outerVal f v w).1.toList (v.toList ++ w.toList) := by
  cases w with
  | none => simpa [Tree.outerVal] using Within.refl v.toList
  | some w =>
    cases v with
    | none => exact Within.refl [w]
    | some v =>
      refine applyMut_keep.trans ?_
      rcases hf v w with h | h
      · rw [h]; exact Within.left [v] [w]
      · rw [h]; exact Within.right [v] [w]

theorem innerVal_within {f : Tree.MutFn V X} (hf : Keeps f) (v : Option V) (w : Option X) : Within (Tree.innerVal f v w).1.toList v.toList := by
  unfold Tree.innerVal
  split
  · refine applyMut_keep.trans ?_
    rw [hf]; exact Within.refl _
  · exact Within.nil _

theorem leftVal_within {f : Tree.MutFn V X} (hf : Keeps f) (v : Option V) (w : Option X) : Within (Tree.leftVal f v w).1.toList v.toList := by
  cases w with
  | none => exact Within.refl _
  | some w =>
    cases v with
    | none => exact Within.nil _
    | some v =>
      refine applyMut_keep.trans ?_
      rw [hf]; exact Within.refl _

/-- how much the right tree may contribute -/
structure Share (gb : Tree K X → List V) : Prop where
  kids : ∀ y, Within (y.kids.flatMap gb) (gb y)
  pre : ∀ (y : Tree K X) p, gb { y with pre := p } = gb y

theorem share_vals : Share (vals : Tree K V → List V) :=
  ⟨fun y => by rw [vals_eq]; exact Within.right _ _, fun y p => by rw [vals_eq, vals_eq y]⟩
theorem share_nil : Share (fun _ : Tree K X => ([] : List V)) := ⟨fun y => by
  have : y.kids.flatMap (fun _ => ([] : List V)) = [] := List.flatMap_eq_nil_iff.2 fun _ _ => rfl
  rw [this]; exact Within.nil _, fun _ _ => rfl⟩

/-- the values that may be in the result -/
abbrev Lim (gb : Tree K X → List V) (x : Tree K V) (y : Tree K X) (t : Tree K V) : Prop := Within (vals t) (vals x ++ gb y)

theorem setPre_size (t : Tree K V) (n : Nat) : ({ t with pre := t.pre.drop n } : Tree K V).size ≤ t.size := by
  rw [Tree.size_eq, Tree.size_eq t]
  show 1 + (t.pre.drop n).length + Tree.size.sizeL t.kids ≤ 1 + t.pre.length + Tree.size.sizeL t.kids
  rw [List.length_drop]; omega

theorem vals_setPre (t : Tree K V) (p : List K) : vals { t with pre := p } = vals t := by rw [vals_eq, vals_eq t]

section cases
variable {k : Keys W K} {takeA takeB : Bool} {conv : Tree K X → Call (Tree K V)} {rec : Tree K V → Tree K X → W → (Tree K V × Outcome Bool) × W}
  {gb : Tree K X → List V} {fuel : Nat}

/-- merging the children -/
theorem kids_lim (hconv : takeB = true → ∀ y t, conv y = .ret t → Within (vals t) (gb y))
    (hrec : ∀ x y w, x.size + y.size < fuel → OkS True (Lim gb x y) (fun _ => True) (rec x y w)) (t : Tree K V) (rhs : List (Tree K X))
    (hs : ∀ x ∈ t.kids, ∀ y ∈ rhs, x.size + y.size < fuel) (w : W) :
    OkS True (fun t' => Within (vals t') (vals t ++ rhs.flatMap gb)) (fun _ => True) (childrenWith (inPlaceOp k takeA takeB conv rec) t rhs w) := by
  refine (childrenWith_acc (inPlaceOp_acc hconv fun x hx y hy w => hrec x y w (hs x hx y hy)) w).mono (fun t' h => ?_) fun _ h => h
  obtain ⟨h1, h2⟩ := h
  rw [vals_eq, vals_eq t, h1, List.append_assoc]
  exact (Within.refl _).append h2

theorem kids_lt {a : Tree K V} {b : Tree K X} (h : a.size + b.size < fuel + 1) : ∀ x ∈ a.kids, ∀ y ∈ b.kids, x.size + y.size < fuel := fun x hx y hy => by
  have := Tree.kid_size hx; have := Tree.kid_size hy; omega
theorem short_lt {a : Tree K V} {b : Tree K X} (h : a.size + b.size < fuel + 1) (n : Nat) : ∀ x ∈ a.kids, ∀ y ∈ [({ b with pre := b.pre.drop n } : Tree K X)],
    x.size + y.size < fuel := fun x hx y hy => by
  have := Tree.kid_size hx
  obtain rfl := List.mem_singleton.1 hy
  have := setPre_size b n
  omega
theorem split_lt {a : Tree K V} {b : Tree K X} (h : a.size + b.size < fuel + 1) (n : Nat) : ∀ x ∈ [({ a with pre := a.pre.drop n } : Tree K V)], ∀ y ∈ b.kids,
    x.size + y.size < fuel := fun x hx y hy => by
  have := Tree.kid_size hy
  obtain rfl := List.mem_singleton.1 hx
  have := setPre_size a n
  omega

theorem withMat_lim {y : Tree K X} {n : Nat} {t : Tree K V} {J : Tree K V → Prop} {kk : Tree K X → W → (Tree K V × Outcome Bool) × W} {w : W} (h0 : J t)
    (h : OkS True J (fun _ => True) (kk { y with pre := y.pre.drop n } w)) : OkS True J (fun _ => True) (withMat (y.materializeShortened n) t kk w) := by
  unfold withMat
  split
  · exact OkS.panic h0 trivial
  · rename_i y' he
    rw [(materialize_facts he).2]; exact h

/-- splitting keeps the values -/
theorem split_lim {t : Tree K V} {n : Nat} {J : Tree K V → Prop} {kk : Tree K V → W → (Tree K V × Outcome Bool) × W} {w : W} (h0 : J t)
    (hJ : J { pre := t.pre.take n, val := none, kids := [{ t with pre := t.pre.drop n }] })
    (h : ∀ w, OkS True J (fun _ => True) (kk { pre := t.pre.take n, val := none, kids := [{ t with pre := t.pre.drop n }] } w)) :
    OkS True J (fun _ => True) (andThen (step (t.split n) w) kk) := by
  unfold Tree.split
  split
  · exact OkS.andThen (I := fun s => s = { pre := t.pre.take n, val := none, kids := [{ t with pre := t.pre.drop n }] })
      (OkS.step hJ (fun _ => trivial) fun _ => rfl) fun s w hs => by rw [hs]; exact h w
  · exact OkS.andThen (I := fun _ => False) (OkS.step h0 (fun _ => trivial) fun h => by cases h) fun s w hs => hs.elim

theorem vals_split (t : Tree K V) (n : Nat) : vals ({ pre := t.pre.take n, val := none, kids := [{ t with pre := t.pre.drop n }] } : Tree K V) = vals t := by
  rw [vals_eq]; simp [vals_setPre]

theorem val_lim {t : Tree K V} {r : Option V × Flow} {J : Tree K V → Prop} {kk : Tree K V → W → (Tree K V × Outcome Bool) × W} {w : W}
    (hJ : J { t with val := r.1 }) (h : ∀ w, OkS True J (fun _ => True) (kk { t with val := r.1 } w)) :
    OkS True J (fun _ => True) (andThen (step (t.withVal r) w) kk) :=
  OkS.andThen (I := fun s => s = { t with val := r.1 }) (OkS.step hJ (fun _ => trivial) fun _ => rfl) fun s w hs => by rw [hs]; exact h w

theorem body_lim {cases : Nat → Tree K V → Tree K X → W → (Tree K V × Outcome Bool) × W} {self : Tree K V} {that : Tree K X} (w : W)
    (h : ∀ n w, OkS True (Lim gb self that) (fun _ => True) (cases n self that w)) : OkS True (Lim gb self that) (fun _ => True) (body k cases self that w) := by
  unfold body
  have hc : Ok True (commonPrefix k self.pre that.pre) (fun _ => True) := by
    unfold commonPrefix
    generalize self.pre = p
    generalize that.pre = q
    induction p generalizing q with
    | nil => cases q <;> exact Ok.pure trivial
    | cons x xs ih =>
      cases q with
      | nil => exact Ok.pure trivial
      | cons y ys =>
        rw [Tree.commonPrefixM]
        refine (Ok.call (P := fun _ => True) (fun _ _ => trivial) fun _ _ _ => trivial).bind fun b _ => ?_
        split
        · exact (ih ys).bind fun n _ => Ok.pure trivial
        · exact Ok.pure trivial
  obtain ⟨h1, h2, h3⟩ := hc w
  split
  · exact OkS.panic (Within.left _ _) trivial
  · rename_i w' he; rw [he] at h3; exact absurd rfl h3
  · rename_i n w' he
    refine OkS.andThen (I := Lim gb self that) ⟨(h n w').1, (h n w').2.1, fun _ => trivial, fun _ => (h n w').1⟩ fun t w ht => ?_
    refine OkS.ret ?_ fun _ => trivial
    show Within (vals t.unsplit) _
    rw [unsplit_vals]; exact ht

end cases

/-! ### The five combinations in place -/

/-- clearing keeps nothing -/
theorem clear_lim {gb : Tree K X → List V} {x : Tree K V} {y : Tree K X} : Lim gb x y { x with val := none, kids := [] } := by
  have : vals ({ x with val := none, kids := [] } : Tree K V) = [] := by rw [vals_eq]; rfl
  rw [Lim, this]; exact Within.nil _
theorem self_lim {gb : Tree K X → List V} {x : Tree K V} {y : Tree K X} : Lim gb x y x := Within.left _ _
theorem noval_within (t : Tree K V) : Within (vals { t with val := none }) (vals t) := by
  rw [vals_eq, vals_eq t]; exact Within.right _ _
theorem noval_lim {gb : Tree K X → List V} {x : Tree K V} {y : Tree K X} : Lim gb x y { x with val := none } :=
  (noval_within x).trans (Within.left _ _)
theorem short_gb {gb : Tree K X → List V} (hg : Share gb) (y : Tree K X) (n : Nat) :
    [({ y with pre := y.pre.drop n } : Tree K X)].flatMap gb = gb y := by
  rw [List.flatMap_cons, List.flatMap_nil, List.append_nil, hg.pre]

theorem withVal_within (t : Tree K V) (v : Option V) (l : List V) (h : Within v.toList (t.val.toList ++ l)) :
    Within (vals { t with val := v }) (vals t ++ l) := by
  rw [vals_eq, vals_eq t]
  refine (h.append (Within.refl (t.kids.flatMap vals))).perm (List.Perm.refl _) ?_
  simp only [List.append_assoc]
  exact List.Perm.append_left _ List.perm_append_comm

theorem materialize_within (y t : Tree K V) (h : y.materialize = .ret t) : Within (vals t) (vals y) := by
  rw [(materialize_facts h).2, vals_setPre]; exact Within.refl _

theorem outerWithGo_lim {k : Keys W K} {sort : Sorter W (Tree K V)} {f : Tree.MutFn V V} (hsort : Rearranges sort) (hf : Chooses f) :
    ∀ (fuel : Nat) (x y : Tree K V) (w : W), x.size + y.size < fuel → OkS True (Lim vals x y) (fun _ => True) (outerWithGo k sort f fuel x y w)
  | 0, x, y, w, h => by omega
  | fuel + 1, x, y, w, h => by
    have ih := fun x y w h => outerWithGo_lim (k := k) hsort hf fuel x y w h
    have hconv : true = true → ∀ y t : Tree K V, y.materialize = .ret t → Within (vals t) (vals y) := fun _ => materialize_within
    rw [outerWithGo]
    refine body_lim w fun n w => ?_
    unfold outerWithCases
    have hv : ∀ t : Tree K V, vals t = vals x → t.val = x.val ∨ t.val = none →
        Within (vals { t with val := (Tree.outerVal f t.val y.val).1 }) (vals x ++ y.val.toList) := fun t ht _ => by
      rw [← ht]; exact withVal_within t _ _ (outerVal_within hf t.val y.val)
    have hJ : ∀ t : Tree K V, Within (vals t) (vals x ++ y.val.toList) → Lim vals x y t := fun t ht => by
      refine ht.trans ((Within.refl _).append ?_)
      rw [vals_eq y]; exact Within.left _ _
    have hK : ∀ t : Tree K V, Within (vals t) (vals x ++ y.val.toList) → ∀ t', Within (vals t') (vals t ++ y.kids.flatMap vals) → Lim vals x y t' :=
      fun t ht t' h' => by
        refine h'.trans ?_
        rw [vals_eq y, ← List.append_assoc]
        exact ht.append (Within.refl _)
    split
    · have h1 := hv x rfl (.inl rfl)
      refine val_lim (hJ _ h1) fun w => (kids_lim hconv ih _ _ (by exact kids_lt (a := x) h) w).mono (fun t' h' => hK _ h1 t' h') fun _ h => h
    split
    · refine withMat_lim self_lim ((kids_lim hconv ih _ _ (short_lt h n) w).mono (fun t' h' => ?_) fun _ h => h)
      rw [short_gb share_vals] at h'; exact h'
    split
    · have h1 := hv { pre := x.pre.take n, val := none, kids := [{ x with pre := x.pre.drop n }] } (vals_split x n) (.inr rfl)
      refine split_lim self_lim (by rw [Lim, vals_split]; exact Within.left _ _) fun w => ?_
      exact val_lim (hJ _ h1) fun w => (kids_lim hconv ih _ _ (split_lt h n) w).mono (fun t' h' => hK _ h1 t' h') fun _ h => h
    · have hs : Lim vals x y { pre := x.pre.take n, val := none, kids := [{ x with pre := x.pre.drop n }] } := by
        rw [Lim, vals_split]; exact Within.left _ _
      refine split_lim self_lim hs fun w => withMat_lim hs ?_
      unfold pushSort
      refine ⟨?_, ?_, fun _ => trivial, fun _ => trivial⟩
      · show Within (vals _) _
        rw [vals_eq]
        have hp := (hsort ([({ x with pre := x.pre.drop n } : Tree K V)] ++ [{ y with pre := y.pre.drop n }]) w).flatMap_right vals
        refine Within.perm (Within.refl _) hp ?_
        simp [vals_setPre]
      · dsimp only
        split <;> (intro h; cases h)

/-! The other four take values from the left tree only. -/

abbrev LimN (x : Tree K V) (t : Tree K V) : Prop := Within (vals t) (vals x)

theorem limN_iff {x : Tree K V} {y : Tree K X} {t : Tree K V} : Lim (fun _ => ([] : List V)) x y t ↔ LimN x t := by
  show Within _ (vals x ++ []) ↔ _
  rw [List.append_nil]

section nil
variable {k : Keys W K} {takeA : Bool} {rec : Tree K V → Tree K X → W → (Tree K V × Outcome Bool) × W} {fuel : Nat}

theorem kids_limN (hrec : ∀ x y w, x.size + y.size < fuel → OkS True (LimN x) (fun _ => True) (rec x y w)) (t : Tree K V) (rhs : List (Tree K X))
    (hs : ∀ x ∈ t.kids, ∀ y ∈ rhs, x.size + y.size < fuel) (w : W) {x : Tree K V} (hx : LimN x t) :
    OkS True (LimN x) (fun _ => True) (childrenWith (inPlaceOp k takeA false noConverter rec) t rhs w) := by
  refine (kids_lim (gb := fun _ => []) (by intro h; cases h) (fun x y w h => (hrec x y w h).mono (fun _ h => limN_iff.2 h) fun _ h => h) t rhs hs w).mono
    (fun t' h => ?_) fun _ h => h
  have : rhs.flatMap (fun _ => ([] : List V)) = [] := List.flatMap_eq_nil_iff.2 fun _ _ => rfl
  rw [this, List.append_nil] at h
  exact h.trans hx

theorem body_limN {cases : Nat → Tree K V → Tree K X → W → (Tree K V × Outcome Bool) × W} {self : Tree K V} {that : Tree K X} (w : W)
    (h : ∀ n w, OkS True (LimN self) (fun _ => True) (cases n self that w)) : OkS True (LimN self) (fun _ => True) (body k cases self that w) :=
  (body_lim (gb := fun _ => []) w fun n w => (h n w).mono (fun _ h => limN_iff.2 h) fun _ h => h).mono (fun _ h => limN_iff.1 h) fun _ h => h

theorem withVal_limN {x : Tree K V} {v : Option V} (h : Within v.toList x.val.toList) : LimN x { x with val := v } := by
  have := withVal_within x v [] (by rw [List.append_nil]; exact h)
  rwa [List.append_nil] at this

theorem split_limN (x : Tree K V) (n : Nat) : LimN x { pre := x.pre.take n, val := none, kids := [{ x with pre := x.pre.drop n }] } := by
  rw [LimN, vals_split]; exact Within.refl _

theorem clear_limN (x : Tree K V) : LimN x { x with val := none, kids := [] } := by
  have : vals ({ x with val := none, kids := [] } : Tree K V) = [] := by rw [vals_eq]; rfl
  rw [LimN, this]; exact Within.nil _

end nil

theorem innerWithGo_lim {k : Keys W K} {f : Tree.MutFn V X} (hf : Keeps f) :
    ∀ (fuel : Nat) (x : Tree K V) (y : Tree K X) (w : W), x.size + y.size < fuel → OkS True (LimN x) (fun _ => True) (innerWithGo k f fuel x y w)
  | 0, x, y, w, h => by omega
  | fuel + 1, x, y, w, h => by
    have ih := fun x y w h => innerWithGo_lim (k := k) hf fuel x y w h
    rw [innerWithGo]
    refine body_limN w fun n w => ?_
    unfold innerWithCases
    split
    · have h1 := withVal_limN (innerVal_within hf x.val y.val)
      exact val_lim h1 fun w => kids_limN ih _ _ (by exact kids_lt (a := x) h) w h1
    split
    · exact withMat_lim (noval_within x) (kids_limN ih _ _ (by exact short_lt (a := x) h n) w (noval_within x))
    split
    · exact split_lim (Within.refl _) (split_limN x n) fun w => kids_limN ih _ _ (split_lt (a := x) h n) w (split_limN x n)
    · exact OkS.ret (clear_limN x) fun _ => trivial

theorem leftWithGo_lim {k : Keys W K} {f : Tree.MutFn V X} (hf : Keeps f) :
    ∀ (fuel : Nat) (x : Tree K V) (y : Tree K X) (w : W), x.size + y.size < fuel → OkS True (LimN x) (fun _ => True) (leftWithGo k f fuel x y w)
  | 0, x, y, w, h => by omega
  | fuel + 1, x, y, w, h => by
    have ih := fun x y w h => leftWithGo_lim (k := k) hf fuel x y w h
    rw [leftWithGo]
    refine body_limN w fun n w => ?_
    unfold leftWithCases
    split
    · have h1 := withVal_limN (leftVal_within hf x.val y.val)
      exact val_lim h1 fun w => kids_limN ih _ _ (by exact kids_lt (a := x) h) w h1
    split
    · exact withMat_lim (Within.refl _) (kids_limN ih _ _ (short_lt (a := x) h n) w (Within.refl _))
    split
    · exact split_lim (Within.refl _) (split_limN x n) fun w => kids_limN ih _ _ (split_lt (a := x) h n) w (split_limN x n)
    · exact OkS.ret (Within.refl _) fun _ => trivial

theorem removePrefixGo_lim {k : Keys W K} {f : X → Bool} :
    ∀ (fuel : Nat) (x : Tree K V) (y : Tree K X) (w : W), x.size + y.size < fuel → OkS True (LimN x) (fun _ => True) (removePrefixGo k f fuel x y w)
  | 0, x, y, w, h => by omega
  | fuel + 1, x, y, w, h => by
    have ih := fun x y w h => removePrefixGo_lim (k := k) (f := f) fuel x y w h
    rw [removePrefixGo]
    refine body_limN w fun n w => ?_
    unfold removePrefixCases
    split
    · split
      · exact OkS.ret (clear_limN x) fun _ => trivial
      · exact kids_limN ih _ _ (kids_lt (a := x) h) w (Within.refl _)
    split
    · split
      · exact OkS.ret (clear_limN x) fun _ => trivial
      · exact split_lim (Within.refl _) (split_limN x n) fun w => kids_limN ih _ _ (split_lt (a := x) h n) w (split_limN x n)
    split
    · exact withMat_lim (Within.refl _) (kids_limN ih _ _ (short_lt (a := x) h n) w (Within.refl _))
    · exact OkS.ret (Within.refl _) fun _ => trivial

theorem retainPrefixGo_lim {k : Keys W K} {f : X → Bool} :
    ∀ (fuel : Nat) (x : Tree K V) (y : Tree K X) (w : W), x.size + y.size < fuel → OkS True (LimN x) (fun _ => True) (retainPrefixGo k f fuel x y w)
  | 0, x, y, w, h => by omega
  | fuel + 1, x, y, w, h => by
    have ih := fun x y w h => retainPrefixGo_lim (k := k) (f := f) fuel x y w h
    rw [retainPrefixGo]
    refine body_limN w fun n w => ?_
    unfold retainPrefixCases
    split
    · split
      · exact kids_limN ih _ _ (by exact kids_lt (a := x) h) w (noval_within x)
      · exact OkS.ret (Within.refl _) fun _ => trivial
    split
    · split
      · exact split_lim (Within.refl _) (split_limN x n) fun w => kids_limN ih _ _ (split_lt (a := x) h n) w (split_limN x n)
      · exact OkS.ret (Within.refl _) fun _ => trivial
    split
    · exact withMat_lim (noval_within x) (kids_limN ih _ _ (by exact short_lt (a := x) h n) w (noval_within x))
    · exact OkS.ret (clear_limN x) fun _ => trivial

end Radix
end Hostile
end Verif
