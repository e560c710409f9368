import Verif.Lemmas.RadixPrefixGo
/-! The cases of the prefix operations. -/
namespace Verif
namespace Tree
open Std

variable {K V W S : Type _} [Ord K] [TransOrd K] [LawfulEqOrd K] [DecidableEq K]

omit [Ord K] [TransOrd K] [LawfulEqOrd K] [DecidableEq K] in
theorem kidsFull {a : Tree K V} (h : a = empty ∨ Full a) : ∀ x ∈ a.kids, Full x := by
  rcases h with rfl | h
  · simp [empty]
  · exact (full_iff.1 h).2

section
variable {ret : Bool} {f : PredE S W} {p : List K} {va : Option V} {A : List (Tree K V)} {vb : Option W} {B : List (Tree K W)} {c c1 : S}
  {hdr : List ((List K × W) × Bool)} {a : Tree K V} {b : Tree K W} {rec : Tree K V → Tree K W → S → (Tree K V × S) × Flow}

/-- merging the children of two nodes with the same path -/
theorem kids_run (ka : Kids A) (kb : Kids B)
    (hrec : ∀ x ∈ A, ∀ y ∈ B, ∀ c, ∃ log pan, RunP ret f x y c (rec x y c) log pan)
    (hh : (vb = none ∧ c1 = c ∧ hdr = []) ∨ ∃ w, vb = some w ∧ f w c = (.ret false, c1) ∧ hdr = [((p, w), false)])
    (ea : ∀ k v, Entry a k v ↔ Entry ⟨p, va, A⟩ k v) (oa : ∀ k, OnWay a k ↔ OnWay ⟨p, va, A⟩ k) (eb : ∀ k w, Entry b k w ↔ Entry ⟨p, vb, B⟩ k w)
    (hpre : ∀ x, hd a = some x → hd b = some x → p.head? = some x) (hfull : a = empty ∨ Full a → ∀ x ∈ A, Full x)
    (hmax : Full a → Full b → va.isSome = true ∨ vb.isSome = true ∨ (2 ≤ A.length ∧ ∀ x ∈ A, Full x) ∨ (2 ≤ B.length ∧ ∀ y ∈ B, Full y)) :
    ∃ log pan, RunP ret f a b c
      (finishE (childrenWithE (inPlaceOpE (!ret) false noConverter rec) (⟨p, if ret then none else va, A⟩, c1) B)) log pan := by
  obtain ⟨log, pan, R⟩ := join_run (rec := rec) A B c1 ka kb fun x hx y hy _ => hrec x hx y hy
  refine ⟨hdr ++ pfxLog p log, pan.map (pfx p), ?_⟩
  rw [childrenWithE_eq (!ret) noConverter rec _ c1 ka kb]
  exact node_run ka kb R hh ea oa eb hpre hfull hmax

/-- asking about the root of `b` -/
theorem selected_run (ha : Valid a) (hb : Valid b) {r : List K} (hp : a.pre = b.pre ++ r) {no : S → (Tree K V × S) × Flow} {t : Tree K V}
    (ht : t = if ret then a else clear a)
    (h : ∀ c1 hdr, (b.val = none ∧ c1 = c ∧ hdr = []) ∨ (∃ w, b.val = some w ∧ f w c = (.ret false, c1) ∧ hdr = [((b.pre, w), false)]) →
      ∃ log pan, RunP ret f a b c (finishE (no c1)) log pan) :
    ∃ log pan, RunP ret f a b c (finishE (ifSelectedE f b.val c a (fun c => ((t, c), .cont)) no)) log pan := by
  subst ht
  cases hv : b.val with
  | none => exact h c [] (.inl ⟨hv, rfl, rfl⟩)
  | some w =>
    unfold ifSelectedE
    simp only
    rcases hf : f w c with ⟨r, c1⟩
    match r with
    | .panic => exact ⟨_, _, root_panic_run ha hb hp hv hf⟩
    | .ret true => exact ⟨_, _, root_true_run ha hb hp hv hf⟩
    | .ret false => exact h c1 _ (.inr ⟨w, hv, hf, rfl⟩)

/-- the recursive calls -/
abbrev RecRun (ret : Bool) (f : PredE S W) (rec : Tree K V → Tree K W → S → (Tree K V × S) × Flow) (n : Nat) : Prop :=
  ∀ x y, Valid x → Valid y → x.size + y.size < n → ∀ c, ∃ log pan, RunP ret f x y c (rec x y c) log pan

/-- the two nodes have the same path -/
theorem same_run (ha : Valid a) (hb : Valid b) (hrec : RecRun ret f rec (a.size + b.size)) (e : a.pre = b.pre)
    (hh : (b.val = none ∧ c1 = c ∧ hdr = []) ∨ ∃ w, b.val = some w ∧ f w c = (.ret false, c1) ∧ hdr = [((b.pre, w), false)]) :
    ∃ log pan, RunP ret f a b c
      (finishE (childrenWithE (inPlaceOpE (!ret) false noConverter rec) (⟨a.pre, if ret then none else a.val, a.kids⟩, c1) b.kids)) log pan := by
  refine kids_run (va := a.val) (vb := b.val) (hdr := hdr) ha.kids hb.kids ?_ (by rw [e]; exact hh) (fun k v => by rw [← tree_eta])
    (fun k => by rw [← tree_eta]) (fun k w => by rw [e, ← tree_eta]) (fun x h _ => h) kidsFull ?_
  · intro x hx y hy
    have := kid_size hx
    have := kid_size hy
    exact hrec x y (ha.kids.valid x hx) (hb.kids.valid y hy) (by omega)
  · intro fa _
    have := full_iff.1 fa
    cases hv : a.val with
    | none => exact .inr (.inr (.inl ⟨this.1 hv, this.2⟩))
    | some v => exact .inl rfl

/-- the node of `a` is below the node of `b` -/
theorem below_run (ha : Valid a) (hb : Valid b) (hrec : RecRun ret f rec (a.size + b.size)) {n : Nat} (hna : n < a.pre.length)
    (e : a.pre.take n = b.pre)
    (hh : (b.val = none ∧ c1 = c ∧ hdr = []) ∨ ∃ w, b.val = some w ∧ f w c = (.ret false, c1) ∧ hdr = [((b.pre, w), false)]) :
    ∃ log pan, RunP ret f a b c
      (finishE (childrenWithE (inPlaceOpE (!ret) false noConverter rec) (⟨a.pre.take n, none, [a.shorten n]⟩, c1) b.kids)) log pan := by
  have := kids_run (ret := ret) (f := f) (rec := rec) (a := a) (b := b) (p := a.pre.take n) (va := none) (vb := b.val) (hdr := hdr) (c := c) (c1 := c1)
    (Kids.single (ha.shorten n) (shorten_ne hna)) hb.kids ?_ (by rw [e]; exact hh) (fun k v => (entry_splitNode a n k v).symm)
    (fun k => (onWay_split a n none k).symm) (fun k w => by rw [e, ← tree_eta]) ?_ ?_ ?_
  · simpa using this
  · intro x hx y hy
    rw [List.mem_singleton] at hx
    subst hx
    have := kid_size hy
    have := size_shorten a n (by omega)
    exact hrec _ y (ha.shorten n) (hb.kids.valid y hy) (by omega)
  · intro x _ h2
    rw [e]
    exact h2
  · intro h x hx
    rw [List.mem_singleton] at hx
    subst hx
    rcases h with rfl | h
    · simp [empty] at hna
    · exact h.setPre _
  · intro _ fb
    have := full_iff.1 fb
    cases hv : b.val with
    | none => exact .inr (.inr (.inr ⟨this.1 hv, this.2⟩))
    | some v => exact .inr (.inl rfl)

/-- the node of `b` is below the node of `a` -/
theorem above_run (ha : Valid a) (hb : Valid b) (hrec : RecRun ret f rec (a.size + b.size)) {n : Nat} (hnb : n < b.pre.length)
    (e : b.pre.take n = a.pre) :
    ∃ log pan, RunP ret f a b c
      (finishE (childrenWithE (inPlaceOpE (!ret) false noConverter rec) (⟨a.pre, if ret then none else a.val, a.kids⟩, c) [b.shorten n])) log pan := by
  refine kids_run (va := a.val) (vb := none) (hdr := []) ha.kids (Kids.single (hb.shorten n) (shorten_ne hnb)) ?_ (.inl ⟨rfl, rfl, rfl⟩)
    (fun k v => by rw [← tree_eta]) (fun k => by rw [← tree_eta]) (fun k w => by rw [← e]; exact (entry_splitNode b n k w).symm) (fun x h _ => h)
    kidsFull ?_
  · intro x hx y hy
    rw [List.mem_singleton] at hy
    subst hy
    have := kid_size hx
    have := size_shorten b n (by omega)
    exact hrec x _ (ha.kids.valid x hx) (hb.shorten n) (by omega)
  · intro fa _
    have := full_iff.1 fa
    cases hv : a.val with
    | none => exact .inr (.inr (.inl ⟨this.1 hv, this.2⟩))
    | some v => exact .inl rfl

/-- the paths diverge -/
theorem apart_run (ha : Valid a) {n : Nat} (hna : n < a.pre.length) (hnb : n < b.pre.length) (htk : a.pre.take n = b.pre.take n)
    (hdf : (a.pre.drop n).head? ≠ (b.pre.drop n).head?) {t : Tree K V} (ht : t = if !ret then a else clear a) :
    ∃ log pan, RunP ret f a b c (finishE ((t, c), .cont)) log pan := by
  subst ht
  refine ⟨[], none, whole_run (all := !ret) ha (LogOk.quiet ?_) ?_⟩
  · rintro k w ⟨h1, s, h2⟩
    obtain ⟨r1, e1⟩ := entry_pre h1
    obtain ⟨r2, e2⟩ := nodeBy_pre h2
    apply hdf
    have h := congrArg (fun l => (l.drop n).head?) e2
    simp only [e1, List.append_assoc] at h
    rw [List.drop_append_of_le_length (by omega), List.drop_append_of_le_length (by omega), List.head?_append, List.head?_append] at h
    have na : a.pre.drop n ≠ [] := by simp; omega
    have nb : b.pre.drop n ≠ [] := by simp; omega
    obtain ⟨x, xs, hx⟩ := List.exists_cons_of_ne_nil na
    obtain ⟨y, ys, hy⟩ := List.exists_cons_of_ne_nil nb
    rw [hx, hy] at h ⊢
    simpa using h.symm
  · intro k v _
    rw [surv_nil]
    simp

end

theorem removePrefixCasesE_run {f : PredE S W} {rec : Tree K V → Tree K W → S → (Tree K V × S) × Flow} {a : Tree K V} {b : Tree K W} {c : S}
    (ha : Valid a) (hb : Valid b) (hrec : RecRun false f rec (a.size + b.size)) :
    ∃ log pan, RunP false f a b c (finishE (removePrefixCasesE (removePrefixOpE rec) f (commonPrefix a.pre b.pre) a b c)) log pan := by
  have hla := commonPrefix_le_left a.pre b.pre
  have hlb := commonPrefix_le_right a.pre b.pre
  have hdf := commonPrefix_differ a.pre b.pre
  have hpe := pre_eq_of_common (p := a.pre) (q := b.pre)
  have htk := commonPrefix_take a.pre b.pre
  revert hla hlb hdf hpe htk
  generalize commonPrefix a.pre b.pre = n
  intro hla hlb hdf hpe htk
  unfold removePrefixCasesE removePrefixOpE
  by_cases h1 : n = a.pre.length ∧ n = b.pre.length
  · rw [if_pos h1]
    have e := hpe h1.1 h1.2
    refine selected_run ha hb (r := []) (by simpa using e) (by simp [clear]) ?_
    intro c1 hdr hh
    have := same_run ha hb hrec e hh
    simp only [Bool.not_false, Bool.false_eq_true, ↓reduceIte, ← tree_eta] at this
    exact this
  rw [if_neg h1]
  by_cases h2 : n = b.pre.length
  · have hna : n < a.pre.length := by omega
    have e : a.pre.take n = b.pre := by rw [htk, List.take_of_length_le (by omega)]
    rw [if_pos h2, split_eq hna]
    refine selected_run ha hb (r := a.pre.drop n) (by rw [← e, List.take_append_drop]) (by simp [clear]) ?_
    intro c1 hdr hh
    exact below_run ha hb hrec hna e hh
  rw [if_neg h2]
  have hnb : n < b.pre.length := by omega
  by_cases h3 : n = a.pre.length
  · have e : b.pre.take n = a.pre := by rw [← htk, List.take_of_length_le (by omega)]
    rw [if_pos h3, materializeShortened_eq hb hnb]
    have := above_run (c := c) ha hb hrec hnb e
    simp only [Bool.not_false, Bool.false_eq_true, ↓reduceIte, ← tree_eta] at this
    exact this
  · have hna : n < a.pre.length := by omega
    rw [if_neg h3]
    exact apart_run ha hna hnb htk (hdf hna hnb) (by simp)

theorem retainPrefixCasesE_run {f : PredE S W} {rec : Tree K V → Tree K W → S → (Tree K V × S) × Flow} {a : Tree K V} {b : Tree K W} {c : S}
    (ha : Valid a) (hb : Valid b) (hrec : RecRun true f rec (a.size + b.size)) :
    ∃ log pan, RunP true f a b c (finishE (retainPrefixCasesE (retainPrefixOpE rec) f (commonPrefix a.pre b.pre) a b c)) log pan := by
  have hla := commonPrefix_le_left a.pre b.pre
  have hlb := commonPrefix_le_right a.pre b.pre
  have hdf := commonPrefix_differ a.pre b.pre
  have hpe := pre_eq_of_common (p := a.pre) (q := b.pre)
  have htk := commonPrefix_take a.pre b.pre
  revert hla hlb hdf hpe htk
  generalize commonPrefix a.pre b.pre = n
  intro hla hlb hdf hpe htk
  unfold retainPrefixCasesE retainPrefixOpE
  by_cases h1 : n = a.pre.length ∧ n = b.pre.length
  · rw [if_pos h1]
    have e := hpe h1.1 h1.2
    refine selected_run ha hb (r := []) (by simpa using e) (by simp) ?_
    intro c1 hdr hh
    exact same_run ha hb hrec e hh
  rw [if_neg h1]
  by_cases h2 : n = b.pre.length
  · have hna : n < a.pre.length := by omega
    have e : a.pre.take n = b.pre := by rw [htk, List.take_of_length_le (by omega)]
    rw [if_pos h2, split_eq hna]
    refine selected_run ha hb (r := a.pre.drop n) (by rw [← e, List.take_append_drop]) (by simp) ?_
    intro c1 hdr hh
    exact below_run ha hb hrec hna e hh
  rw [if_neg h2]
  have hnb : n < b.pre.length := by omega
  by_cases h3 : n = a.pre.length
  · have e : b.pre.take n = a.pre := by rw [← htk, List.take_of_length_le (by omega)]
    rw [if_pos h3, materializeShortened_eq hb hnb]
    exact above_run (c := c) ha hb hrec hnb e
  · have hna : n < a.pre.length := by omega
    rw [if_neg h3]
    exact apart_run ha hna hnb htk (hdf hna hnb) (by simp [clear])

theorem removePrefixGoE_run (f : PredE S W) : ∀ (fuel : Nat), RecRun false f (removePrefixGoE (K := K) (V := V) f fuel) fuel := by
  intro fuel
  induction fuel with
  | zero => intro a b _ _ h; omega
  | succ fuel ih =>
    intro a b ha hb hs c
    exact removePrefixCasesE_run ha hb fun x y hx hy h => ih x y hx hy (by omega)

theorem retainPrefixGoE_run (f : PredE S W) : ∀ (fuel : Nat), RecRun true f (retainPrefixGoE (K := K) (V := V) f fuel) fuel := by
  intro fuel
  induction fuel with
  | zero => intro a b _ _ h; omega
  | succ fuel ih =>
    intro a b ha hb hs c
    exact retainPrefixCasesE_run ha hb fun x y hx hy h => ih x y hx hy (by omega)

end Tree
end Verif
