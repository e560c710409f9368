import Verif.Lemmas.Merge
/-! The textbook merge with pure callbacks: order and lookup of the result. -/
namespace Verif
open Std

variable {A B R : Type _}

theorem seq_ret (o : Option R) (e : Emit R) : (Emit.ret o).seq e = (o.toList ++ e.1, e.2) := rfl

theorem collect_ret (g : A → Option R) (l : List A) :
    collect (fun a => Emit.ret (g a)) l = (l.filterMap g, .cont) := by
  induction l with
  | nil => rfl
  | cons x l ih =>
    simp only [collect, ih, seq_ret, List.filterMap_cons]
    cases g x <;> rfl

theorem collect_congr {f f' : A → Emit R} {l : List A} (h : ∀ x ∈ l, f x = f' x) :
    collect f l = collect f' l := by
  induction l with
  | nil => rfl
  | cons x l ih => simp only [collect, h x (by simp), ih (fun y hy => h y (by simp [hy]))]

/-- the merge with pure callbacks -/
def joinList (cmp : A → B → Ordering) (ga : A → Option R) (gb : B → Option R)
    (gc : A → B → Option R) (as : List A) (bs : List B) : List R :=
  (joinRef cmp (fun a => Emit.ret (ga a)) (fun b => Emit.ret (gb b))
    (fun a b => Emit.ret (gc a b)) as bs).1

variable {cmp : A → B → Ordering} {ga : A → Option R} {gb : B → Option R}
  {gc : A → B → Option R}

theorem joinRef_ret (as : List A) (bs : List B) :
    joinRef cmp (fun a => Emit.ret (ga a)) (fun b => Emit.ret (gb b))
      (fun a b => Emit.ret (gc a b)) as bs = (joinList cmp ga gb gc as bs, .cont) := by
  unfold joinList
  fun_induction joinRef cmp (fun a => Emit.ret (ga a)) (fun b => Emit.ret (gb b))
      (fun a b => Emit.ret (gc a b)) as bs with
  | case1 bs => simp [collect_ret]
  | case2 a as => simp [collect_ret]
  | case3 a as b bs hc ih => rw [seq_ret, ih]
  | case4 a as b bs hc ih => rw [seq_ret, ih]
  | case5 a as b bs hc ih => rw [seq_ret, ih]

theorem joinRef_congr {fa fa' : A → Emit R} {fb fb' : B → Emit R} {fc fc' : A → B → Emit R}
    (as : List A) (bs : List B)
    (ha : ∀ a ∈ as, fa a = fa' a) (hb : ∀ b ∈ bs, fb b = fb' b)
    (hc : ∀ a ∈ as, ∀ b ∈ bs, cmp a b = .eq → fc a b = fc' a b) :
    joinRef cmp fa fb fc as bs = joinRef cmp fa' fb' fc' as bs := by
  fun_induction joinRef cmp fa fb fc as bs with
  | case1 bs => rw [joinRef_nil_left]; exact collect_congr hb
  | case2 a as => rw [joinRef_nil_right]; exact collect_congr ha
  | case3 a as b bs h ih =>
    rw [joinRef, h, ha a (by simp), ih (fun x hx => ha x (by simp [hx])) hb
      (fun x hx => hc x (by simp [hx]))]
  | case4 a as b bs h ih =>
    rw [joinRef, h, hb b (by simp), ih ha (fun x hx => hb x (by simp [hx]))
      (fun x hx y hy => hc x hx y (by simp [hy]))]
  | case5 a as b bs h ih =>
    rw [joinRef, h, hc a (by simp) b (by simp) h, ih (fun x hx => ha x (by simp [hx]))
      (fun x hx => hb x (by simp [hx])) (fun x hx y hy => hc x (by simp [hx]) y (by simp [hy]))]

theorem joinList_nil_left (bs : List B) : joinList cmp ga gb gc [] bs = bs.filterMap gb := by
  simp [joinList, collect_ret]

theorem joinList_nil_right (as : List A) : joinList cmp ga gb gc as [] = as.filterMap ga := by
  simp [joinList, collect_ret]

theorem joinList_cons (a : A) (as : List A) (b : B) (bs : List B) :
    joinList cmp ga gb gc (a :: as) (b :: bs) =
      match cmp a b with
      | .lt => (ga a).toList ++ joinList cmp ga gb gc as (b :: bs)
      | .gt => (gb b).toList ++ joinList cmp ga gb gc (a :: as) bs
      | .eq => (gc a b).toList ++ joinList cmp ga gb gc as bs := by
  conv => lhs; unfold joinList
  rw [joinRef]
  cases cmp a b <;> rfl

/-- a callback that either returns normally with result `o`, or produces nothing and ends the merge -/
def Approx (e : Emit R) (o : Option R) : Prop := e = Emit.ret o ∨ (e.1 = [] ∧ e.2 ≠ .cont)

theorem Emit.seq_prefix {e e' : Emit R} {o : Option R} {l : List R} (h : Approx e o)
    (h' : e'.1 <+: l) : (e.seq e').1 <+: o.toList ++ l := by
  rcases h with rfl | ⟨h1, h2⟩
  · rw [seq_ret]; exact List.prefix_append_right_inj _ |>.2 h'
  · obtain ⟨e1, e2⟩ := e
    cases e2 <;> simp_all [Emit.seq]

theorem collect_prefix {f : A → Emit R} {g : A → Option R} (l : List A)
    (h : ∀ x ∈ l, Approx (f x) (g x)) : (collect f l).1 <+: l.filterMap g := by
  induction l with
  | nil => simp [collect]
  | cons x l ih =>
    have e : List.filterMap g (x :: l) = (g x).toList ++ l.filterMap g := by
      rw [List.filterMap_cons]; cases g x <;> rfl
    rw [e]
    exact Emit.seq_prefix (h x (by simp)) (ih fun y hy => h y (by simp [hy]))

/-- If callbacks may end the merge early (panic), the output so far is a prefix of the undisturbed output. -/
theorem joinRef_prefix {fa : A → Emit R} {fb : B → Emit R} {fc : A → B → Emit R}
    (as : List A) (bs : List B)
    (ha : ∀ a ∈ as, Approx (fa a) (ga a)) (hb : ∀ b ∈ bs, Approx (fb b) (gb b))
    (hc : ∀ a ∈ as, ∀ b ∈ bs, cmp a b = .eq → Approx (fc a b) (gc a b)) :
    (joinRef cmp fa fb fc as bs).1 <+: joinList cmp ga gb gc as bs := by
  fun_induction joinRef cmp fa fb fc as bs with
  | case1 bs => rw [joinList_nil_left]; exact collect_prefix _ hb
  | case2 a as => rw [joinList_nil_right]; exact collect_prefix _ ha
  | case3 a as b bs h ih =>
    rw [joinList_cons, h]
    exact Emit.seq_prefix (ha a (by simp)) (ih (fun x hx => ha x (by simp [hx])) hb
      (fun x hx => hc x (by simp [hx])))
  | case4 a as b bs h ih =>
    rw [joinList_cons, h]
    exact Emit.seq_prefix (hb b (by simp)) (ih ha (fun x hx => hb x (by simp [hx]))
      (fun x hx y hy => hc x hx y (by simp [hy])))
  | case5 a as b bs h ih =>
    rw [joinList_cons, h]
    exact Emit.seq_prefix (hc a (by simp) b (by simp) h) (ih (fun x hx => ha x (by simp [hx]))
      (fun x hx => hb x (by simp [hx])) (fun x hx y hy => hc x (by simp [hx]) y (by simp [hy])))

/-- emit the first result and stop -/
def Emit.first (o : Option R) : Emit R :=
  match o with
  | some r => ([r], .stop)
  | none => ([], .cont)

theorem Emit.first_seq (o : Option R) (e : Emit R) (l : List R) (h : e.1 = l.take 1) :
    ((Emit.first o).seq e).1 = (o.toList ++ l).take 1 := by
  cases o <;> simp [Emit.first, Emit.seq, h]

theorem collect_first (g : A → Option R) (l : List A) :
    (collect (fun a => Emit.first (g a)) l).1 = (l.filterMap g).take 1 := by
  induction l with
  | nil => rfl
  | cons x l ih =>
    have e : List.filterMap g (x :: l) = (g x).toList ++ l.filterMap g := by
      rw [List.filterMap_cons]; cases g x <;> rfl
    rw [e, collect]
    exact Emit.first_seq _ _ _ ih

/-- A merge that stops at the first result finds it iff there is one. -/
theorem joinRef_first (as : List A) (bs : List B) :
    (joinRef cmp (fun a => Emit.first (ga a)) (fun b => Emit.first (gb b))
      (fun a b => Emit.first (gc a b)) as bs).1 = (joinList cmp ga gb gc as bs).take 1 := by
  fun_induction joinRef cmp (fun a => Emit.first (ga a)) (fun b => Emit.first (gb b))
      (fun a b => Emit.first (gc a b)) as bs with
  | case1 bs => rw [joinList_nil_left, collect_first]
  | case2 a as => rw [joinList_nil_right, collect_first]
  | case3 a as b bs h ih => rw [joinList_cons, h]; exact Emit.first_seq _ _ _ ih
  | case4 a as b bs h ih => rw [joinList_cons, h]; exact Emit.first_seq _ _ _ ih
  | case5 a as b bs h ih => rw [joinList_cons, h]; exact Emit.first_seq _ _ _ ih

/-! ### Keys -/

variable {κ : Type _} [Ord κ] [TransOrd κ] {ka : A → κ} {kb : B → κ} {kr : R → κ}

/-- The callbacks produce results under the key of the element(s) they were given. -/
structure KeyOk (ka : A → κ) (kb : B → κ) (kr : R → κ) (ga : A → Option R) (gb : B → Option R)
    (gc : A → B → Option R) (as : List A) (bs : List B) : Prop where
  a : ∀ a ∈ as, ∀ r, ga a = some r → compare (kr r) (ka a) = .eq
  b : ∀ b ∈ bs, ∀ r, gb b = some r → compare (kr r) (kb b) = .eq
  c : ∀ a ∈ as, ∀ b ∈ bs, compare (ka a) (kb b) = .eq → ∀ r, gc a b = some r →
    compare (kr r) (ka a) = .eq

omit [TransOrd κ] in
theorem KeyOk.mono {as as' : List A} {bs bs' : List B} (h : KeyOk ka kb kr ga gb gc as bs)
    (ha : ∀ a ∈ as', a ∈ as) (hb : ∀ b ∈ bs', b ∈ bs) : KeyOk ka kb kr ga gb gc as' bs' :=
  ⟨fun a h1 => h.a a (ha a h1), fun b h1 => h.b b (hb b h1),
   fun a h1 b h2 => h.c a (ha a h1) b (hb b h2)⟩

omit [TransOrd κ] in
theorem mem_joinList (hcmp : ∀ a b, cmp a b = compare (ka a) (kb b)) (as : List A) (bs : List B)
    (hk : KeyOk ka kb kr ga gb gc as bs) {r : R} (hr : r ∈ joinList cmp ga gb gc as bs) :
    (∃ a ∈ as, compare (kr r) (ka a) = .eq) ∨ (∃ b ∈ bs, compare (kr r) (kb b) = .eq) := by
  fun_induction joinRef cmp (fun a => Emit.ret (ga a)) (fun b => Emit.ret (gb b))
      (fun a b => Emit.ret (gc a b)) as bs with
  | case1 bs =>
    rw [joinList_nil_left, List.mem_filterMap] at hr
    obtain ⟨b, hb, h⟩ := hr
    exact .inr ⟨b, hb, hk.b b hb r h⟩
  | case2 a as =>
    rw [joinList_nil_right, List.mem_filterMap] at hr
    obtain ⟨b, hb, h⟩ := hr
    exact .inl ⟨b, hb, hk.a b hb r h⟩
  | case3 a as b bs h ih =>
    rw [joinList_cons, h, List.mem_append, Option.mem_toList] at hr
    rcases hr with hr | hr
    · exact .inl ⟨a, by simp, hk.a a (by simp) r hr⟩
    · rcases ih (hk.mono (by simp +contextual) (fun _ h => h)) hr with ⟨x, hx, h⟩ | h
      · exact .inl ⟨x, by simp [hx], h⟩
      · exact .inr h
  | case4 a as b bs h ih =>
    rw [joinList_cons, h, List.mem_append, Option.mem_toList] at hr
    rcases hr with hr | hr
    · exact .inr ⟨b, by simp, hk.b b (by simp) r hr⟩
    · rcases ih (hk.mono (fun _ h => h) (by simp +contextual)) hr with h | ⟨x, hx, h⟩
      · exact .inl h
      · exact .inr ⟨x, by simp [hx], h⟩
  | case5 a as b bs h ih =>
    rw [joinList_cons, h, List.mem_append, Option.mem_toList] at hr
    rcases hr with hr | hr
    · exact .inl ⟨a, by simp, hk.c a (by simp) b (by simp) (by rw [← hcmp]; exact h) r hr⟩
    · rcases ih (hk.mono (by simp +contextual) (by simp +contextual)) hr with ⟨x, hx, h⟩ | ⟨x, hx, h⟩
      · exact .inl ⟨x, by simp [hx], h⟩
      · exact .inr ⟨x, by simp [hx], h⟩

theorem ascendingBy_filterMap {g : A → Option R} {l : List A} (h : AscendingBy ka l)
    (hk : ∀ a ∈ l, ∀ r, g a = some r → compare (kr r) (ka a) = .eq) :
    AscendingBy kr (l.filterMap g) := by
  induction l with
  | nil => simp
  | cons x l ih =>
    rw [ascendingBy_cons] at h
    have ih := ih h.2 (fun a ha => hk a (by simp [ha]))
    rw [List.filterMap_cons]
    cases hg : g x with
    | none => exact ih
    | some r =>
      rw [ascendingBy_cons]
      refine ⟨?_, ih⟩
      intro y hy
      rw [List.mem_filterMap] at hy
      obtain ⟨z, hz, e⟩ := hy
      have h1 := hk x (by simp) r hg
      have h2 := hk z (by simp [hz]) y e
      exact cmp_lt_of_lt_of_eq (cmp_lt_of_eq_of_lt h1 (h.1 z hz)) (cmp_symm h2)

theorem ascendingBy_toList_append {o : Option R} {l : List R} (h : AscendingBy kr l)
    (hl : ∀ r, o = some r → ∀ y ∈ l, compare (kr r) (kr y) = .lt) :
    AscendingBy kr (o.toList ++ l) := by
  cases o with
  | none => simpa using h
  | some r => rw [Option.toList, List.singleton_append, ascendingBy_cons]; exact ⟨hl r rfl, h⟩

/-- Merging ascending inputs gives an ascending output. -/
theorem joinList_ascending (hcmp : ∀ a b, cmp a b = compare (ka a) (kb b)) (as : List A)
    (bs : List B) (ha : AscendingBy ka as) (hb : AscendingBy kb bs)
    (hk : KeyOk ka kb kr ga gb gc as bs) : AscendingBy kr (joinList cmp ga gb gc as bs) := by
  fun_induction joinRef cmp (fun a => Emit.ret (ga a)) (fun b => Emit.ret (gb b))
      (fun a b => Emit.ret (gc a b)) as bs with
  | case1 bs => rw [joinList_nil_left]; exact ascendingBy_filterMap hb hk.b
  | case2 a as => rw [joinList_nil_right]; exact ascendingBy_filterMap ha hk.a
  | case3 a as b bs h ih =>
    rw [joinList_cons, h]
    have ha' := ascendingBy_cons.1 ha
    have hb' := ascendingBy_cons.1 hb
    have hk' : KeyOk ka kb kr ga gb gc as (b :: bs) := hk.mono (by simp +contextual) (fun _ h => h)
    refine ascendingBy_toList_append (ih ha'.2 hb hk') ?_
    intro r hr y hy
    rw [hcmp] at h
    have h1 := hk.a a (by simp) r hr
    rcases mem_joinList hcmp _ _ hk' hy with ⟨z, hz, e⟩ | ⟨z, hz, e⟩
    · exact cmp_lt_of_lt_of_eq (cmp_lt_of_eq_of_lt h1 (ha'.1 z hz)) (cmp_symm e)
    · have : compare (ka a) (kb z) = .lt := by
        rcases List.mem_cons.1 hz with rfl | hz
        · exact h
        · exact cmp_lt_trans h (hb'.1 z hz)
      exact cmp_lt_of_lt_of_eq (cmp_lt_of_eq_of_lt h1 this) (cmp_symm e)
  | case4 a as b bs h ih =>
    rw [joinList_cons, h]
    have ha' := ascendingBy_cons.1 ha
    have hb' := ascendingBy_cons.1 hb
    have hk' : KeyOk ka kb kr ga gb gc (a :: as) bs := hk.mono (fun _ h => h) (by simp +contextual)
    refine ascendingBy_toList_append (ih ha hb'.2 hk') ?_
    intro r hr y hy
    rw [hcmp, cmp_gt_iff] at h
    have h1 := hk.b b (by simp) r hr
    rcases mem_joinList hcmp _ _ hk' hy with ⟨z, hz, e⟩ | ⟨z, hz, e⟩
    · have : compare (kb b) (ka z) = .lt := by
        rcases List.mem_cons.1 hz with rfl | hz
        · exact h
        · exact cmp_lt_trans h (ha'.1 z hz)
      exact cmp_lt_of_lt_of_eq (cmp_lt_of_eq_of_lt h1 this) (cmp_symm e)
    · exact cmp_lt_of_lt_of_eq (cmp_lt_of_eq_of_lt h1 (hb'.1 z hz)) (cmp_symm e)
  | case5 a as b bs h ih =>
    rw [joinList_cons, h]
    have ha' := ascendingBy_cons.1 ha
    have hb' := ascendingBy_cons.1 hb
    have hk' : KeyOk ka kb kr ga gb gc as bs := hk.mono (by simp +contextual) (by simp +contextual)
    refine ascendingBy_toList_append (ih ha'.2 hb'.2 hk') ?_
    intro r hr y hy
    rw [hcmp] at h
    have h1 := hk.c a (by simp) b (by simp) h r hr
    rcases mem_joinList hcmp _ _ hk' hy with ⟨z, hz, e⟩ | ⟨z, hz, e⟩
    · exact cmp_lt_of_lt_of_eq (cmp_lt_of_eq_of_lt h1 (ha'.1 z hz)) (cmp_symm e)
    · have := cmp_lt_of_eq_of_lt h (hb'.1 z hz)
      exact cmp_lt_of_lt_of_eq (cmp_lt_of_eq_of_lt h1 this) (cmp_symm e)

/-- the pointwise meaning of a join -/
def pointJoin (ga : A → Option R) (gb : B → Option R) (gc : A → B → Option R) :
    Option A → Option B → Option R
  | none, none => none
  | some a, none => ga a
  | none, some b => gb b
  | some a, some b => gc a b

theorem findBy_filterMap {g : A → Option R} {l : List A} (h : AscendingBy ka l)
    (hk : ∀ a ∈ l, ∀ r, g a = some r → compare (kr r) (ka a) = .eq) (k : κ) :
    findBy kr (l.filterMap g) k = (findBy ka l k).bind g := by
  induction l with
  | nil => rfl
  | cons x l ih =>
    rw [ascendingBy_cons] at h
    have ih := ih h.2 (fun a ha => hk a (by simp [ha]))
    rw [List.filterMap_cons, findBy_cons]
    by_cases hx : compare (ka x) k = .eq
    · simp only [hx, ↓reduceIte, Option.bind_some]
      cases hg : g x with
      | none =>
        simp only
        rw [ih]
        have : findBy ka l k = none := by
          rw [findBy_none]
          intro y hy e
          have h1 := h.1 y hy
          rw [cmp_eq_trans hx (cmp_symm e)] at h1
          cases h1
        rw [this]; rfl
      | some r =>
        simp only [findBy_cons]
        rw [if_pos (cmp_eq_trans (hk x (by simp) r hg) hx)]
    · simp only [hx, ↓reduceIte]
      cases hg : g x with
      | none => exact ih
      | some r =>
        simp only [findBy_cons]
        rw [if_neg, ih]
        intro e
        exact hx (cmp_eq_trans (cmp_symm (hk x (by simp) r hg)) e)

theorem findBy_toList_append_eq {o : Option R} {l : List R} {k : κ}
    (h : ∀ r, o = some r → compare (kr r) k = .eq) (hl : findBy kr l k = none) :
    findBy kr (o.toList ++ l) k = o := by
  cases o with
  | none => simpa using hl
  | some r => simp [findBy_cons, h r rfl]

omit [TransOrd κ] in
theorem findBy_toList_append_ne {o : Option R} {l : List R} {k : κ}
    (h : ∀ r, o = some r → compare (kr r) k ≠ .eq) :
    findBy kr (o.toList ++ l) k = findBy kr l k := by
  cases o with
  | none => rfl
  | some r => simp [findBy_cons, h r rfl]

theorem findBy_none_of_lt {l : List A} {k k' : κ} (h : ∀ y ∈ l, compare k' (ka y) = .lt)
    (e : compare k' k = .eq) : findBy ka l k = none := by
  rw [findBy_none]
  intro y hy e'
  have := h y hy
  rw [cmp_eq_trans e (cmp_symm e')] at this
  cases this

/-- **Lookup in a merge result** is the pointwise join of the lookups in the inputs. -/
theorem findBy_joinList (hcmp : ∀ a b, cmp a b = compare (ka a) (kb b)) (as : List A)
    (bs : List B) (ha : AscendingBy ka as) (hb : AscendingBy kb bs)
    (hk : KeyOk ka kb kr ga gb gc as bs) (k : κ) :
    findBy kr (joinList cmp ga gb gc as bs) k
      = pointJoin ga gb gc (findBy ka as k) (findBy kb bs k) := by
  fun_induction joinRef cmp (fun a => Emit.ret (ga a)) (fun b => Emit.ret (gb b))
      (fun a b => Emit.ret (gc a b)) as bs with
  | case1 bs =>
    rw [joinList_nil_left, findBy_filterMap hb hk.b, findBy_nil]
    cases findBy kb bs k <;> rfl
  | case2 a as =>
    rw [joinList_nil_right, findBy_filterMap ha hk.a, findBy_nil]
    cases findBy ka (a :: as) k <;> rfl
  | case3 a as b bs h ih =>
    rw [joinList_cons, h]
    have ha' := ascendingBy_cons.1 ha
    have hb' := ascendingBy_cons.1 hb
    have hk' : KeyOk ka kb kr ga gb gc as (b :: bs) := hk.mono (by simp +contextual) (fun _ h => h)
    have ih := ih ha'.2 hb hk'
    rw [hcmp] at h
    simp only
    have hlt : ∀ y ∈ b :: bs, compare (ka a) (kb y) = .lt := by
      intro y hy
      rcases List.mem_cons.1 hy with rfl | hy
      · exact h
      · exact cmp_lt_trans h (hb'.1 y hy)
    by_cases hx : compare (ka a) k = .eq
    · have h1 : findBy kb (b :: bs) k = none := findBy_none_of_lt hlt hx
      have h2 : findBy ka as k = none := findBy_none_of_lt ha'.1 hx
      rw [h1, h2] at ih
      rw [findBy_cons ka, if_pos hx, h1]
      rw [findBy_toList_append_eq (fun r hr => cmp_eq_trans (hk.a a (by simp) r hr) hx) ih]
      rfl
    · rw [findBy_cons ka, if_neg hx, findBy_toList_append_ne, ih]
      intro r hr e
      exact hx (cmp_eq_trans (cmp_symm (hk.a a (by simp) r hr)) e)
  | case4 a as b bs h ih =>
    rw [joinList_cons, h]
    have ha' := ascendingBy_cons.1 ha
    have hb' := ascendingBy_cons.1 hb
    have hk' : KeyOk ka kb kr ga gb gc (a :: as) bs := hk.mono (fun _ h => h) (by simp +contextual)
    have ih := ih ha hb'.2 hk'
    rw [hcmp, cmp_gt_iff] at h
    simp only
    have hlt : ∀ y ∈ a :: as, compare (kb b) (ka y) = .lt := by
      intro y hy
      rcases List.mem_cons.1 hy with rfl | hy
      · exact h
      · exact cmp_lt_trans h (ha'.1 y hy)
    by_cases hx : compare (kb b) k = .eq
    · have h1 : findBy ka (a :: as) k = none := findBy_none_of_lt hlt hx
      have h2 : findBy kb bs k = none := findBy_none_of_lt hb'.1 hx
      rw [h1, h2] at ih
      rw [findBy_cons kb, if_pos hx, h1]
      rw [findBy_toList_append_eq (fun r hr => cmp_eq_trans (hk.b b (by simp) r hr) hx) ih]
      rfl
    · rw [findBy_cons kb, if_neg hx, findBy_toList_append_ne, ih]
      intro r hr e
      exact hx (cmp_eq_trans (cmp_symm (hk.b b (by simp) r hr)) e)
  | case5 a as b bs h ih =>
    rw [joinList_cons, h]
    have ha' := ascendingBy_cons.1 ha
    have hb' := ascendingBy_cons.1 hb
    have hk' : KeyOk ka kb kr ga gb gc as bs := hk.mono (by simp +contextual) (by simp +contextual)
    have ih := ih ha'.2 hb'.2 hk'
    rw [hcmp] at h
    simp only
    have kc : ∀ r, gc a b = some r → compare (kr r) (ka a) = .eq :=
      hk.c a (by simp) b (by simp) h
    by_cases hx : compare (ka a) k = .eq
    · have hy : compare (kb b) k = .eq := cmp_eq_trans (cmp_symm h) hx
      have h1 : findBy ka as k = none := findBy_none_of_lt ha'.1 hx
      have h2 : findBy kb bs k = none := findBy_none_of_lt hb'.1 hy
      rw [h1, h2] at ih
      rw [findBy_cons ka, findBy_cons kb, if_pos hx, if_pos hy]
      rw [findBy_toList_append_eq (fun r hr => cmp_eq_trans (kc r hr) hx) ih]
      rfl
    · have hy : compare (kb b) k ≠ .eq := fun e => hx (cmp_eq_trans h e)
      rw [findBy_cons ka, findBy_cons kb, if_neg hx, if_neg hy, findBy_toList_append_ne, ih]
      intro r hr e
      exact hx (cmp_eq_trans (cmp_symm (kc r hr)) e)

theorem ascendingBy_ne_nil_iff {l : List R} : l ≠ [] ↔ ∃ k, findBy kr l k ≠ none := by
  constructor
  · intro h
    cases l with
    | nil => exact absurd rfl h
    | cons x l => exact ⟨kr x, by simp [findBy_cons, cmp_self]⟩
  · rintro ⟨k, hk⟩ rfl
    exact hk rfl

end Verif
