import Verif.Lemmas.HostileRadixShape
/-! Radix trees over key components that obey no law: combinations into a new tree. -/
namespace Verif
namespace Hostile
variable {W K V X : Type}

theorem pushAll_facts {A R : Type} (conv : A → Call R) : ∀ (xs : List A) (r : List R),
    ∃ ys, (Verif.pushAll conv r xs).1 = r ++ ys ∧ ys.length ≤ xs.length ∧ (xs.take ys.length).map conv = ys.map .ret ∧
      ((Verif.pushAll conv r xs).2 = .cont → ys.length = xs.length) ∧ ((Verif.pushAll conv r xs).2 = .panic → ∃ x ∈ xs, conv x = .panic)
  | [], r => ⟨[], by simp [Verif.pushAll]⟩
  | x :: xs, r => by
    rw [Verif.pushAll]
    split
    · rename_i hx
      refine ⟨[], by simp, by simp, by simp, ?_, fun _ => ⟨x, by simp, hx⟩⟩
      intro h; cases h
    · rename_i y hx
      obtain ⟨ys, h1, h2, h3, h4, h5⟩ := pushAll_facts conv xs (r ++ [y])
      refine ⟨y :: ys, by rw [h1]; simp, by simpa using h2, ?_, fun hc => by simpa using h4 hc, fun hp => ?_⟩
      · simp only [List.length_cons, List.take_succ_cons, List.map_cons, hx]; rw [h3]
      · obtain ⟨z, hz, e⟩ := h5 hp
        exact ⟨z, by simp [hz], e⟩

namespace Radix

section op
variable {mp : Prop} {k : Keys W K} {takeA takeB : Bool} {convA : Tree K V → Call (Tree K V)} {convB : Tree K X → Call (Tree K V)}
  {rec : Tree K V → Tree K X → M W (Tree K V)} {as : List (Tree K V)} {bs : List (Tree K X)} {gb : Tree K X → List V}
  {R : Tree K V → Tree K X → Prop} {P : Tree K V → Prop}

/-- the children consumed so far account for the values in the result, and the result consists of good children -/
def NewI (as : List (Tree K V)) (bs : List (Tree K X)) (gb : Tree K X → List V) (P : Tree K V → Prop)
    (s : SliceMS (Tree K V) (Tree K X) (Tree K V)) : Prop :=
  (∃ ca cb, as = ca ++ s.a ∧ bs = cb ++ s.b ∧ Within (s.r.flatMap vals) (ca.flatMap vals ++ cb.flatMap gb)) ∧ ∀ t ∈ s.r, P t

theorem mem_right {α : Type} {l c m : List α} (e : l = c ++ m) {x : α} (h : x ∈ m) : x ∈ l := by rw [e]; exact List.mem_append_right _ h

theorem conv_within {α : Type} {conv : α → Call (Tree K V)} {g : α → List V} {ys : List (Tree K V)} {xs : List α} (hl : ys.length ≤ xs.length)
    (h : (xs.take ys.length).map conv = ys.map .ret) (hc : ∀ x ∈ xs, ∀ t, conv x = .ret t → Within (vals t) (g x)) :
    Within (ys.flatMap vals) ((xs.take ys.length).flatMap g) := by
  refine Within.flatMap (by rw [List.length_take]; omega) fun i t x ht hx => hc x (List.mem_of_mem_take (List.mem_of_getElem? hx)) t ?_
  have e := congrArg (fun l => l[i]?) h
  simp only [List.getElem?_map, hx, ht] at e
  injection e

theorem pureOp_ok (hcmp : ∀ x ∈ as, ∀ y ∈ bs, Ok mp (headsCmp k x y) fun o => o = .eq → R x y)
    (hA : takeA = true → ∀ x ∈ as, (convA x = .panic → mp) ∧ ∀ t, convA x = .ret t → Within (vals t) (vals x) ∧ P t)
    (hB : takeB = true → ∀ y ∈ bs, (convB y = .panic → mp) ∧ ∀ t, convB y = .ret t → Within (vals t) (gb y) ∧ P t)
    (hrec : ∀ x ∈ as, ∀ y ∈ bs, R x y → Ok mp (rec x y) fun t => Within (vals t) (vals x ++ gb y) ∧ (t.isEmpty = false → P t)) :
    OpOk mp (fun _ => True) (NewI as bs gb P) R (pureOp k takeA takeB convA convB rec) where
  weaken _ _ := trivial
  cmp s hs x hx y hy := by
    obtain ⟨⟨ca, cb, e1, e2, -⟩, -⟩ := hs
    exact hcmp x (mem_right e1 hx) y (mem_right e2 hy)
  fromA s n w hs hn := by
    have hn : n ≤ s.a.length := hn
    obtain ⟨⟨ca, cb, e1, e2, h⟩, hP⟩ := hs
    show OkS mp _ _ (step ((SliceMS.mut convA convB).advanceA s n takeA) w)
    unfold SliceMS.mut
    dsimp only
    rw [if_neg (by omega)]
    have e1' : as = ca ++ s.a.take n ++ s.a.drop n := by rw [List.append_assoc, List.take_append_drop]; exact e1
    cases takeA with
    | false =>
      refine OkS.step trivial (fun h => by cases h) fun _ => ⟨⟨⟨ca ++ s.a.take n, cb, e1', e2, ?_⟩, hP⟩, rfl, rfl⟩
      refine h.trans ?_
      rw [List.flatMap_append]
      exact (Within.left _ _).append (Within.refl _)
    | true =>
      obtain ⟨ys, h1, h2, h3, h4, h5⟩ := pushAll_facts convA (s.a.take n) s.r
      refine OkS.step trivial (fun hp => ?_) fun hc => ?_
      · obtain ⟨x, hx, e⟩ := h5 hp
        exact (hA rfl x (mem_right e1 (List.mem_of_mem_take hx))).1 e
      · have hl : ys.length = (s.a.take n).length := h4 hc
        have hw := conv_within (g := vals) h2 h3 fun x hx t ht => ((hA rfl x (mem_right e1 (List.mem_of_mem_take hx))).2 t ht).1
        rw [hl, List.take_length] at hw
        refine ⟨⟨⟨ca ++ s.a.take n, cb, e1', e2, ?_⟩, ?_⟩, rfl, rfl⟩
        · show Within ((Verif.pushAll convA s.r (s.a.take n)).1.flatMap vals) _
          rw [h1, List.flatMap_append, List.flatMap_append]
          refine (h.append hw).perm (List.Perm.refl _) ?_
          simp only [List.append_assoc]
          exact List.Perm.append_left _ List.perm_append_comm
        · intro t ht
          have ht : t ∈ (Verif.pushAll convA s.r (s.a.take n)).1 := ht
          rw [h1] at ht
          rcases List.mem_append.1 ht with ht | ht
          · exact hP t ht
          · have : Call.ret t ∈ ((s.a.take n).take ys.length).map convA := by rw [h3]; exact List.mem_map_of_mem ht
            obtain ⟨x, hx, e⟩ := List.mem_map.1 this
            exact ((hA rfl x (mem_right e1 (List.mem_of_mem_take (List.mem_of_mem_take hx)))).2 t e).2
  fromB s n w hs hn := by
    have hn : n ≤ s.b.length := hn
    obtain ⟨⟨ca, cb, e1, e2, h⟩, hP⟩ := hs
    show OkS mp _ _ (step ((SliceMS.mut convA convB).advanceB s n takeB) w)
    unfold SliceMS.mut
    dsimp only
    rw [if_neg (by omega)]
    have e2' : bs = cb ++ s.b.take n ++ s.b.drop n := by rw [List.append_assoc, List.take_append_drop]; exact e2
    cases takeB with
    | false =>
      refine OkS.step trivial (fun h => by cases h) fun _ => ⟨⟨⟨ca, cb ++ s.b.take n, e1, e2', ?_⟩, hP⟩, rfl, rfl⟩
      refine h.trans ?_
      rw [List.flatMap_append]
      exact (Within.refl _).append (Within.left _ _)
    | true =>
      obtain ⟨ys, h1, h2, h3, h4, h5⟩ := pushAll_facts convB (s.b.take n) s.r
      refine OkS.step trivial (fun hp => ?_) fun hc => ?_
      · obtain ⟨x, hx, e⟩ := h5 hp
        exact (hB rfl x (mem_right e2 (List.mem_of_mem_take hx))).1 e
      · have hl : ys.length = (s.b.take n).length := h4 hc
        have hw := conv_within (g := gb) h2 h3 fun x hx t ht => ((hB rfl x (mem_right e2 (List.mem_of_mem_take hx))).2 t ht).1
        rw [hl, List.take_length] at hw
        refine ⟨⟨⟨ca, cb ++ s.b.take n, e1, e2', ?_⟩, ?_⟩, rfl, rfl⟩
        · show Within ((Verif.pushAll convB s.r (s.b.take n)).1.flatMap vals) _
          rw [h1, List.flatMap_append, List.flatMap_append]
          refine (h.append hw).perm (List.Perm.refl _) ?_
          rw [List.append_assoc]
        · intro t ht
          have ht : t ∈ (Verif.pushAll convB s.r (s.b.take n)).1 := ht
          rw [h1] at ht
          rcases List.mem_append.1 ht with ht | ht
          · exact hP t ht
          · have : Call.ret t ∈ ((s.b.take n).take ys.length).map convB := by rw [h3]; exact List.mem_map_of_mem ht
            obtain ⟨x, hx, e⟩ := List.mem_map.1 this
            exact ((hB rfl x (mem_right e2 (List.mem_of_mem_take (List.mem_of_mem_take hx)))).2 t e).2
  collision s x as' y bs' w hs ha hb hR := by
    have ha : s.a = x :: as' := ha
    have hb : s.b = y :: bs' := hb
    obtain ⟨⟨ca, cb, e1, e2, h⟩, hP⟩ := hs
    show OkS mp _ _ (match s.a, s.b with
      | x :: as, y :: bs => collect s as bs (rec x y w)
      | _, _ => ((s, .panic), w))
    rw [ha, hb]
    obtain ⟨r1, r2, r3⟩ := hrec x (mem_right e1 (by rw [ha]; simp)) y (mem_right e2 (by rw [hb]; simp)) hR w
    show OkS mp _ _ (collect s as' bs' (rec x y w))
    unfold collect
    split
    · rename_i t w' he
      rw [he] at r1
      obtain ⟨g1, g2⟩ := r1 t rfl
      refine OkS.ret trivial fun _ => ⟨⟨⟨ca ++ [x], cb ++ [y], by rw [e1, ha]; simp, by rw [e2, hb]; simp, ?_⟩, ?_⟩, rfl, rfl⟩
      · have : Within ((if t.isEmpty = true then [] else [t]).flatMap vals) ([x].flatMap vals ++ [y].flatMap gb) := by
          cases t.isEmpty
          · simpa using g1
          · exact Within.nil _
        have e : (if t.isEmpty = true then s.r else s.r ++ [t]) = s.r ++ (if t.isEmpty = true then [] else [t]) := by split <;> simp
        show Within ((if t.isEmpty = true then s.r else s.r ++ [t]).flatMap vals) _
        rw [e, List.flatMap_append, List.flatMap_append, List.flatMap_append]
        exact (h.append this).perm (List.Perm.refl _) (swap4 _ _ _ _)
      · intro u hu
        have hu : u ∈ (if t.isEmpty = true then s.r else s.r ++ [t]) := hu
        split at hu
        · exact hP u hu
        · rename_i hne
          rcases List.mem_append.1 hu with hu | hu
          · exact hP u hu
          · obtain rfl := List.mem_singleton.1 hu
            exact g2 (by simpa using hne)
    · rename_i w' he
      rw [he] at r2
      exact OkS.panic trivial (r2 rfl)
    · rename_i w' he
      rw [he] at r3
      exact absurd rfl r3

theorem pure_notStopped {as : List (Tree K V)} {bs : List (Tree K X)} (w : W) :
    NotStopped (driveAll (pureOp k takeA takeB convA convB rec) { a := as, b := bs, r := [] } w) := by
  have hp : ∀ {A : Type} (c : A → Call (Tree K V)) (xs : List A) r, (Verif.pushAll c r xs).2 ≠ .stop := by
    intro A c xs
    induction xs with
    | nil => intro r h; cases h
    | cons x xs ih =>
      intro r
      rw [Verif.pushAll]
      split
      · intro h; cases h
      · exact ih _
  refine drive_notStopped ?_ ?_ ?_ _ _ _ _
  · intro s n
    show ((SliceMS.mut convA convB).advanceA s n takeA).2 ≠ .stop
    unfold SliceMS.mut
    dsimp only
    split
    · intro h; cases h
    · split
      · exact hp _ _ _
      · intro h; cases h
  · intro s n
    show ((SliceMS.mut convA convB).advanceB s n takeB).2 ≠ .stop
    unfold SliceMS.mut
    dsimp only
    split
    · intro h; cases h
    · split
      · exact hp _ _ _
      · intro h; cases h
  · intro s w
    show NotStopped (match s.a, s.b with
      | x :: as, y :: bs => collect s as bs (rec x y w)
      | _, _ => ((s, .panic), w))
    split
    · unfold collect
      split <;> (intro h; cases h)
    · exact NotStopped.panic

theorem mergeChildren_ok (h : OpOk mp (fun _ => True) (NewI as bs gb P) R (pureOp k takeA takeB convA convB rec)) :
    Ok mp (mergeChildren (pureOp k takeA takeB convA convB rec) as bs)
      (fun ks => Within (ks.flatMap vals) (as.flatMap vals ++ bs.flatMap gb) ∧ ∀ t ∈ ks, P t) := by
  intro w
  obtain ⟨-, h2, h3, h4⟩ := driveAll_ok h { a := as, b := bs, r := [] } w ⟨⟨[], [], rfl, rfl, Within.nil _⟩, fun _ h => by cases h⟩
  have hns := pure_notStopped (k := k) (takeA := takeA) (takeB := takeB) (convA := convA) (convB := convB) (rec := rec) (as := as) (bs := bs) w
  unfold mergeChildren
  split
  · rename_i s bb w' he
    rw [he] at h4 hns
    refine ⟨fun ks hks => ?_, fun h => ?_, fun h => ?_⟩
    · cases hks
      cases bb with
      | false => exact absurd rfl hns
      | true =>
        obtain ⟨⟨⟨ca, cb, e1, e2, hw⟩, hP⟩, ea, eb⟩ := h4 rfl
        have ea : s.a = [] := ea
        have eb : s.b = [] := eb
        rw [ea, List.append_nil] at e1
        rw [eb, List.append_nil] at e2
        rw [e1, e2]; exact ⟨hw, hP⟩
    · cases h
    · cases h
  · rename_i s w' he
    rw [he] at h3
    refine ⟨fun _ h => ?_, fun _ => h3 rfl, fun h => ?_⟩
    · cases h
    · cases h
  · rename_i s w' he
    rw [he] at h2
    exact absurd rfl h2

end op

/-! ### The three combinations -/
section go
variable {nice bad b c : Prop} {k : Keys W K} {takeA takeB : Bool} {convB : Tree K X → Call (Tree K V)}
  {rec : Tree K V → Tree K X → M W (Tree K V)} {gb : Tree K X → List V} {fuel : Nat}

/-- what a combination of `x` and `y` returns: values of `x` and `y`, and if everything is nice a tidy tree -/
def Post (nice b : Prop) (k : Keys W K) (gb : Tree K X → List V) (x : Tree K V) (y : Tree K X) (t : Tree K V) : Prop :=
  Within (vals t) (vals x ++ gb y) ∧ (nice → Out b t ∧ (Heads k x.pre y.pre → t.isEmpty = false → t.pre ≠ []))

/-- either the keys are nice, or nothing is known -/
structure Nice (nice bad : Prop) (k : Keys W K) : Prop where
  panic : nice → KeysPanic k → bad
  consistent : nice → Consistent k

theorem headsCmp_nice (hk : Nice nice bad k) {x : Tree K V} {y : Tree K X} (hx : nice → Ch b x) (hy : nice → Ch c y) :
    Ok (nice → bad) (headsCmp k x y) fun o => o = .eq → (nice → Heads k x.pre y.pre) := by
  by_cases hn : nice
  · refine (headsCmp_ok (mp := nice → bad) (fun h _ => hk.panic hn h) (hk.consistent hn) (hx hn).1 (hy hn).1).mono fun o ho he _ => ho he
  · intro w
    have := headsCmp_true k x y (fun _ => True) (fun _ => trivial) w
    exact ⟨fun _ _ _ h => absurd h hn, fun _ h => absurd h hn, this.2.2⟩

theorem kids_new (hk : Nice nice bad k)
    (hB : takeB = true → ∀ y, (nice → Ch c y) → (convB y = .panic → nice → bad) ∧ ∀ t, convB y = .ret t → Within (vals t) (gb y) ∧ (nice → Ch b t))
    (hrec : ∀ x y, x.size + y.size < fuel → (nice → In b x) → (nice → In c y) → Ok (nice → bad) (rec x y) (Post nice b k gb x y))
    (as : List (Tree K V)) (bs : List (Tree K X)) (hs : ∀ x ∈ as, ∀ y ∈ bs, x.size + y.size < fuel) (ha : nice → ∀ x ∈ as, Ch b x)
    (hb : nice → ∀ y ∈ bs, Ch c y) :
    Ok (nice → bad) (mergeChildren (pureOp k takeA takeB Tree.materialize convB rec) as bs)
      (fun ks => Within (ks.flatMap vals) (as.flatMap vals ++ bs.flatMap gb) ∧ ∀ t ∈ ks, nice → Ch b t) := by
  refine mergeChildren_ok (R := fun x y => nice → Heads k x.pre y.pre) (pureOp_ok (fun x hx y hy => headsCmp_nice hk (fun h => ha h x hx) fun h => hb h y hy) ?_ ?_ ?_)
  · intro _ x hx
    refine ⟨fun hp hn => ?_, fun t ht => ⟨materialize_within x t ht, fun hn => ?_⟩⟩
    · obtain ⟨t, ht, -⟩ := materialize_ch (ha hn x hx)
      rw [ht] at hp; cases hp
    · obtain ⟨t', ht', h'⟩ := materialize_ch (ha hn x hx)
      rw [ht'] at ht; cases ht; exact h'
  · exact fun ht y hy => hB ht y fun h => hb h y hy
  · intro x hx y hy hR
    refine (hrec x y (hs x hx y hy) (fun h => (ha h x hx).toIn) fun h => (hb h y hy).toIn).mono fun t ht => ⟨ht.1, fun he hn => ?_⟩
    exact (ht.2 hn).1.ch he ((ht.2 hn).2 (hR hn) he)

theorem mat_new {y : Tree K X} {n : Nat} (hn : nice → n < y.pre.length) (hy : nice → Headed y) :
    Ok (nice → bad) (ofCall (y.materializeShortened n) : M W (Tree K X)) (fun t => t = { y with pre := y.pre.drop n }) := by
  cases h : y.materializeShortened n with
  | ret t => exact Ok.pure (materialize_facts h).2
  | panic =>
    intro w
    refine ⟨fun _ h => ?_, fun _ hnn => ?_, fun h => ?_⟩
    · cases h
    · rw [materialize_total y n (hn hnn) (hy hnn)] at h; cases h
    · cases h

theorem mkNode_post {x : Tree K V} {y : Tree K X} {p : List K} {v : Option V} {ks : List (Tree K V)}
    (hw : Within (v.toList ++ ks.flatMap vals) (vals x ++ gb y)) (hks : ∀ t ∈ ks, nice → Ch b t) (hp : nice → Heads k x.pre y.pre → p ≠ []) :
    Post nice b k gb x y (mkNode p v ks) := by
  unfold mkNode
  refine ⟨by rw [unsplit_vals, vals_eq]; exact hw, fun hn => ⟨unsplit_out fun t ht => hks t ht hn, fun hH he => ?_⟩⟩
  obtain ⟨r, e⟩ := Tree.unsplit_pre he
  rw [e]
  intro h0
  exact hp hn hH (List.append_eq_nil_iff.1 h0).1

theorem prefix_new (hk : Nice nice bad k) (x : Tree K V) (y : Tree K X) {f : Nat → M W (Tree K V)} {Q : Tree K V → Prop}
    (h : ∀ n, n ≤ x.pre.length → n ≤ y.pre.length → (nice → Heads k x.pre y.pre → x.pre.take n ≠ []) → Ok (nice → bad) (f n) Q) :
    Ok (nice → bad) (commonPrefix k x.pre y.pre >>= f) Q := by
  refine (commonPrefix_ok (mp := nice → bad) (fun h hn => hk.panic hn h) x.pre y.pre).bind fun n hn => h n hn.1 hn.2.1 fun _ hH => ?_
  have := hn.2.2 hH
  exact take_ne this (by omega)

theorem outerPureVal_within {f : V → V → Option V} (hf : ChoosesNew f) (v w : Option V) : Within (Tree.outerPureVal f v w).toList (v.toList ++ w.toList) := by
  unfold Tree.outerPureVal
  split
  · rename_i a b
    cases h : f a b with
    | none => exact Within.nil _
    | some u =>
      rcases hf a b u h with rfl | rfl
      · exact Within.left [u] [b]
      · exact Within.right [a] [u]
  · exact Within.left _ _
  · exact Within.right _ _
  · exact Within.nil _
theorem innerPureVal_within {f : V → X → Option V} (hf : KeepsNew f) (v : Option V) (w : Option X) : Within (Tree.innerPureVal f v w).toList v.toList := by
  unfold Tree.innerPureVal
  split
  · rename_i a b
    cases h : f a b with
    | none => exact Within.nil _
    | some u => rw [hf a b u h]; exact Within.refl _
  · exact Within.nil _
theorem leftPureVal_within {f : V → Option X → Option V} (hf : KeepsNew f) (v : Option V) (w : Option X) : Within (Tree.leftPureVal f v w).toList v.toList := by
  unfold Tree.leftPureVal
  split
  · rename_i a
    cases h : f a w with
    | none => exact Within.nil _
    | some u => rw [hf a w u h]; exact Within.refl _
  · exact Within.nil _

theorem drop_vals (x : Tree K V) (n : Nat) : [({ x with pre := x.pre.drop n } : Tree K V)].flatMap vals = vals x := by
  rw [List.flatMap_cons, List.flatMap_nil, List.append_nil, vals_setPre]

theorem outerGo_ok {sort : Sorter W (Tree K V)} {f : V → V → Option V} (hk : Nice nice bad k) (hr : Rearranges sort)
    (hsp : nice → SortingPanics sort → bad) (hf : ChoosesNew f) : ∀ (fuel : Nat) (x y : Tree K V), x.size + y.size < fuel →
    (nice → In b x) → (nice → In b y) → Ok (nice → bad) (outerGo k sort f fuel x y) (Post nice b k vals x y)
  | 0, x, y, h, _, _ => by omega
  | fuel + 1, x, y, h, hx, hy => by
    have ih := fun x y h hx hy => outerGo_ok hk hr hsp hf fuel x y h hx hy
    have hB : true = true → ∀ y : Tree K V, (nice → Ch b y) → (y.materialize = .panic → nice → bad) ∧
        ∀ t, y.materialize = .ret t → Within (vals t) (vals y) ∧ (nice → Ch b t) := fun _ y hy => by
      refine ⟨fun hp hn => ?_, fun t ht => ⟨materialize_within y t ht, fun hn => ?_⟩⟩
      · obtain ⟨t, ht, -⟩ := materialize_ch (hy hn)
        rw [ht] at hp; cases hp
      · obtain ⟨t', ht', h'⟩ := materialize_ch (hy hn)
        rw [ht'] at ht; cases ht; exact h'
    rw [outerGo]
    refine prefix_new hk x y fun n hn1 hn2 hp => ?_
    unfold outerCases
    split
    · refine (kids_new hk hB ih x.kids y.kids (kids_lt h) (fun hn => (hx hn).1) fun hn => (hy hn).1).bind fun ks hks => Ok.pure (mkNode_post ?_ hks.2 hp)
      rw [vals_eq x, vals_eq y]
      exact ((outerPureVal_within hf x.val y.val).append hks.1).perm (List.Perm.refl _) (swap4 _ _ _ _)
    split
    · rename_i g1 g2
      have hlt : n < y.pre.length := by omega
      refine (mat_new (fun _ => hlt) fun hn => (hy hn).headed).bind fun y' hy' => ?_
      subst hy'
      refine (kids_new hk hB ih x.kids _ (short_lt h n) (fun hn => (hx hn).1) fun hn z hz => ?_).bind fun ks hks => Ok.pure (mkNode_post ?_ hks.2 hp)
      · obtain rfl := List.mem_singleton.1 hz; exact (hy hn).drop hlt
      · have := hks.1
        rw [drop_vals] at this
        rw [vals_eq x, List.append_assoc]
        exact (Within.refl _).append this
    split
    · rename_i g1 g2 g3
      have hlt : n < x.pre.length := by omega
      refine (mat_new (fun _ => hlt) fun hn => (hx hn).headed).bind fun x' hx' => ?_
      subst hx'
      refine (kids_new hk hB ih _ y.kids (split_lt h n) (fun hn z hz => ?_) fun hn => (hy hn).1).bind fun ks hks => Ok.pure (mkNode_post ?_ hks.2 hp)
      · obtain rfl := List.mem_singleton.1 hz; exact (hx hn).drop hlt
      · have := hks.1
        rw [drop_vals] at this
        rw [vals_eq y]
        refine ((Within.refl y.val.toList).append this).perm (List.Perm.refl _) ?_
        rw [← List.append_assoc, ← List.append_assoc]
        exact List.Perm.append_right _ List.perm_append_comm
    · rename_i g1 g2 g3
      have hlt : n < x.pre.length := by omega
      have hlt' : n < y.pre.length := by omega
      refine (mat_new (fun _ => hlt) fun hn => (hx hn).headed).bind fun x' hx' => ?_
      subst hx'
      refine (mat_new (fun _ => hlt') fun hn => (hy hn).headed).bind fun y' hy' => ?_
      subst hy'
      have hm : nice → ∀ t ∈ [({ x with pre := x.pre.drop n } : Tree K V), { y with pre := y.pre.drop n }], Ch b t := by
        intro hn t ht
        rcases List.mem_cons.1 ht with rfl | ht
        · exact (hx hn).drop hlt
        · obtain rfl := List.mem_singleton.1 ht; exact (hy hn).drop hlt'
      have hs : Ok (nice → bad) (sortPair sort { x with pre := x.pre.drop n } { y with pre := y.pre.drop n })
          (fun l => l.Perm [({ x with pre := x.pre.drop n } : Tree K V), { y with pre := y.pre.drop n }]) := by
        intro w
        have hp := hr [({ x with pre := x.pre.drop n } : Tree K V), { y with pre := y.pre.drop n }] w
        have hq := fun hn hq => hsp hn ⟨[({ x with pre := x.pre.drop n } : Tree K V), { y with pre := y.pre.drop n }], w, fun t ht => (hm hn t ht).1, hq⟩
        unfold sortPair
        split
        · rename_i l u w' he
          rw [he] at hp
          refine ⟨fun l' h => ?_, fun h => ?_, fun h => ?_⟩
          · cases h; exact hp
          · cases h
          · cases h
        · rename_i l w' he
          rw [he] at hq
          refine ⟨fun l' h => ?_, fun _ hn => hq hn rfl, fun h => ?_⟩
          · cases h
          · cases h
      refine hs.bind fun l hl => Ok.pure (mkNode_post ?_ (fun t ht hn => hm hn t (hl.mem_iff.1 ht)) hp)
      refine Within.perm (Within.refl _) (List.Perm.trans (hl.flatMap_right vals) ?_) (List.Perm.refl _)
      simp [vals_setPre]

/-- the right tree contributes no values -/
abbrev PostN (nice b : Prop) (k : Keys W K) (x : Tree K V) (y : Tree K X) (t : Tree K V) : Prop := Post nice b k (fun _ => []) x y t

theorem within_nil {l : List (Tree K V)} {m : List (Tree K X)} {ks : List (Tree K V)} (h : Within (ks.flatMap vals) (l.flatMap vals ++ m.flatMap fun _ => [])) :
    Within (ks.flatMap vals) (l.flatMap vals) := by
  have : m.flatMap (fun _ => ([] : List V)) = [] := List.flatMap_eq_nil_iff.2 fun _ _ => rfl
  rwa [this, List.append_nil] at h

theorem innerGo_ok {f : V → X → Option V} (hk : Nice nice bad k) (hf : KeepsNew f) : ∀ (fuel : Nat) (x : Tree K V) (y : Tree K X), x.size + y.size < fuel →
    (nice → In b x) → (nice → In c y) → Ok (nice → bad) (innerGo k f fuel x y) (PostN nice b k x y)
  | 0, x, y, h, _, _ => by omega
  | fuel + 1, x, y, h, hx, hy => by
    have ih := fun x y h hx hy => innerGo_ok hk hf fuel x y h hx hy
    have hB : false = true → ∀ y : Tree K X, (nice → Ch c y) → ((noConverter y : Call (Tree K V)) = .panic → nice → bad) ∧
        ∀ t : Tree K V, noConverter y = .ret t → Within (vals t) [] ∧ (nice → Ch b t) := fun h => by cases h
    rw [innerGo]
    refine prefix_new hk x y fun n hn1 hn2 hp => ?_
    unfold innerCases
    split
    · refine (kids_new hk hB ih x.kids y.kids (kids_lt h) (fun hn => (hx hn).1) fun hn => (hy hn).1).bind fun ks hks => Ok.pure (mkNode_post ?_ hks.2 hp)
      rw [vals_eq x, List.append_nil]
      exact (innerPureVal_within hf x.val y.val).append (within_nil hks.1)
    split
    · rename_i g1 g2
      have hlt : n < y.pre.length := by omega
      refine (mat_new (fun _ => hlt) fun hn => (hy hn).headed).bind fun y' hy' => ?_
      subst hy'
      refine (kids_new hk hB ih x.kids _ (short_lt h n) (fun hn => (hx hn).1) fun hn z hz => ?_).bind fun ks hks => Ok.pure (mkNode_post ?_ hks.2 hp)
      · obtain rfl := List.mem_singleton.1 hz; exact (hy hn).drop hlt
      · rw [vals_eq x, List.append_nil]
        exact (Within.nil _).append (within_nil hks.1)
    split
    · rename_i g1 g2 g3
      have hlt : n < x.pre.length := by omega
      refine (mat_new (fun _ => hlt) fun hn => (hx hn).headed).bind fun x' hx' => ?_
      subst hx'
      refine (kids_new hk hB ih _ y.kids (split_lt h n) (fun hn z hz => ?_) fun hn => (hy hn).1).bind fun ks hks => Ok.pure (mkNode_post ?_ hks.2 hp)
      · obtain rfl := List.mem_singleton.1 hz; exact (hx hn).drop hlt
      · have := within_nil hks.1
        rw [drop_vals] at this
        rw [List.append_nil]
        exact this
    · exact Ok.pure (mkNode_post (Within.nil _) (fun _ h => by cases h) hp)

theorem leftGo_ok {f : V → Option X → Option V} (hk : Nice nice bad k) (hf : KeepsNew f) : ∀ (fuel : Nat) (x : Tree K V) (y : Tree K X), x.size + y.size < fuel →
    (nice → In b x) → (nice → In c y) → Ok (nice → bad) (leftGo k f fuel x y) (PostN nice b k x y)
  | 0, x, y, h, _, _ => by omega
  | fuel + 1, x, y, h, hx, hy => by
    have ih := fun x y h hx hy => leftGo_ok hk hf fuel x y h hx hy
    have hB : false = true → ∀ y : Tree K X, (nice → Ch c y) → ((noConverter y : Call (Tree K V)) = .panic → nice → bad) ∧
        ∀ t : Tree K V, noConverter y = .ret t → Within (vals t) [] ∧ (nice → Ch b t) := fun h => by cases h
    rw [leftGo]
    refine prefix_new hk x y fun n hn1 hn2 hp => ?_
    unfold leftCases
    split
    · refine (kids_new hk hB ih x.kids y.kids (kids_lt h) (fun hn => (hx hn).1) fun hn => (hy hn).1).bind fun ks hks => Ok.pure (mkNode_post ?_ hks.2 hp)
      rw [vals_eq x, List.append_nil]
      exact (leftPureVal_within hf x.val y.val).append (within_nil hks.1)
    split
    · rename_i g1 g2
      have hlt : n < y.pre.length := by omega
      refine (mat_new (fun _ => hlt) fun hn => (hy hn).headed).bind fun y' hy' => ?_
      subst hy'
      refine (kids_new hk hB ih x.kids _ (short_lt h n) (fun hn => (hx hn).1) fun hn z hz => ?_).bind fun ks hks => Ok.pure (mkNode_post ?_ hks.2 hp)
      · obtain rfl := List.mem_singleton.1 hz; exact (hy hn).drop hlt
      · rw [vals_eq x, List.append_nil]
        exact (Within.refl _).append (within_nil hks.1)
    split
    · rename_i g1 g2 g3
      have hlt : n < x.pre.length := by omega
      refine (mat_new (fun _ => hlt) fun hn => (hx hn).headed).bind fun x' hx' => ?_
      subst hx'
      refine (kids_new hk hB ih _ y.kids (split_lt h n) (fun hn z hz => ?_) fun hn => (hy hn).1).bind fun ks hks => Ok.pure (mkNode_post ?_ hks.2 hp)
      · obtain rfl := List.mem_singleton.1 hz; exact (hx hn).drop hlt
      · have := within_nil hks.1
        rw [drop_vals] at this
        rw [List.append_nil]
        exact this
    · have hm : Ok (nice → bad) (ofCall (Tree.materializeKids x.kids) : M W (List (Tree K V))) (fun ks => ks = x.kids) := by
        cases h : Tree.materializeKids x.kids with
        | ret t => exact Ok.pure (Tree.materializeKids_ret _ _ h)
        | panic =>
          intro w
          refine ⟨fun _ h => ?_, fun _ hn => ?_, fun h => ?_⟩
          · cases h
          · rw [materializeKids_total _ (headed_iff.1 (hx hn).headed)] at h; cases h
          · cases h
      refine hm.bind fun ks hks => Ok.pure (mkNode_post ?_ ?_ ?_)
      · subst hks
        rw [vals_eq x, List.append_nil]; exact Within.refl _
      · subst hks; exact fun t ht hn => (hx hn).1 t ht
      · intro hn hH e
        refine hp hn hH ?_
        rw [e]; simp

end go

end Radix
end Hostile
end Verif
