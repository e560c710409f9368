import Verif.Lemmas.HostileRadixNew
/-! Radix trees over key components that obey no law: relations and lookup. -/
namespace Verif
namespace Hostile
namespace Radix
variable {W K V X : Type} {nice bad b : Prop} {k : Keys W K}

theorem headsCmp_ask (hk : nice → KeysPanic k → bad) {x : Tree K V} {y : Tree K X} (hx : nice → x.pre ≠ []) (hy : nice → y.pre ≠ []) :
    Ok (nice → bad) (headsCmp k x y) fun _ => True := by
  unfold headsCmp
  split
  · exact Ok.call (fun w h hn => hk hn (.inr ⟨_, _, w, h⟩)) fun _ _ _ => trivial
  · rename_i hne
    intro w
    refine ⟨fun _ h => ?_, fun _ hn => ?_, fun h => ?_⟩
    · cases h
    · obtain ⟨u, us, e1⟩ := List.exists_cons_of_ne_nil (hx hn)
      obtain ⟨v, vs, e2⟩ := List.exists_cons_of_ne_nil (hy hn)
      exact absurd e2 (hne u us v vs e1)
    · cases h

theorem boolOp_ok {mp : Prop} {takeA : Bool} {rec : Tree K V → Tree K X → M W Bool} {as : List (Tree K V)} {bs : List (Tree K X)}
    (hcmp : ∀ x ∈ as, ∀ y ∈ bs, Ok mp (headsCmp k x y) fun _ => True) (hrec : ∀ x ∈ as, ∀ y ∈ bs, Ok mp (rec x y) fun _ => True) :
    OpOk mp (fun _ => True) (fun s : BoolMS (Tree K V) (Tree K X) => (∀ x ∈ s.a, x ∈ as) ∧ ∀ y ∈ s.b, y ∈ bs) (fun _ _ => True) (boolOp k takeA rec) where
  weaken _ _ := trivial
  cmp s hs x hx y hy := (hcmp x (hs.1 x hx) y (hs.2 y hy)).mono fun _ _ _ => trivial
  fromA s n w hs hn := by
    have hn : n ≤ s.a.length := hn
    show OkS mp _ _ (step (BoolMS.mut.advanceA s n takeA) w)
    unfold BoolMS.mut
    dsimp only
    split
    · exact OkS.step trivial (fun h => by cases h) fun h => by cases h
    · rw [if_neg (by omega)]
      exact OkS.step trivial (fun h => by cases h) fun _ => ⟨⟨fun x hx => hs.1 x (List.mem_of_mem_drop hx), hs.2⟩, rfl, rfl⟩
  fromB s n w hs hn := by
    have hn : n ≤ s.b.length := hn
    show OkS mp _ _ (step (BoolMS.mut.advanceB s n false) w)
    unfold BoolMS.mut
    dsimp only
    rw [if_neg (by simp), if_neg (by omega)]
    exact OkS.step trivial (fun h => by cases h) fun _ => ⟨⟨hs.1, fun x hx => hs.2 x (List.mem_of_mem_drop hx)⟩, rfl, rfl⟩
  collision s x as' y bs' w hs ha hb _ := by
    have ha : s.a = x :: as' := ha
    have hb : s.b = y :: bs' := hb
    show OkS mp _ _ (match s.a, s.b with
      | x :: _, y :: _ => decideOn s (rec x y w)
      | _, _ => ((s, .panic), w))
    rw [ha, hb]
    show OkS mp _ _ (decideOn s (rec x y w))
    obtain ⟨r1, r2, r3⟩ := hrec x (hs.1 x (by rw [ha]; simp)) y (hs.2 y (by rw [hb]; simp)) w
    unfold decideOn
    split
    · rename_i take w' he
      refine OkS.andThen (I := fun s' => s' = { s with a := as' }) ?_ ?_
      · unfold BoolMS.mut
        dsimp only
        split
        · exact OkS.step trivial (fun h => by cases h) fun h => by cases h
        · rw [if_neg (by rw [ha]; simp)]
          exact OkS.step trivial (fun h => by cases h) fun _ => by rw [ha]; rfl
      · rintro s' w'' rfl
        unfold BoolMS.mut
        dsimp only
        rw [if_neg (by simp), if_neg (by rw [hb]; simp)]
        refine OkS.step trivial (fun h => by cases h) fun _ => ⟨⟨fun z hz => hs.1 z ?_, fun z hz => hs.2 z (List.mem_of_mem_drop hz)⟩, rfl, ?_⟩
        · rw [ha]; exact List.mem_cons_of_mem _ hz
        · show s.b.drop 1 = bs'
          rw [hb]; rfl
    · rename_i w' he
      rw [he] at r2
      exact OkS.panic trivial (r2 rfl)
    · rename_i w' he
      rw [he] at r3
      exact absurd rfl r3

theorem mergeBool_ok {mp : Prop} {takeA : Bool} {rec : Tree K V → Tree K X → M W Bool} {as : List (Tree K V)} {bs : List (Tree K X)}
    (hcmp : ∀ x ∈ as, ∀ y ∈ bs, Ok mp (headsCmp k x y) fun _ => True) (hrec : ∀ x ∈ as, ∀ y ∈ bs, Ok mp (rec x y) fun _ => True) :
    Ok mp (mergeBool (boolOp k takeA rec) as bs) fun _ => True := by
  intro w
  obtain ⟨-, h2, h3, -⟩ := driveAll_ok (boolOp_ok (takeA := takeA) hcmp hrec) { a := as, b := bs, r := false } w ⟨fun _ h => h, fun _ h => h⟩
  unfold mergeBool
  split
  · refine ⟨fun _ _ => trivial, fun h => ?_, fun h => ?_⟩
    · cases h
    · cases h
  · rename_i s w' he
    rw [he] at h3
    refine ⟨fun _ _ => trivial, fun _ => h3 rfl, fun h => ?_⟩
    cases h
  · rename_i s w' he
    rw [he] at h2
    exact absurd rfl h2

theorem anyH_ok {α : Type} {mp : Prop} {p : α → M W Bool} : ∀ l : List α, (∀ x ∈ l, Ok mp (p x) fun _ => True) → Ok mp (anyH p l) fun _ => True
  | [], _ => Ok.pure trivial
  | x :: xs, h => by
    rw [anyH]
    refine (h x (by simp)).bind fun r _ => ?_
    split
    · exact Ok.pure trivial
    · exact anyH_ok xs fun y hy => h y (by simp [hy])
theorem allH_ok {α : Type} {mp : Prop} {p : α → M W Bool} : ∀ l : List α, (∀ x ∈ l, Ok mp (p x) fun _ => True) → Ok mp (allH p l) fun _ => True
  | [], _ => Ok.pure trivial
  | x :: xs, h => by
    rw [allH]
    refine (h x (by simp)).bind fun r _ => ?_
    split
    · exact allH_ok xs fun y hy => h y (by simp [hy])
    · exact Ok.pure trivial

theorem isSubsetGo_ok (hk : nice → KeysPanic k → bad) : ∀ (fuel : Nat) (l : Tree K V) (lp : List K) (r : Tree K X) (rp : List K),
    l.size + r.size < fuel → (nice → Headed l) → (nice → Headed r) → Ok (nice → bad) (isSubsetGo k fuel l lp r rp) fun _ => True
  | 0, l, lp, r, rp, h, _, _ => by omega
  | fuel + 1, l, lp, r, rp, h, hl, hr => by
    have hlk : ∀ x ∈ l.kids, nice → x.pre ≠ [] ∧ Headed x := fun x hx hn => headed_iff.1 (hl hn) x hx
    have hrk : ∀ x ∈ r.kids, nice → x.pre ≠ [] ∧ Headed x := fun x hx hn => headed_iff.1 (hr hn) x hx
    rw [isSubsetGo]
    refine (commonPrefix_ok (mp := nice → bad) (fun h hn => hk hn h) lp rp).bind fun n _ => ?_
    split
    · split
      · refine (mergeBool_ok (fun x hx y hy => headsCmp_ask hk (fun hn => (hlk x hx hn).1) fun hn => (hrk y hy hn).1) fun x hx y hy => ?_).bind
          fun _ _ => Ok.pure trivial
        refine (isSubsetGo_ok hk fuel x x.pre y y.pre ?_ (fun hn => (hlk x hx hn).2) fun hn => (hrk y hy hn).2).bind fun _ _ => Ok.pure trivial
        have := Tree.kid_size hx; have := Tree.kid_size hy; omega
      · exact Ok.pure trivial
    split
    · split
      · refine allH_ok _ fun x hx => isSubsetGo_ok hk fuel x x.pre r (rp.drop n) ?_ (fun hn => (hlk x hx hn).2) hr
        have := Tree.kid_size hx; omega
      · exact Ok.pure trivial
    split
    · refine anyH_ok _ fun x hx => isSubsetGo_ok hk fuel l (lp.drop n) x x.pre ?_ hl fun hn => (hrk x hx hn).2
      have := Tree.kid_size hx; omega
    · exact Ok.pure trivial

theorem intersectsGo_ok (hk : nice → KeysPanic k → bad) : ∀ (fuel : Nat) (l : Tree K V) (lp : List K) (r : Tree K X) (rp : List K),
    l.size + r.size < fuel → (nice → Headed l) → (nice → Headed r) → Ok (nice → bad) (intersectsGo k fuel l lp r rp) fun _ => True
  | 0, l, lp, r, rp, h, _, _ => by omega
  | fuel + 1, l, lp, r, rp, h, hl, hr => by
    have hlk : ∀ x ∈ l.kids, nice → x.pre ≠ [] ∧ Headed x := fun x hx hn => headed_iff.1 (hl hn) x hx
    have hrk : ∀ x ∈ r.kids, nice → x.pre ≠ [] ∧ Headed x := fun x hx hn => headed_iff.1 (hr hn) x hx
    rw [intersectsGo]
    refine (commonPrefix_ok (mp := nice → bad) (fun h hn => hk hn h) lp rp).bind fun n _ => ?_
    split
    · split
      · exact Ok.pure trivial
      · refine mergeBool_ok (fun x hx y hy => headsCmp_ask hk (fun hn => (hlk x hx hn).1) fun hn => (hrk y hy hn).1) fun x hx y hy => ?_
        refine intersectsGo_ok hk fuel x x.pre y y.pre ?_ (fun hn => (hlk x hx hn).2) fun hn => (hrk y hy hn).2
        have := Tree.kid_size hx; have := Tree.kid_size hy; omega
    split
    · refine anyH_ok _ fun x hx => intersectsGo_ok hk fuel x x.pre r (rp.drop n) ?_ (fun hn => (hlk x hx hn).2) hr
      have := Tree.kid_size hx; omega
    split
    · refine anyH_ok _ fun x hx => intersectsGo_ok hk fuel l (lp.drop n) x x.pre ?_ hl fun hn => (hrk x hx hn).2
      have := Tree.kid_size hx; omega
    · exact Ok.pure trivial

/-! ### Lookup -/

/-- what `find` may answer -/
def FindPost (nice b : Prop) (t : Tree K V) (p : List K) : Tree.FindResult K V → Prop
  | .found u => Within (vals u) (vals t) ∧ (nice → Out b u ∧ (u.pre = [] → p = []))
  | .prefix u rt => Within (vals u) (vals t) ∧ (nice → Out b u ∧ u.pre ≠ [])
  | .notFound .. => True

theorem vals_kid {t c : Tree K V} (h : c ∈ t.kids) : Within (vals c) (vals t) := by
  rw [vals_eq t]
  refine Within.trans ?_ (Within.right _ _)
  obtain ⟨l1, l2, e⟩ := List.append_of_mem h
  rw [e, List.flatMap_append, List.flatMap_cons]
  exact (Within.left _ _).trans (Within.right _ _)

theorem findGo_ok (hk : nice → KeysPanic k → bad) : ∀ (fuel : Nat) (t : Tree K V) (p : List K), t.size < fuel → (nice → Out b t) →
    Ok (nice → bad) (findGo k fuel t p) (FindPost nice b t p)
  | 0, t, p, h, _ => by omega
  | fuel + 1, t, p, h, ht => by
    have hkd : ∀ x ∈ t.kids, nice → x.pre ≠ [] ∧ Headed x := fun x hx hn => headed_iff.1 (ht hn).1 x hx
    rw [findGo]
    refine (commonPrefix_ok (mp := nice → bad) (fun h hn => hk hn h) t.pre p).bind fun n hn => ?_
    split
    · rename_i g
      refine Ok.pure ⟨Within.refl _, fun hnn => ⟨ht hnn, fun he => ?_⟩⟩
      have h1 := hn.1
      rw [he] at h1
      have : n = 0 := by simpa using h1
      have : p.length = 0 := by omega
      exact List.length_eq_zero_iff.1 this
    split
    · rename_i g1 g2
      refine Ok.pure ⟨Within.refl _, fun hnn => ⟨ht hnn, fun he => ?_⟩⟩
      rw [he] at g1; simp at g1; omega
    split
    · rename_i g1 g2 g3
      split
      · rename_i hnone
        have := List.getElem?_eq_none_iff.1 hnone
        omega
      · rename_i ch _
        refine (binarySearchBy_hit (Q := fun _ => True) fun x hx => ?_).bind fun res hres => ?_
        · unfold childCmp
          split
          · exact Ok.call (fun w h hn => hk hn (.inr ⟨_, _, w, h⟩)) fun _ _ _ _ => trivial
          · rename_i he
            intro w
            refine ⟨fun _ h => ?_, fun _ hnn => absurd he (hkd x hx hnn).1, fun h => ?_⟩
            · cases h
            · cases h
        · cases res with
          | found i =>
            obtain ⟨x, hx, -⟩ := hres
            show Ok _ (match t.kids[i]? with
              | none => M.panic
              | some child => findGo k fuel child (p.drop n)) _
            rw [hx]
            have hm := List.mem_of_getElem? hx
            have hch : nice → Ch b x := fun hnn => (ht hnn).toIn.1 x hm
            refine (findGo_ok hk fuel x (p.drop n) (by have := Tree.kid_size hm; omega) fun hnn => ⟨(hch hnn).2.1, fun hb => .inr ((hch hnn).2.2 hb)⟩).mono fun r hr => ?_
            cases r with
            | found u =>
              refine ⟨hr.1.trans (vals_kid hm), fun hnn => ⟨(hr.2 hnn).1, fun he => ?_⟩⟩
              have : p.drop n = [] := (hr.2 hnn).2 he
              have := congrArg List.length this
              rw [List.length_drop, List.length_nil] at this
              omega
            | «prefix» u rt => exact ⟨hr.1.trans (vals_kid hm), hr.2⟩
            | notFound u a b => trivial
          | notFound i => exact Ok.pure trivial
    · exact Ok.pure trivial

theorem get_ok (hk : nice → KeysPanic k → bad) (t : Tree K V) (key : List K) (ht : nice → Headed t) :
    Ok (nice → bad) (get k t key) fun r => ∀ v, r = some v → v ∈ vals t := by
  unfold get find
  refine (findGo_ok (b := False) hk _ t key (by omega) fun hn => ⟨ht hn, False.elim⟩).bind fun r hr => ?_
  cases r with
  | found u =>
    refine Ok.pure fun v hv => ?_
    obtain ⟨l, hl⟩ := hr.1
    refine hl.mem_iff.1 (List.mem_append_left _ ?_)
    rw [vals_eq, hv]; simp
  | «prefix» u rt => exact Ok.pure fun v hv => by cases hv
  | notFound u a b => exact Ok.pure fun v hv => by cases hv

theorem filterPrefix_ok (hk : nice → KeysPanic k → bad) (t : Tree K V) (p : List K) (ht : nice → Out b t) :
    Ok (nice → bad) (filterPrefix k t p) fun r => Within (vals r) (vals t) ∧ (nice → Out b r) := by
  unfold filterPrefix find
  refine (findGo_ok (b := b) hk _ t p (by omega) ht).bind fun r hr => ?_
  cases r with
  | found u =>
    refine Ok.pure ⟨by rw [vals_setPre]; exact hr.1, fun hn => ⟨(hr.2 hn).1.1.kids rfl, fun hb => ?_⟩⟩
    rcases (hr.2 hn).1.2 hb with e | e
    · have : p = [] := (hr.2 hn).2 (by rw [e]; rfl)
      subst this
      left; subst e; rfl
    · exact .inr (e.setPre p)
  | «prefix» u rt =>
    refine Ok.pure ⟨by rw [prepend_vals, vals_setPre]; exact hr.1, fun hn => ?_⟩
    have hf : b → Tree.Full u := fun hb => ((hr.2 hn).1.2 hb).resolve_left fun e => (hr.2 hn).2 (by rw [e]; rfl)
    unfold Tree.prepend
    split
    · exact ⟨(hr.2 hn).1.1.kids rfl, fun hb => .inr ((hf hb).setPre _)⟩
    · exact ⟨(hr.2 hn).1.1.kids rfl, fun hb => .inr ((hf hb).setPre _)⟩
  | notFound u x y => exact Ok.pure ⟨Within.nil _, fun _ => ⟨headed_iff.2 fun _ h => (by cases h), fun _ => .inl rfl⟩⟩

end Radix
end Hostile
end Verif
