import Verif.Lemmas.RadixCanon
import Verif.Lemmas.RadixFind
import Verif.Lemmas.RadixIter
/-! Archives, `prepend` and equality of radix trees. -/
namespace Verif
namespace Tree
open Std

section
variable {K V W : Type _}

/-! ### Induction over trees -/

theorem induct {P : Tree K V → Prop} (h : ∀ p v ks, (∀ c ∈ ks, P c) → P ⟨p, v, ks⟩) (t : Tree K V) : P t := by
  have : ∀ n (t : Tree K V), t.size ≤ n → P t := by
    intro n
    induction n with
    | zero => intro t hs; rw [size_eq] at hs; omega
    | succ n ih =>
      intro ⟨p, v, ks⟩ hs
      refine h p v ks (fun c hc => ih c ?_)
      have := kid_size (t := ⟨p, v, ks⟩) hc
      omega
  exact this _ t (Nat.le_refl _)

/-! ### Archives -/

theorem archiveKids_eq {ks : List (Tree K V)} (h : ∀ c ∈ ks, c.archive = c) : archiveKids ks = ks := by
  induction ks with
  | nil => rfl
  | cons c cs ih => rw [archiveKids, h c (by simp), ih (fun x hx => h x (by simp [hx]))]
theorem archive_eq (t : Tree K V) : t.archive = t := by
  refine induct (P := fun t => t.archive = t) ?_ t
  intro p v ks ih
  rw [archive, archiveKids_eq ih]

theorem deserializeKids_eq {ks : List (Tree K V)} (h : ∀ c ∈ ks, c.deserialize = c) : deserializeKids ks = ks := by
  induction ks with
  | nil => rfl
  | cons c cs ih => rw [deserializeKids, h c (by simp), ih (fun x hx => h x (by simp [hx]))]
theorem deserialize_eq (t : Tree K V) : t.deserialize = t := by
  refine induct (P := fun t => t.deserialize = t) ?_ t
  intro p v ks ih
  rw [deserialize, deserializeKids_eq ih]

section check
variable [Ord K] [TransOrd K]

theorem ascendingHeads_iff (ks : List (Tree K V)) : ascendingHeads ks = true ↔ AscendingBy (fun c : Tree K V => c.pre.head?) ks := by
  induction ks with
  | nil => simp [ascendingHeads]
  | cons a rest ih =>
    cases rest with
    | nil => simp [ascendingHeads, AscendingBy]
    | cons b rest =>
      rw [ascendingHeads, Bool.and_eq_true, ih, ascendingBy_cons (x := a)]
      simp only [beq_iff_eq, headCmp]
      constructor
      · rintro ⟨h1, h2⟩
        refine ⟨?_, h2⟩
        intro x hx
        rcases List.mem_cons.1 hx with rfl | hx
        · exact h1
        · exact TransCmp.lt_trans h1 ((ascendingBy_cons.1 h2).1 x hx)
      · rintro ⟨h1, h2⟩
        exact ⟨h1 b (by simp), h2⟩

theorem checkKids_iff {okK : K → Bool} {okV : V → Bool} {ks : List (Tree K V)} :
    checkKids okK okV ks = .ok () ↔ ∀ c ∈ ks, checkBytes okK okV c = .ok () := by
  induction ks with
  | nil => simp [checkKids]
  | cons c cs ih =>
    rw [checkKids]
    cases h : checkBytes okK okV c with
    | error e => simp [h]
    | ok u => simp [h, ih]

theorem checkBytes_iff {okK : K → Bool} {okV : V → Bool} (t : Tree K V) :
    checkBytes okK okV t = .ok () ↔ Valid t ∧ PartsOk okK okV t := by
  refine induct (P := fun t => checkBytes okK okV t = .ok () ↔ Valid t ∧ PartsOk okK okV t) ?_ t
  intro p v ks ih
  rw [checkBytes]
  constructor
  · intro h
    split at h
    · cases h
    · rename_i h1
      split at h
      · cases h
      · rename_i h2
        split at h
        · cases h
        · rename_i h3
          split at h
          · cases h
          · rename_i h4
            simp only [Bool.not_eq_true, Bool.not_eq_false', Bool.not_eq_false, Bool.not_eq_eq_eq_not, Bool.not_true, Bool.not_not] at h1 h2 h3 h4
            rw [List.all_eq_true] at h1 h3
            cases hk : checkKids okK okV ks with
            | error e => rw [hk] at h; cases h
            | ok u =>
              have hk' := checkKids_iff.1 hk
              refine ⟨.mk ?_ ((ascendingHeads_iff ks).1 h4) (fun c hc => ((ih c hc).1 (hk' c hc)).1),
                .mk h1 ?_ (fun c hc => ((ih c hc).1 (hk' c hc)).2)⟩
              · intro c hc e
                have := h3 c hc
                simp [e] at this
              · intro x e
                subst e
                simpa using h2
  · rintro ⟨hv, hp⟩
    cases hv with
    | mk v1 v2 v3 =>
      cases hp with
      | mk p1 p2 p3 =>
        have e1 : p.all okK = true := by simpa using p1
        have e2 : v.all okV = true := by
          cases v with
          | none => rfl
          | some x => simpa using p2 x rfl
        have e3 : (ks.all fun c => !c.pre.isEmpty) = true := by simpa using v1
        have e4 := (ascendingHeads_iff ks).2 v2
        have e5 : checkKids okK okV ks = .ok () := checkKids_iff.2 (fun c hc => (ih c hc).2 ⟨v3 c hc, p3 c hc⟩)
        simp [e1, e2, e3, e4, e5]

end check

/-! ### prepend -/

section prepend
variable [Ord K] [TransOrd K] [LawfulEqOrd K] [DecidableEq K]

theorem prepend_isEmpty {t : Tree K V} (h : t.isEmpty = true) (p : List K) : t.prepend p = t := by
  simp [prepend, h]

theorem prepend_den' {t : Tree K V} (p k : List K) :
    den (t.prepend p) k = if p <+: k then den t (k.drop p.length) else none := by
  by_cases he : t.isEmpty = true
  · rw [prepend_isEmpty he, den_empty_none he, den_empty_none he]; simp
  · have he' : t.isEmpty = false := by simpa using he
    by_cases hp : p <+: k
    · obtain ⟨r, rfl⟩ := hp
      rw [prepend_den p he']
      simp
    · rw [if_neg hp, prepend_of_nonempty he']
      refine den_out _ _ ?_
      rintro r rfl
      exact hp ⟨t.pre ++ r, by simp⟩

theorem entry_prepend {t : Tree K V} (he : t.isEmpty = false) {p k : List K} {v : V} :
    Entry (t.prepend p) k v ↔ ∃ r, k = p ++ r ∧ Entry t r v := by
  rw [prepend_of_nonempty he, entry_iff]
  constructor
  · rintro (⟨rfl, h⟩ | ⟨c, hc, r, rfl, h⟩)
    · exact ⟨t.pre, rfl, entry_iff.2 (.inl ⟨rfl, h⟩)⟩
    · exact ⟨t.pre ++ r, by simp, entry_iff.2 (.inr ⟨c, hc, r, rfl, h⟩)⟩
  · rintro ⟨r, rfl, h⟩
    rcases entry_iff.1 h with ⟨rfl, h'⟩ | ⟨c, hc, r, rfl, h'⟩
    · exact .inl ⟨rfl, h'⟩
    · exact .inr ⟨c, hc, r, by simp, h'⟩

theorem Canonical.prepend {t : Tree K V} (h : Canonical t) (p : List K) : Canonical (t.prepend p) := by
  refine ⟨h.1.prepend p, ?_⟩
  by_cases he : t.isEmpty = true
  · rw [prepend_isEmpty he]; exact h.2
  · have he' : t.isEmpty = false := by simpa using he
    rw [prepend_of_nonempty he']
    rcases h.2 with rfl | hf
    · simp [empty, isEmpty] at he'
    · exact .inr (hf.setPre _)

end prepend

/-! ### Equality -/

section equality
variable [DecidableEq K]

/-- forget the values -/
def erase : Tree K V → Tree K Unit
  | ⟨p, v, ks⟩ => ⟨p, v.map (fun _ => ()), eraseL ks⟩
where
  /-- forget the values -/
  eraseL : List (Tree K V) → List (Tree K Unit)
    | [] => []
    | c :: cs => erase c :: eraseL cs

theorem eraseL_eq (ks : List (Tree K V)) : erase.eraseL ks = ks.map erase := by
  induction ks with
  | nil => rfl
  | cons c cs ih => simp [erase.eraseL, ih]
theorem erase_eq (t : Tree K V) : erase t = ⟨t.pre, t.val.map (fun _ => ()), t.kids.map erase⟩ := by
  obtain ⟨p, v, ks⟩ := t
  rw [erase, eraseL_eq]
theorem erase_pre (t : Tree K V) : (erase t).pre = t.pre := by rw [erase_eq]

theorem erase_denL {ks : List (Tree K V)} (h : ∀ c ∈ ks, ∀ k, den (erase c) k = (den c k).map (fun _ => ())) (k : List K) :
    denL (ks.map erase) k = (denL ks k).map (fun _ => ()) := by
  induction ks with
  | nil => rfl
  | cons c cs ih =>
    rw [List.map_cons, denL, denL, h c (by simp), ih (fun x hx => h x (by simp [hx]))]
    cases den c k <;> rfl

theorem erase_den (t : Tree K V) : ∀ k, den (erase t) k = (den t k).map (fun _ => ()) := by
  refine induct (P := fun t => ∀ k, den (erase t) k = (den t k).map (fun _ => ())) ?_ t
  intro p v ks ih k
  rw [erase, eraseL_eq, den, den]
  cases strip p k with
  | none => rfl
  | some r =>
    cases r with
    | nil => rfl
    | cons c r => exact erase_denL ih _

theorem optEq_none {eqV : V → V → Bool} {v w : Option V} (h : optEq eqV v w = true) : v.isSome = w.isSome := by
  cases v <;> cases w <;> simp_all [optEq]

theorem kidsEq_den {eqV : V → V → Bool} : ∀ {ks ls : List (Tree K V)}, (∀ c ∈ ks, ∀ u, treeEq eqV c u = true → ∀ k, optEq eqV (den c k) (den u k) = true) →
    kidsEq eqV ks ls = true → ∀ k, optEq eqV (denL ks k) (denL ls k) = true
  | [], [], _, _, k => rfl
  | [], _ :: _, _, h, _ => by simp [kidsEq] at h
  | _ :: _, [], _, h, _ => by simp [kidsEq] at h
  | c :: cs, d :: ds, hc, h, k => by
    rw [kidsEq, Bool.and_eq_true] at h
    have h1 := hc c (by simp) d h.1 k
    have h2 := kidsEq_den (fun x hx => hc x (by simp [hx])) h.2 k
    rw [denL, denL]
    revert h1
    cases den c k <;> cases den d k <;> simp_all [optEq]

theorem treeEq_den {eqV : V → V → Bool} (t : Tree K V) : ∀ u, treeEq eqV t u = true → ∀ k, optEq eqV (den t k) (den u k) = true := by
  refine induct (P := fun t => ∀ u, treeEq eqV t u = true → ∀ k, optEq eqV (den t k) (den u k) = true) ?_ t
  rintro p v ks ih ⟨q, w, ls⟩ h k
  simp only [treeEq, Bool.and_eq_true, decide_eq_true_eq] at h
  obtain ⟨⟨rfl, hv⟩, hk⟩ := h
  rw [den, den]
  cases strip p k with
  | none => rfl
  | some r =>
    cases r with
    | nil => exact hv
    | cons c r => exact kidsEq_den ih hk _

variable [Ord K] [TransOrd K] [LawfulEqOrd K]

theorem erase_valid (t : Tree K V) : Valid t → Valid (erase t) := by
  refine induct (P := fun t => Valid t → Valid (erase t)) ?_ t
  intro p v ks ih h
  cases h with
  | mk h1 h2 h3 =>
    rw [erase, eraseL_eq]
    refine .mk ?_ ?_ ?_
    · intro c hc
      obtain ⟨x, hx, rfl⟩ := List.mem_map.1 hc
      rw [erase_pre]; exact h1 x hx
    · rw [AscendingBy, List.pairwise_map]
      simp only [erase_pre]
      exact h2
    · intro c hc
      obtain ⟨x, hx, rfl⟩ := List.mem_map.1 hc
      exact ih x hx (h3 x hx)

theorem erase_full (t : Tree K V) : Full t → Full (erase t) := by
  refine induct (P := fun t => Full t → Full (erase t)) ?_ t
  intro p v ks ih h
  cases h with
  | mk h1 h2 =>
    rw [erase, eraseL_eq]
    refine .mk ?_ ?_
    · intro e
      rw [List.length_map]
      exact h1 (by simpa using e)
    · intro c hc
      obtain ⟨x, hx, rfl⟩ := List.mem_map.1 hc
      exact ih x hx (h2 x hx)

theorem erase_canonical {t : Tree K V} (h : Canonical t) : Canonical (erase t) := by
  refine ⟨erase_valid t h.1, ?_⟩
  rcases h.2 with rfl | hf
  · exact .inl rfl
  · exact .inr (erase_full t hf)

/-- the value below one child, seen from the list of children -/
theorem denL_kid {ks : List (Tree K V)} (h : Kids ks) {x : Tree K V} (hx : x ∈ ks) {c : K} (hc : hd x = some c) (r : List K) :
    denL ks (c :: r) = den x (c :: r) := by
  rw [denL_eq h, findBy_hd_of_mem h hx hc]
  rfl

theorem treeEq_of_den {eqV : V → V → Bool} (t : Tree K V) : ∀ u, Valid t → Valid u → erase t = erase u →
    (∀ k, optEq eqV (den t k) (den u k) = true) → treeEq eqV t u = true := by
  refine induct (P := fun t => ∀ u, Valid t → Valid u → erase t = erase u →
    (∀ k, optEq eqV (den t k) (den u k) = true) → treeEq eqV t u = true) ?_ t
  rintro p v ks ih ⟨q, w, ls⟩ ht hu he hd'
  rw [erase_eq, erase_eq] at he
  simp only [Tree.mk.injEq] at he
  obtain ⟨rfl, -, hks⟩ := he
  simp only [treeEq, Bool.and_eq_true, decide_eq_true_eq, true_and]
  refine ⟨?_, ?_⟩
  · have := hd' p
    rw [den_at ⟨p, v, ks⟩, den_at ⟨p, w, ls⟩] at this
    exact this
  · have hL : ∀ c r, optEq eqV (denL ks (c :: r)) (denL ls (c :: r)) = true := by
      intro c r
      have := hd' (p ++ c :: r)
      rwa [den_below ⟨p, v, ks⟩, den_below ⟨p, w, ls⟩] at this
    have hk := ht.kids
    have hl := hu.kids
    simp only at hk hl
    -- the children agree pairwise
    have : ∀ (as bs : List (Tree K V)), (∀ a ∈ as, a ∈ ks) → (∀ b ∈ bs, b ∈ ls) → as.map erase = bs.map erase → kidsEq eqV as bs = true := by
      intro as
      induction as with
      | nil =>
        intro bs _ _ e
        cases bs with
        | nil => rfl
        | cons b bs => simp at e
      | cons a as iha =>
        intro bs ha hb e
        cases bs with
        | nil => simp at e
        | cons b bs =>
          simp only [List.map_cons, List.cons.injEq] at e
          have hpre : a.pre = b.pre := by rw [← erase_pre a, e.1, erase_pre]
          have ham := ha a (by simp)
          have hbm := hb b (by simp)
          rw [kidsEq, Bool.and_eq_true]
          refine ⟨ih a ham b (hk.valid a ham) (hl.valid b hbm) e.1 ?_, iha bs (fun x hx => ha x (by simp [hx])) (fun x hx => hb x (by simp [hx])) e.2⟩
          obtain ⟨c, r, hc⟩ := head?_some_of_ne (hk.ne a ham)
          intro k
          by_cases hkk : ∃ s, k = a.pre ++ s
          · obtain ⟨s, rfl⟩ := hkk
            have e1 := hL c (r ++ s)
            rw [denL_kid hk ham (by simp [hd, hc]), denL_kid hl hbm (by simp [hd, ← hpre, hc])] at e1
            simpa [hc] using e1
          · rw [den_out a k (fun s e => hkk ⟨s, e⟩), den_out b k (fun s e => hkk ⟨s, by rw [hpre]; exact e⟩)]
            rfl
    exact this ks ls (fun _ h => h) (fun _ h => h) hks

theorem treeEq_iff {eqV : V → V → Bool} {a b : Tree K V} (ha : Canonical a) (hb : Canonical b) :
    treeEq eqV a b = true ↔ ∀ k, optEq eqV (den a k) (den b k) = true := by
  refine ⟨treeEq_den a b, fun h => treeEq_of_den a b ha.1 hb.1 ?_ h⟩
  refine canonical_ext (erase_canonical ha) (erase_canonical hb) ?_
  intro k
  rw [erase_den, erase_den]
  have := optEq_none (h k)
  revert this
  cases den a k <;> cases den b k <;> simp

end equality
end
/-- equal (`==`) trees of natural numbers are identical -/
theorem eq_of_treeEq (t : Tree Nat Nat) : ∀ u, treeEq (· == ·) t u = true → t = u := by
  refine induct (P := fun t => ∀ u, treeEq (· == ·) t u = true → t = u) ?_ t
  rintro p v ks ih ⟨q, w, ls⟩ h
  simp only [treeEq, Bool.and_eq_true, decide_eq_true_eq] at h
  obtain ⟨⟨h1, h2⟩, h3⟩ := h
  have e2 : v = w := by cases v <;> cases w <;> simp_all [optEq]
  have e3 : ∀ (ks ls : List (Tree Nat Nat)), (∀ c ∈ ks, ∀ u, treeEq (· == ·) c u = true → c = u) → kidsEq (· == ·) ks ls = true → ks = ls := by
    intro ks
    induction ks with
    | nil => intro ls _ h; cases ls with
      | nil => rfl
      | cons => simp [kidsEq] at h
    | cons c ks ih2 => intro ls hk h; cases ls with
      | nil => simp [kidsEq] at h
      | cons d ls =>
        simp only [kidsEq, Bool.and_eq_true] at h
        rw [hk c (by simp) d h.1, ih2 ls (fun c hc => hk c (by simp [hc])) h.2]
  rw [h1, e2, e3 ks ls ih h3]

end Tree
end Verif
