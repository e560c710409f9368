import Verif.Lemmas.RadixSem
import Verif.Lemmas.BinarySearch
/-! Lookup in radix trees. -/
namespace Verif
namespace Tree
open Std

section
variable {K V : Type _} [Ord K] [TransOrd K] [LawfulEqOrd K] [DecidableEq K]

/-- the result of a search, as a subtree under the searched key -/
def FindResult.sub : FindResult K V → Tree K V
  | .found t => t.shorten t.pre.length
  | .prefix t rt => t.shorten (t.pre.length - rt)
  | .notFound .. => empty

/-- what a search in `t` for `p` returns -/
structure FindSpec (t : Tree K V) (p : List K) (r : FindResult K V) : Prop where
  den : ∀ k, den t (p ++ k) = den r.sub k
  shape : match r with
    | .found t' => Valid t' ∧ (Full t → Full t') ∧ (∀ c ∈ t'.kids, Full t → Full c) ∧ (t' = t ∨ t'.pre ≠ []) ∧ nodeAt t p = some t'.val ∧
        (∃ q, p = q ++ t'.pre)
    | .prefix t' rt => Valid t' ∧ (Full t → Full t') ∧ 0 < rt ∧ rt ≤ t'.pre.length ∧ nodeAt t p = none ∧
        (∃ q, p = q ++ t'.pre.take (t'.pre.length - rt))
    | .notFound .. => nodeAt t p = none

theorem findBy_of_search {ks : List (Tree K V)} {c : K} (hk : Kids ks) :
    match binarySearchBy (fun e : Tree K V => compare e.pre.head? (some c)) ks with
    | .found i => ∃ x, ks[i]? = some x ∧ findBy hd ks (some c) = some x
    | .notFound _ => findBy hd ks (some c) = none := by
  have S := binarySearchBy_spec (mono_of_ascendingBy hk.asc (some c))
  change SearchSpec _ _ (binarySearchBy (fun e : Tree K V => compare e.pre.head? (some c)) ks) at S
  cases h : binarySearchBy (fun e : Tree K V => compare e.pre.head? (some c)) ks with
  | found i =>
    rw [h] at S
    obtain ⟨lo, x, hi, e, rfl, hx, _, _⟩ := S
    refine ⟨x, by rw [e]; simp, hk.asc.findBy_eq_some.2 ⟨by rw [e]; simp, hx⟩⟩
  | notFound i =>
    rw [h] at S
    obtain ⟨lo, hi, e, _, h1, h2⟩ := S
    refine findBy_none.2 ?_
    intro y hy
    rw [e] at hy
    rcases List.mem_append.1 hy with hy | hy
    · have := h1 y hy; simp only at this; simp [hd, this]
    · have := h2 y hy; simp only at this; simp [hd, this]

theorem find_spec : ∀ fuel (t : Tree K V) (p : List K), Valid t → t.size < fuel → ∃ r, findGo fuel t p = .ret r ∧ FindSpec t p r := by
  intro fuel
  induction fuel with
  | zero => intro t p _ h; omega
  | succ fuel ih =>
    intro t p hv hs
    have hla := commonPrefix_le_left t.pre p
    have hlb := commonPrefix_le_right t.pre p
    have htk := commonPrefix_take t.pre p
    have hdf := commonPrefix_differ t.pre p
    rw [findGo]
    revert hla hlb htk hdf
    generalize commonPrefix t.pre p = n
    intro hla hlb htk hdf
    by_cases h1 : p.length - n = 0 ∧ t.pre.length - n = 0
    · rw [if_pos h1]
      have e : p = t.pre := by
        rw [List.take_of_length_le (by omega), List.take_of_length_le (by omega)] at htk
        exact htk.symm
      refine ⟨_, rfl, ?_, hv, id, ?_, .inl rfl, ?_, [], by simp [e]⟩
      · intro k
        show den t (p ++ k) = den (t.shorten t.pre.length) k
        rw [shorten_den t _ (Nat.le_refl _), List.take_length, e]
      · intro c hc hf
        exact (full_iff.1 hf).2 c hc
      · rw [e, nodeAt_at]
    rw [if_neg h1]
    by_cases h2 : p.length - n = 0
    · rw [if_pos h2]
      have e : p = t.pre.take n := by rw [htk, List.take_of_length_le (by omega)]
      have en : t.pre.length - (t.pre.length - n) = n := by omega
      refine ⟨_, rfl, ?_, hv, id, by omega, by omega, ?_, [], by rw [en]; simp [← e]⟩
      · intro k
        show den t (p ++ k) = den (t.shorten (t.pre.length - (t.pre.length - n))) k
        rw [en, shorten_den t _ (by omega), ← e]
      · apply nodeAt_out
        intro r er
        have := congrArg List.length er
        simp at this
        omega
    rw [if_neg h2]
    by_cases h3 : t.pre.length - n = 0
    · rw [if_pos h3]
      have hn : n < p.length := by omega
      have e : p = t.pre ++ p.drop n := by
        rw [List.take_of_length_le (by omega)] at htk
        rw [htk, List.take_append_drop]
      have ed : p.drop n = p[n] :: p.drop (n + 1) := by simp
      rw [List.getElem?_eq_getElem hn]
      simp only [hv.kids.headed, ↓reduceIte]
      have F := findBy_of_search (c := p[n]) hv.kids
      cases hb : binarySearchBy (fun e : Tree K V => compare e.pre.head? (some p[n])) t.kids with
      | notFound i =>
        rw [hb] at F
        simp only at F ⊢
        refine ⟨_, rfl, ?_, ?_⟩
        · intro k
          rw [e, ed, List.append_assoc, List.cons_append, den_below, denL_eq hv.kids, F]
          exact (den_empty_none (by rfl) k).symm
        · show nodeAt t p = none
          rw [e, ed, nodeAt_below, nodeAtL_eq hv.kids, F]
          rfl
      | found i =>
        rw [hb] at F
        obtain ⟨x, hx, F⟩ := F
        simp only
        rw [hx]
        simp only
        have hxm := (findBy_hd_mem F).1
        obtain ⟨r, hr, S⟩ := ih x (p.drop n) (hv.kids.valid x hxm) (by have := kid_size hxm; omega)
        have hnode : nodeAt t p = nodeAt x (p.drop n) := by
          have e2 : nodeAt t p = nodeAt t (t.pre ++ p[n] :: p.drop (n + 1)) := by rw [← ed, ← e]
          rw [e2, nodeAt_below, nodeAtL_eq hv.kids, F, ed]
          rfl
        refine ⟨r, hr, ?_, ?_⟩
        · intro k
          have e2 : den t (p ++ k) = den t (t.pre ++ p[n] :: (p.drop (n + 1) ++ k)) := by
            rw [← List.cons_append, ← ed, ← List.append_assoc, ← e]
          rw [← S.den, e2, den_below, denL_eq hv.kids, F, ed]
          rfl
        · have S2 := S.shape
          rw [← hnode] at S2
          have hfx : Full t → Full x := fun hf => (full_iff.1 hf).2 x hxm
          cases r with
          | found t' =>
            obtain ⟨a1, a2, a3, a4, a5, q, a6⟩ := S2
            refine ⟨a1, fun h => a2 (hfx h), fun c hc h => a3 c hc (hfx h), .inr ?_, a5, t.pre ++ q, ?_⟩
            · rcases a4 with rfl | a4
              · exact hv.kids.ne _ hxm
              · exact a4
            · rw [e, a6]; simp
          | «prefix» t' rt =>
            obtain ⟨a1, a2, a3, a4, a5, q, a6⟩ := S2
            refine ⟨a1, fun h => a2 (hfx h), a3, a4, a5, t.pre ++ q, ?_⟩
            rw [e, a6]; simp
          | notFound c rp rt => exact S2
    rw [if_neg h3]
    have hout : ∀ k s, p ++ k ≠ t.pre ++ s := by
      intro k s er
      apply hdf (by omega) (by omega)
      have h := congrArg (fun l => (l.drop n).head?) er
      simp only [List.drop_append] at h
      have e1 : n - p.length = 0 := by omega
      have e2 : n - t.pre.length = 0 := by omega
      rw [e1, e2] at h
      cases hx : p.drop n with
      | nil => simp at hx; omega
      | cons x xs =>
        cases hy : t.pre.drop n with
        | nil => simp at hy; omega
        | cons y ys => rw [hx, hy] at h; simp at h; simp [h]
    refine ⟨_, rfl, ?_, ?_⟩
    · intro k
      rw [den_out t _ (hout k)]
      exact (den_empty_none (by rfl) k).symm
    · show nodeAt t p = none
      apply nodeAt_out
      intro s
      have := hout [] s
      simpa using this

theorem find_eq {t : Tree K V} (h : Valid t) (p : List K) : ∃ r, t.find p = .ret r ∧ FindSpec t p r :=
  find_spec _ t p h (by omega)

theorem shorten_all_nil (t : Tree K V) : den (t.shorten t.pre.length) [] = t.val := by
  rw [shorten_den t _ (Nat.le_refl _)]
  simp [den_at]

theorem get_eq {t : Tree K V} (h : Valid t) (p : List K) : t.get p = .ret (den t p) := by
  obtain ⟨r, hr, S⟩ := find_eq h p
  have D := S.den []
  rw [List.append_nil] at D
  rw [get, hr, D]
  cases r with
  | found t' => simp [FindResult.sub, shorten_all_nil]
  | «prefix» t' rt =>
    have S2 := S.shape
    simp only [FindResult.sub]
    rw [den_out]
    intro s e
    have := congrArg List.length e
    simp [shorten] at this
    have := S2.2.2.1
    have := S2.2.2.2.1
    omega
  | notFound c rp rt => simp [FindResult.sub, den_empty_none (t := (empty : Tree K V)) rfl]

theorem containsKey_eq {t : Tree K V} (h : Valid t) (p : List K) : t.containsKey p = .ret (den t p).isSome := by
  have G := get_eq h p
  unfold get at G
  unfold containsKey
  revert G
  cases t.find p with
  | panic => intro G; cases G
  | ret r => cases r <;> simp <;> intro G <;> simp [← G]

theorem den_setPre {t : Tree K V} (p k : List K) (n : Nat) (hn : n ≤ t.pre.length) :
    den { t with pre := p ++ t.pre.drop n } (p ++ k) = den (t.shorten n) k := by
  have h := shorten_den { t with pre := p ++ t.pre.drop n } p.length (by simp) k
  simp only [shorten, List.drop_left, List.take_left] at h
  rw [← h]
  rfl

theorem filterPrefix_spec {t : Tree K V} (h : Valid t) (p : List K) :
    ∃ r, t.filterPrefix p = .ret r ∧ Valid r ∧ (Canonical t → Canonical r) ∧
      (∀ k, den r (p ++ k) = den t (p ++ k)) ∧ ∀ k, (∀ s, k ≠ p ++ s) → den r k = none := by
  obtain ⟨r, hr, S⟩ := find_eq h p
  have S2 := S.shape
  rw [filterPrefix, hr]
  cases r with
  | found t' =>
    refine ⟨_, rfl, S2.1.setPre p, ?_, ?_, fun k hk => den_out _ k hk⟩
    · rintro ⟨_, rfl | hf⟩
      · obtain ⟨q, hq⟩ := S2.2.2.2.2.2
        rcases S2.2.2.2.1 with rfl | hne
        · have : p = [] := by
            have hn := S2.2.2.2.2.1
            apply Classical.byContradiction
            intro hp
            cases p with
            | nil => exact hp rfl
            | cons c p => simp [empty, nodeAt, strip, nodeAtL] at hn
          subst this
          exact ⟨valid_empty, .inl rfl⟩
        · have hn := S2.2.2.2.2.1
          cases p with
          | nil =>
            exfalso
            apply hne
            have := congrArg List.length hq
            simp at this
            exact List.length_eq_zero_iff.1 (by omega)
          | cons c p => simp [empty, nodeAt, strip, nodeAtL] at hn
      · exact ⟨S2.1.setPre p, .inr ((S2.2.1 hf).setPre p)⟩
    · intro k
      rw [S.den]
      have := den_setPre (t := t') p k t'.pre.length (Nat.le_refl _)
      simp only [List.drop_length, List.append_nil] at this
      exact this
  | «prefix» t' rt =>
    have hle : t'.pre.length - rt ≤ t'.pre.length := by omega
    have hval : Valid (t'.shorten (t'.pre.length - rt)) := S2.1.shorten _
    have hsub : ({ t' with pre := t'.pre.drop (t'.pre.length - rt) } : Tree K V) = t'.shorten (t'.pre.length - rt) := rfl
    have hvalp : Valid (prepend (t'.shorten (t'.pre.length - rt)) p) := hval.prepend p
    refine ⟨_, rfl, ?_, ?_, ?_, ?_⟩
    · exact hvalp
    · rintro ⟨_, rfl | hf⟩
      · have := S.den
        exfalso
        have hn := S2.2.2.2.2.1
        obtain ⟨q, hq⟩ := S2.2.2.2.2.2
        revert hr
        rw [find, findGo]
        cases p with
        | nil => simp [empty, commonPrefix]
        | cons c p => simp [empty, commonPrefix, headed, binarySearchBy]
      · refine ⟨hvalp, .inr ?_⟩
        have hfs : Full (t'.shorten (t'.pre.length - rt)) := (S2.2.1 hf).setPre _
        rw [hsub, prepend_of_nonempty hfs.nonempty]
        exact hfs.setPre _
    · intro k
      rw [S.den]
      show den (prepend (t'.shorten (t'.pre.length - rt)) p) (p ++ k) = den (t'.shorten (t'.pre.length - rt)) k
      cases he : (t'.shorten (t'.pre.length - rt)).isEmpty with
      | true =>
        rw [den_empty_none he, den_empty_none]
        simp [prepend, he]
      | false => rw [prepend_den p he]
    · intro k hk
      rw [hsub]
      cases he : (t'.shorten (t'.pre.length - rt)).isEmpty with
      | true => rw [den_empty_none]; simp [prepend, he]
      | false =>
        rw [prepend_of_nonempty he]
        apply den_out
        intro s e
        exact hk (t'.pre.drop (t'.pre.length - rt) ++ s) (by rw [e]; simp [shorten])
  | notFound c rp rt =>
    refine ⟨_, rfl, valid_empty, fun _ => ⟨valid_empty, .inl rfl⟩, ?_, fun k _ => den_empty_none rfl k⟩
    intro k
    rw [S.den]
    simp [FindResult.sub, den_empty_none (t := (empty : Tree K V)) rfl]

end
end Tree
end Verif
