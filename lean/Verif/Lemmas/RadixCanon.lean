import Verif.Lemmas.RadixBool
/-! Canonical trees are determined by their contents. -/
namespace Verif
namespace Tree
open Std

section
variable {K V : Type _} [Ord K] [TransOrd K] [LawfulEqOrd K] [DecidableEq K]

theorem full_no_longer {a b : Tree K V} (ha : Valid a) (fa : Full a) (h : ∀ k, den a k = den b k) {x : K} {r : List K} :
    b.pre ≠ a.pre ++ x :: r := by
  intro e
  have hv : a.val = none := by
    rw [← den_at a, h, den_out b]
    intro s e'
    rw [e] at e'
    have := congrArg List.length e'
    simp at this
  have h2 := (full_iff.1 fa).1 hv
  have hx : ∀ c ∈ a.kids, hd c = some x := by
    intro c hc
    obtain ⟨k, hk⟩ := Full.has _ c (Nat.le_refl _) (ha.kids.valid c hc) ((full_iff.1 fa).2 c hc)
    obtain ⟨d, s, rfl, hd'⟩ := den_head (ha.kids.ne c hc) hk
    have : (den b (a.pre ++ d :: s)).isSome = true := by
      rw [← h, den_below, denL_eq ha.kids, findBy_hd_of_mem ha.kids hc hd']; exact hk
    have hpre : ∃ q, a.pre ++ d :: s = b.pre ++ q := by
      apply Classical.byContradiction
      intro hn
      rw [den_out b _ (fun q e => hn ⟨q, e⟩)] at this
      cases this
    obtain ⟨q, hq⟩ := hpre
    rw [e] at hq
    simp at hq
    rw [hd', hq.1]
  cases hk : a.kids with
  | nil => rw [hk] at h2; simp at h2
  | cons c ks =>
    cases ks with
    | nil => rw [hk] at h2; simp at h2
    | cons d ks =>
      have hasc := ha.kids.asc
      rw [hk] at hasc
      have := (ascendingBy_cons.1 hasc).1 d (by simp)
      rw [hx c (by rw [hk]; simp), hx d (by rw [hk]; simp), cmp_self] at this
      cases this

theorem full_pre {a b : Tree K V} (ha : Valid a) (hb : Valid b) (fa : Full a) (fb : Full b) (h : ∀ k, den a k = den b k) : a.pre = b.pre := by
  have hla := commonPrefix_le_left a.pre b.pre
  have hlb := commonPrefix_le_right a.pre b.pre
  have htk := commonPrefix_take a.pre b.pre
  have hdf := commonPrefix_differ a.pre b.pre
  revert hla hlb htk hdf
  generalize commonPrefix a.pre b.pre = n
  intro hla hlb htk hdf
  by_cases h1 : n = a.pre.length
  · by_cases h2 : n = b.pre.length
    · rw [List.take_of_length_le (by omega), List.take_of_length_le (by omega)] at htk
      exact htk
    · exfalso
      rw [List.take_of_length_le (by omega)] at htk
      have e := (List.take_append_drop n b.pre).symm
      rw [← htk, List.drop_eq_getElem_cons (by omega)] at e
      exact full_no_longer ha fa h e
  · exfalso
    by_cases h2 : n = b.pre.length
    · rw [List.take_of_length_le (l := b.pre) (by omega)] at htk
      have e := (List.take_append_drop n a.pre).symm
      rw [htk, List.drop_eq_getElem_cons (by omega)] at e
      exact full_no_longer hb fb (fun k => (h k).symm) e
    · obtain ⟨k, hk⟩ := Full.has _ a (Nat.le_refl _) ha fa
      have hk2 := hk
      rw [h] at hk2
      have p1 : ∃ q, k = a.pre ++ q := by
        apply Classical.byContradiction
        intro hn
        rw [den_out a _ (fun q e => hn ⟨q, e⟩)] at hk
        cases hk
      have p2 : ∃ q, k = b.pre ++ q := by
        apply Classical.byContradiction
        intro hn
        rw [den_out b _ (fun q e => hn ⟨q, e⟩)] at hk2
        cases hk2
      obtain ⟨q, rfl⟩ := p1
      obtain ⟨q', e⟩ := p2
      apply hdf (by omega) (by omega)
      have h' := congrArg (fun l => (l.drop n).head?) e
      simp only [List.drop_append] at h'
      have e1 : n - a.pre.length = 0 := by omega
      have e2 : n - b.pre.length = 0 := by omega
      rw [e1, e2] at h'
      cases hx : a.pre.drop n with
      | nil => simp at hx; omega
      | cons x xs =>
        cases hy : b.pre.drop n with
        | nil => simp at hy; omega
        | cons y ys => rw [hx, hy] at h'; simp at h'; simp [h']

theorem full_ext : ∀ n (a b : Tree K V), a.size ≤ n → Valid a → Valid b → Full a → Full b → (∀ k, den a k = den b k) → a = b := by
  intro n
  induction n with
  | zero => intro a b hs; rw [size_eq] at hs; omega
  | succ n ih =>
    intro a b hs ha hb fa fb h
    have hp := full_pre ha hb fa fb h
    have hv : a.val = b.val := by rw [← den_at a, ← den_at b, ← hp, h]
    have hden : ∀ c s, denL a.kids (c :: s) = denL b.kids (c :: s) := by
      intro c s
      have := h (a.pre ++ c :: s)
      rw [den_below, hp, den_below] at this
      exact this
    -- each child of one is a child of the other
    have hfind : ∀ k, findBy hd a.kids k = findBy hd b.kids k := by
      intro k
      cases k with
      | none =>
        have : ∀ {ks : List (Tree K V)}, Kids ks → findBy hd ks none = none := by
          intro ks hk
          refine findBy_none.2 ?_
          intro y hy he
          obtain ⟨c, r, hc⟩ := head?_some_of_ne (hk.ne y hy)
          have := cmp_eq_iff.1 he
          rw [hd, hc] at this
          cases this
        rw [this ha.kids, this hb.kids]
      | some c =>
        have gen : ∀ {x : Tree K V} {as bs : List (Tree K V)}, Kids as → Kids bs → (∀ x ∈ as, Full x) → (∀ c s, denL as (c :: s) = denL bs (c :: s)) →
            findBy hd as (some c) = some x → ∃ y, findBy hd bs (some c) = some y := by
          intro x as bs ka kb ff hh hx
          have hxm := findBy_hd_mem hx
          obtain ⟨k, hk⟩ := Full.has _ x (Nat.le_refl _) (ka.valid x hxm.1) (ff x hxm.1)
          obtain ⟨d, s, rfl, hd'⟩ := den_head (ka.ne x hxm.1) hk
          have : c = d := by have := hxm.2.symm.trans hd'; simpa using this
          subst this
          have h1 : (denL bs (c :: s)).isSome = true := by rw [← hh, denL_eq ka, hx]; exact hk
          rw [denL_eq kb] at h1
          cases hy : findBy hd bs (some c) with
          | none => rw [hy] at h1; cases h1
          | some y => exact ⟨y, rfl⟩
        cases hx : findBy hd a.kids (some c) with
        | none =>
          cases hy : findBy hd b.kids (some c) with
          | none => rfl
          | some y =>
            obtain ⟨x, hx'⟩ := gen hb.kids ha.kids (full_iff.1 fb).2 (fun c s => (hden c s).symm) hy
            rw [hx] at hx'
            cases hx'
        | some x =>
          obtain ⟨y, hy⟩ := gen ha.kids hb.kids (full_iff.1 fa).2 hden hx
          rw [hy]
          congr 1
          have hxm := findBy_hd_mem hx
          have hym := findBy_hd_mem hy
          refine ih x y (by have := kid_size hxm.1; omega) (ha.kids.valid x hxm.1) (hb.kids.valid y hym.1) ((full_iff.1 fa).2 x hxm.1)
            ((full_iff.1 fb).2 y hym.1) ?_
          intro k
          cases k with
          | nil =>
            have : ∀ {ks : List (Tree K V)} {z : Tree K V}, Kids ks → z ∈ ks → den z [] = none := by
              intro ks z hk hz
              cases hz' : den z [] with
              | none => rfl
              | some v =>
                obtain ⟨c, s, e, _⟩ := den_head (hk.ne z hz) (k := []) (by rw [hz']; rfl)
                cases e
            rw [this ha.kids hxm.1, this hb.kids hym.1]
          | cons d s =>
            by_cases hc : c = d
            · subst hc
              have := hden c s
              rw [denL_eq ha.kids, denL_eq hb.kids, hx, hy] at this
              exact this
            · rw [den_ne_prefix (ha.kids.ne x hxm.1) (by rw [hxm.2]; simpa using hc), den_ne_prefix (hb.kids.ne y hym.1) (by rw [hym.2]; simpa using hc)]
    have hk : a.kids = b.kids := ha.kids.asc.ext hb.kids.asc hfind
    obtain ⟨p, v, ks⟩ := a
    obtain ⟨p', v', ks'⟩ := b
    simp only at hp hv hk
    rw [hp, hv, hk]

theorem canonical_ext {a b : Tree K V} (ha : Canonical a) (hb : Canonical b) (h : ∀ k, den a k = den b k) : a = b := by
  rcases ha with ⟨va, rfl | fa⟩
  · rcases hb with ⟨vb, rfl | fb⟩
    · rfl
    · obtain ⟨k, hk⟩ := Full.has _ b (Nat.le_refl _) vb fb
      rw [← h, den_empty_none rfl] at hk
      cases hk
  · rcases hb with ⟨vb, rfl | fb⟩
    · obtain ⟨k, hk⟩ := Full.has _ a (Nat.le_refl _) va fa
      rw [h, den_empty_none rfl] at hk
      cases hk
    · exact full_ext _ a b (Nat.le_refl _) va vb fa fb h

/-! ### Where a tree has nodes -/

/-- two stored keys part right after `k` -/
def Branch (b : Tree K V) (k : List K) : Prop :=
  ∃ c d s s', c ≠ d ∧ (den b (k ++ c :: s)).isSome = true ∧ (den b (k ++ d :: s')).isSome = true

theorem nodeAt_join : ∀ n (b : Tree K V), b.size ≤ n → Valid b → ∀ k, den b k = (nodeAt b k).join := by
  intro n
  induction n with
  | zero => intro b hs; rw [size_eq] at hs; omega
  | succ n ih =>
    intro b hs hb k
    by_cases hk : ∃ r, k = b.pre ++ r
    · obtain ⟨r, rfl⟩ := hk
      cases r with
      | nil => rw [List.append_nil, den_at, nodeAt_at]; rfl
      | cons c s =>
        rw [den_below, nodeAt_below, denL_eq hb.kids, nodeAtL_eq hb.kids]
        cases hx : findBy hd b.kids (some c) with
        | none => rfl
        | some x =>
          have hxm := (findBy_hd_mem hx).1
          exact ih x (by have := kid_size hxm; omega) (hb.kids.valid x hxm) (c :: s)
    · have hk' : ∀ r, k ≠ b.pre ++ r := fun r e => hk ⟨r, e⟩
      rw [den_out b k hk', nodeAt_out b k hk']; rfl

theorem den_has_pre {b : Tree K V} {k : List K} (h : (den b k).isSome = true) : ∃ r, k = b.pre ++ r := by
  apply Classical.byContradiction
  intro hn
  rw [den_out b k (fun r e => hn ⟨r, e⟩)] at h
  cases h

theorem nodeAt_of_branch : ∀ n (b : Tree K V), b.size ≤ n → Valid b → ∀ k, Branch b k → (nodeAt b k).isSome = true := by
  intro n
  induction n with
  | zero => intro b hs; rw [size_eq] at hs; omega
  | succ n ih =>
    rintro b hs hb k ⟨c, d, s, s', hcd, h1, h2⟩
    obtain ⟨r1, e1⟩ := den_has_pre h1
    obtain ⟨r2, e2⟩ := den_has_pre h2
    by_cases hk : ∃ r, k = b.pre ++ r
    · obtain ⟨r, rfl⟩ := hk
      cases r with
      | nil => rw [List.append_nil, nodeAt_at]; rfl
      | cons e r =>
        rw [nodeAt_below, nodeAtL_eq hb.kids]
        rw [List.append_assoc, List.cons_append, den_below, denL_eq hb.kids] at h1 h2
        cases hx : findBy hd b.kids (some e) with
        | none => rw [hx] at h1; cases h1
        | some x =>
          rw [hx] at h1 h2
          have hxm := (findBy_hd_mem hx).1
          exact ih x (by have := kid_size hxm; omega) (hb.kids.valid x hxm) (e :: r) ⟨c, d, s, s', hcd, h1, h2⟩
    · exfalso
      rcases List.append_eq_append_iff.1 e1 with ⟨t, h3, h4⟩ | ⟨t, h3, h4⟩
      · cases t with
        | nil => exact hk ⟨[], by simpa using h3.symm⟩
        | cons x t =>
          simp at h4
          rw [h3] at e2
          simp at e2
          exact hcd (h4.1.trans e2.1.symm)
      · exact hk ⟨t, h3⟩

theorem branch_of_nodeAt : ∀ n (b : Tree K V), b.size ≤ n → Valid b → Full b → ∀ k, (nodeAt b k).isSome = true →
    (den b k).isSome = true ∨ Branch b k := by
  intro n
  induction n with
  | zero => intro b hs; rw [size_eq] at hs; omega
  | succ n ih =>
    intro b hs hb fb k hk
    by_cases hp : ∃ r, k = b.pre ++ r
    · obtain ⟨r, rfl⟩ := hp
      cases r with
      | nil =>
        rw [List.append_nil]
        cases hv : b.val with
        | some v => left; rw [den_at, hv]; rfl
        | none =>
          right
          have h2 := (full_iff.1 fb).1 hv
          have hasc := hb.kids.asc
          have key : ∀ x ∈ b.kids, ∃ c s, hd x = some c ∧ (den b (b.pre ++ c :: s)).isSome = true := by
            intro x hx
            obtain ⟨k, hk⟩ := Full.has _ x (Nat.le_refl _) (hb.kids.valid x hx) ((full_iff.1 fb).2 x hx)
            obtain ⟨c, s, rfl, hc⟩ := den_head (hb.kids.ne x hx) hk
            refine ⟨c, s, hc, ?_⟩
            rw [den_below, denL_eq hb.kids, findBy_hd_of_mem hb.kids hx hc]
            exact hk
          cases hks : b.kids with
          | nil => rw [hks] at h2; simp at h2
          | cons x ks =>
            cases ks with
            | nil => rw [hks] at h2; simp at h2
            | cons y ks =>
              obtain ⟨c, s, hc, h3⟩ := key x (by rw [hks]; simp)
              obtain ⟨d, s', hd', h4⟩ := key y (by rw [hks]; simp)
              refine ⟨c, d, s, s', ?_, h3, h4⟩
              intro e
              rw [hks] at hasc
              have := (ascendingBy_cons.1 hasc).1 y (by simp)
              rw [hc, hd', e, cmp_self] at this
              cases this
      | cons c s =>
        rw [nodeAt_below, nodeAtL_eq hb.kids] at hk
        cases hx : findBy hd b.kids (some c) with
        | none => rw [hx] at hk; cases hk
        | some x =>
          rw [hx] at hk
          have hxm := (findBy_hd_mem hx).1
          have lift : ∀ s, den b (b.pre ++ c :: s) = den x (c :: s) := by
            intro s
            rw [den_below, denL_eq hb.kids, hx]
            rfl
          rcases ih x (by have := kid_size hxm; omega) (hb.kids.valid x hxm) ((full_iff.1 fb).2 x hxm) (c :: s) hk with h | ⟨e, f, t, t', hne, h1, h2⟩
          · left; rw [lift]; exact h
          · right
            refine ⟨e, f, t, t', hne, ?_, ?_⟩
            · rw [List.append_assoc, List.cons_append, lift]; exact h1
            · rw [List.append_assoc, List.cons_append, lift]; exact h2
    · rw [nodeAt_out b k (fun r e => hp ⟨r, e⟩)] at hk; cases hk

/-- canonical trees have nodes at stored keys and where stored keys part (and at the root of the empty tree) -/
theorem nodeAt_canonical {b : Tree K V} (h : Canonical b) (k : List K) :
    (nodeAt b k).isSome = true ↔ (den b k).isSome = true ∨ Branch b k ∨ (b = empty ∧ k = []) := by
  constructor
  · intro hk
    rcases h with ⟨hv, rfl | hf⟩
    · right; right
      refine ⟨rfl, ?_⟩
      cases k with
      | nil => rfl
      | cons c k => simp [empty, nodeAt, strip, nodeAtL] at hk
    · rcases branch_of_nodeAt _ b (Nat.le_refl _) hv hf k hk with h | h
      · exact .inl h
      · exact .inr (.inl h)
  · rintro (hk | hk | ⟨rfl, rfl⟩)
    · rw [nodeAt_join _ b (Nat.le_refl _) h.1] at hk
      cases hn : nodeAt b k with
      | none => rw [hn] at hk; cases hk
      | some w => rfl
    · exact nodeAt_of_branch _ b (Nat.le_refl _) h.1 k hk
    · rfl

end
end Tree
end Verif
