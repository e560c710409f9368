import Verif.Lemmas.RadixBase
/-! A panic-free reference version of all the tree combinations, parametrised by what they do with values and unmatched children, and its
pointwise meaning. -/
namespace Verif
namespace Tree
open Std

/-- what distinguishes the combinations -/
structure Par (K V W : Type _) where
  va : Option V → Option V
  vb : Option W → Option V
  vs : Option V → Option W → Option V
  ga : Tree K V → Option (Tree K V)
  gb : Tree K W → Option (Tree K V)
  stop : Option W → Bool
  keep : Bool
  dis : Option Bool

section
variable {K V W O : Type _}

/-- remove everything below (and at) the node -/
def clear (t : Tree K V) : Tree K V := { t with val := none, kids := [] }
/-- `none` for an empty tree -/
def nonEmpty (t : Tree K V) : Option (Tree K V) := if t.isEmpty then none else some t

variable [Ord K]

/-- merge of sibling lists -/
def kidsRef (P : Par K V W) (rec : Tree K V → Tree K W → Tree K V) (as : List (Tree K V)) (bs : List (Tree K W)) : List (Tree K V) :=
  joinList headCmp P.ga P.gb (fun x y => nonEmpty (rec x y)) as bs

/-- the cases by common prefix -/
def refCases [DecidableEq K] (P : Par K V W) (rec : Tree K V → Tree K W → Tree K V) (n : Nat) (a : Tree K V) (b : Tree K W) : Tree K V :=
  if n = a.pre.length ∧ n = b.pre.length then
    if P.stop b.val then (if P.keep then a else a.clear)
    else ⟨a.pre, P.vs a.val b.val, kidsRef P rec a.kids b.kids⟩
  else if n = b.pre.length then
    if P.stop b.val then (if P.keep then a else a.clear)
    else ⟨a.pre.take n, P.vb b.val, kidsRef P rec [a.shorten n] b.kids⟩
  else if n = a.pre.length then ⟨a.pre, P.va a.val, kidsRef P rec a.kids [b.shorten n]⟩
  else match P.dis with
    | none => ⟨a.pre.take n, none, kidsRef P rec [a.shorten n] [b.shorten n]⟩
    | some true => a
    | some false => a.clear

/-- the combination -/
def ref [DecidableEq K] (P : Par K V W) : Nat → Tree K V → Tree K W → Tree K V
  | 0, _, _ => empty
  | fuel + 1, a, b => unsplit (refCases P (ref P fuel) (commonPrefix a.pre b.pre) a b)

/-- a way to look at the right hand tree under a key -/
structure Obs (K W O : Type _) where
  no : O
  all : O
  here : Option W → O
  get : Tree K W → List K → O

structure ObsLaws [DecidableEq K] (o : Obs K W O) (stop : Option W → Bool) : Prop where
  out : ∀ t k, (∀ r, k ≠ t.pre ++ r) → o.get t k = o.no
  node : ∀ t, o.get t t.pre = o.here t.val
  below : ∀ t, Valid t → stop t.val = false → ∀ c r,
    o.get t (t.pre ++ c :: r) = ((findBy hd t.kids (some c)).map (fun x => o.get x (c :: r))).getD o.no
  stopped : ∀ t, Valid t → stop t.val = true → ∀ r, o.get t (t.pre ++ r) = o.all

/-- the parameters `P` implement the pointwise relation `H` between old value, observation and new value -/
structure Good [DecidableEq K] (P : Par K V W) (o : Obs K W O) (H : Option V → O → Option V → Prop) : Prop where
  no : H none o.no none
  va : ∀ v, H v o.no (P.va v)
  vb : ∀ w, P.stop w = false → H none (o.here w) (P.vb w)
  vs : ∀ v w, P.stop w = false → H v (o.here w) (P.vs v w)
  gaEq : ∀ a t, P.ga a = some t → t = a
  ga : ∀ a k, Valid a → a.pre ≠ [] → H (den a k) o.no ((P.ga a).bind (fun t => den t k))
  gbOk : ∀ b t, Valid b → b.pre ≠ [] → P.gb b = some t → Valid t ∧ t.pre = b.pre ∧ (Full b → Full t)
  gb : ∀ b k, Valid b → b.pre ≠ [] → H none (o.get b k) ((P.gb b).bind (fun t => den t k))
  stop : ∀ w, P.stop w = true → ∀ v, H v o.all (if P.keep then v else none)
  dis : ∀ d, P.dis = some d → (∀ v, H v o.no (if d then v else none)) ∧ ∀ y, H none y none

/-- what is known about the combination `r` of `x` and `y` -/
structure RecSpec [DecidableEq K] (o : Obs K W O) (H : Option V → O → Option V → Prop) (x : Tree K V) (y : Tree K W) (r : Tree K V) : Prop where
  valid : Valid r
  point : ∀ k, H (den x k) (o.get y k) (den r k)
  head : r.isEmpty = false → hd r = hd x
  full : Full x → Full y → r.isEmpty = false → Full r

variable [TransOrd K] [LawfulEqOrd K] [DecidableEq K]

theorem ObsLaws.shorten {o : Obs K W O} {stop : Option W → Bool} (L : ObsLaws o stop) {t : Tree K W} (hv : Valid t) {n : Nat}
    (hn : n ≤ t.pre.length) (k : List K) : o.get (t.shorten n) k = o.get t (t.pre.take n ++ k) := by
  by_cases hk : ∃ r, k = t.pre.drop n ++ r
  · obtain ⟨r, rfl⟩ := hk
    rw [← List.append_assoc, List.take_append_drop]
    have hp : t.pre.drop n = (t.shorten n).pre := rfl
    cases hs : stop t.val with
    | true => rw [L.stopped t hv hs, hp, L.stopped (t.shorten n) (hv.shorten n) hs]
    | false =>
      cases r with
      | nil => simp only [List.append_nil]; rw [L.node, hp, L.node]; rfl
      | cons c r => rw [L.below t hv hs, hp, L.below (t.shorten n) (hv.shorten n) hs]; rfl
  · rw [L.out (t.shorten n) k (fun r e => hk ⟨r, e⟩), L.out]
    intro r e
    apply hk
    refine ⟨r, ?_⟩
    have : t.pre.take n ++ k = t.pre.take n ++ (t.pre.drop n ++ r) := by
      rw [← List.append_assoc, List.take_append_drop]; exact e
    exact List.append_cancel_left this

/-- the observation of a list of siblings -/
def obsL (o : Obs K W O) (bs : List (Tree K W)) (c : K) (r : List K) : O :=
  ((findBy hd bs (some c)).map (fun x => o.get x (c :: r))).getD o.no

theorem nonEmpty_some {t r : Tree K V} : nonEmpty t = some r ↔ r = t ∧ t.isEmpty = false := by
  unfold nonEmpty
  cases t.isEmpty <;> simp [eq_comm]

theorem kidsRef_spec {P : Par K V W} {o : Obs K W O} {H : Option V → O → Option V → Prop} (G : Good P o H)
    {rec : Tree K V → Tree K W → Tree K V} {as : List (Tree K V)} {bs : List (Tree K W)} (ha : Kids as) (hb : Kids bs)
    (hrec : ∀ x ∈ as, ∀ y ∈ bs, hd x = hd y → RecSpec o H x y (rec x y)) :
    Kids (kidsRef P rec as bs) ∧
    ((∀ x ∈ as, Full x) → (∀ y ∈ bs, Full y) → ∀ z ∈ kidsRef P rec as bs, Full z) ∧
    ∀ c r, H (denL as (c :: r)) (obsL o bs c r) (denL (kidsRef P rec as bs) (c :: r)) := by
  have hk : KeyOk (hd (K := K) (V := V)) (hd (K := K) (V := W)) (hd (K := K) (V := V)) P.ga P.gb (fun x y => nonEmpty (rec x y)) as bs := by
    refine ⟨?_, ?_, ?_⟩
    · intro a _ r hr; rw [G.gaEq a r hr]; exact cmp_self _
    · intro b hb' r hr
      have := (G.gbOk b r (hb.valid b hb') (hb.ne b hb') hr).2.1
      simp only [hd, this]; exact cmp_self _
    · intro a ha' b hb' hc r hr
      obtain ⟨rfl, he⟩ := nonEmpty_some.1 hr
      rw [(hrec a ha' b hb' (cmp_eq_iff.1 hc)).head he]; exact cmp_self _
  have hasc : AscendingBy hd (kidsRef P rec as bs) := joinList_ascending headCmp_eq as bs ha.asc hb.asc hk
  have hfind : ∀ k, findBy hd (kidsRef P rec as bs) k = _ := findBy_joinList headCmp_eq as bs ha.asc hb.asc hk
  have hsrc : ∀ z ∈ kidsRef P rec as bs, (∃ x ∈ as, z = x) ∨ (∃ y ∈ bs, P.gb y = some z) ∨
      (∃ x ∈ as, ∃ y ∈ bs, hd x = hd y ∧ z = rec x y ∧ z.isEmpty = false) := by
    intro z hz
    have h1 : findBy hd (kidsRef P rec as bs) (hd z) = some z := hasc.findBy_eq_some.2 ⟨hz, cmp_self _⟩
    rw [hfind] at h1
    cases h2 : findBy hd as (hd z) with
    | none =>
      cases h3 : findBy hd bs (hd z) with
      | none => rw [h2, h3] at h1; cases h1
      | some y =>
        rw [h2, h3] at h1
        exact .inr (.inl ⟨y, (findBy_some_mem h3).1, h1⟩)
    | some x =>
      have hx := findBy_some_mem h2
      cases h3 : findBy hd bs (hd z) with
      | none =>
        rw [h2, h3] at h1
        exact .inl ⟨x, hx.1, G.gaEq x z h1⟩
      | some y =>
        have hy := findBy_some_mem h3
        rw [h2, h3] at h1
        obtain ⟨e, he⟩ := nonEmpty_some.1 h1
        refine .inr (.inr ⟨x, hx.1, y, hy.1, cmp_eq_iff.1 (cmp_eq_trans hx.2 (cmp_symm hy.2)), e, ?_⟩)
        rw [e]; exact he
  have hkids : Kids (kidsRef P rec as bs) := by
    refine ⟨?_, hasc, ?_⟩
    · intro z hz
      rcases hsrc z hz with ⟨x, hx, rfl⟩ | ⟨y, hy, e⟩ | ⟨x, hx, y, hy, hh, e, he⟩
      · exact ha.ne _ hx
      · rw [(G.gbOk y z (hb.valid y hy) (hb.ne y hy) e).2.1]; exact hb.ne y hy
      · have := (hrec x hx y hy hh).head (by rw [← e]; exact he)
        rw [← e] at this
        intro h0
        simp only [hd, h0] at this
        have hne := ha.ne x hx
        cases hp : x.pre with
        | nil => exact hne hp
        | cons c r => rw [hp] at this; simp at this
    · intro z hz
      rcases hsrc z hz with ⟨x, hx, rfl⟩ | ⟨y, hy, e⟩ | ⟨x, hx, y, hy, hh, e, he⟩
      · exact ha.valid _ hx
      · exact (G.gbOk y z (hb.valid y hy) (hb.ne y hy) e).1
      · rw [e]; exact (hrec x hx y hy hh).valid
  refine ⟨hkids, ?_, ?_⟩
  · intro fa fb z hz
    rcases hsrc z hz with ⟨x, hx, rfl⟩ | ⟨y, hy, e⟩ | ⟨x, hx, y, hy, hh, e, he⟩
    · exact fa _ hx
    · exact (G.gbOk y z (hb.valid y hy) (hb.ne y hy) e).2.2 (fb y hy)
    · rw [e] at he ⊢; exact (hrec x hx y hy hh).full (fa x hx) (fb y hy) he
  · intro c r
    rw [denL_eq ha, denL_eq hkids, hfind, obsL]
    cases h2 : findBy hd as (some c) with
    | none =>
      cases h3 : findBy hd bs (some c) with
      | none => exact G.no
      | some y =>
        have hy := (findBy_some_mem h3).1
        exact G.gb y (c :: r) (hb.valid y hy) (hb.ne y hy)
    | some x =>
      have hx := findBy_some_mem h2
      cases h3 : findBy hd bs (some c) with
      | none => exact G.ga x (c :: r) (ha.valid x hx.1) (ha.ne x hx.1)
      | some y =>
        have hy := findBy_some_mem h3
        have hh : hd x = hd y := cmp_eq_iff.1 (cmp_eq_trans hx.2 (cmp_symm hy.2))
        have := (hrec x hx.1 y hy.1 hh).point (c :: r)
        simp only [pointJoin, Option.bind_some, Option.map_some, Option.getD_some]
        cases he : (rec x y).isEmpty with
        | true =>
          have e1 : nonEmpty (rec x y) = none := by simp [nonEmpty, he]
          rw [den_empty_none he] at this
          rw [e1]; exact this
        | false =>
          have e1 : nonEmpty (rec x y) = some (rec x y) := by simp [nonEmpty, he]
          rw [e1]; exact this

/-- children of a shortened node, below the split point -/
theorem denL_shorten {t : Tree K V} (hv : Valid t) {n : Nat} (hn : n < t.pre.length) (c : K) (r : List K) :
    denL [t.shorten n] (c :: r) = den t (t.pre.take n ++ c :: r) := by
  rw [← shorten_den t n (by omega)]
  simp [denL]

theorem obsL_shorten {o : Obs K W O} {stop : Option W → Bool} (L : ObsLaws o stop) {t : Tree K W} (hv : Valid t) {n : Nat}
    (hn : n < t.pre.length) (c : K) (r : List K) : obsL o [t.shorten n] c r = o.get t (t.pre.take n ++ c :: r) := by
  rw [← L.shorten hv (by omega), obsL, findBy_cons]
  by_cases h : compare (hd (t.shorten n)) (some c) = .eq
  · rw [if_pos h]; rfl
  · rw [if_neg h]
    simp only [findBy_nil, Option.map_none, Option.getD_none]
    rw [L.out]
    intro s e
    have hp : (t.shorten n).pre = t.pre.drop n := rfl
    cases hd' : t.pre.drop n with
    | nil => simp at hd'; omega
    | cons x xs =>
      rw [hp, hd'] at e
      simp at e
      apply h
      simp [hd, hp, hd', e.1, cmp_self]

theorem shorten_ne {t : Tree K V} {n : Nat} (hn : n < t.pre.length) : (t.shorten n).pre ≠ [] := by
  intro h
  have : t.pre.drop n = [] := h
  simp at this
  omega

theorem Canonical.kids_full {t : Tree K V} (h : Canonical t) : ∀ c ∈ t.kids, Full c := by
  rcases h.2 with e | h
  · rw [e]; simp [empty]
  · exact (full_iff.1 h).2

theorem Canonical.shorten_full {t : Tree K V} (h : Canonical t) {n : Nat} (hn : n < t.pre.length) : Full (t.shorten n) := by
  rcases h.2 with e | h
  · rw [e] at hn; simp [empty] at hn
  · exact h.setPre _

/-- a new node whose parts are related pointwise to the inputs is related to them as a whole -/
theorem node_point {o : Obs K W O} {H : Option V → O → Option V → Prop} {a : Tree K V} {b : Tree K W} {t : Tree K V}
    (hout : ∀ k, (∀ r, k ≠ t.pre ++ r) → H (den a k) (o.get b k) none)
    (hat : H (den a t.pre) (o.get b t.pre) t.val)
    (hbelow : ∀ c r, H (den a (t.pre ++ c :: r)) (o.get b (t.pre ++ c :: r)) (denL t.kids (c :: r))) (k : List K) :
    H (den a k) (o.get b k) (den t k) := by
  by_cases hk : ∃ r, k = t.pre ++ r
  · obtain ⟨r, rfl⟩ := hk
    cases r with
    | nil => rw [List.append_nil, den_at]; exact hat
    | cons c r => rw [den_below]; exact hbelow c r
  · rw [den_out t k (fun r e => hk ⟨r, e⟩)]
    exact hout k (fun r e => hk ⟨r, e⟩)

theorem size_shorten {K V : Type _} (t : Tree K V) (n : Nat) (h : n ≤ t.pre.length) : (t.shorten n).size + n = t.size := by
  rw [size_eq, size_eq t]
  simp only [shorten, List.length_drop]
  omega

theorem reach_shorten {K V : Type _} (t : Tree K V) (n : Nat) (h : n ≤ t.pre.length) : (t.shorten n).reach + n = t.reach := by
  rw [reach_eq, reach_eq t]
  simp only [shorten, List.length_drop]
  omega

theorem refCases_spec {P : Par K V W} {o : Obs K W O} {H : Option V → O → Option V → Prop} (G : Good P o H) (L : ObsLaws o P.stop)
    {rec : Tree K V → Tree K W → Tree K V} {a : Tree K V} {b : Tree K W} (ha : Valid a) (hb : Valid b)
    (hrec : ∀ x y, Valid x → Valid y → x.size + y.size < a.size + b.size → hd x = hd y → x.pre ≠ [] → y.pre ≠ [] → RecSpec o H x y (rec x y)) :
    Valid (refCases P rec (commonPrefix a.pre b.pre) a b) ∧
    (∀ k, H (den a k) (o.get b k) (den (refCases P rec (commonPrefix a.pre b.pre) a b) k)) ∧
    (∃ r, (refCases P rec (commonPrefix a.pre b.pre) a b).pre = a.pre.take (commonPrefix a.pre b.pre) ++ r) ∧
    (Canonical a → Canonical b → ∀ c ∈ (refCases P rec (commonPrefix a.pre b.pre) a b).kids, Full c) := by
  have hla := commonPrefix_le_left a.pre b.pre
  have hlb := commonPrefix_le_right a.pre b.pre
  have htk := commonPrefix_take a.pre b.pre
  have hdf := commonPrefix_differ a.pre b.pre
  revert hla hlb htk hdf
  generalize commonPrefix a.pre b.pre = n
  intro hla hlb htk hdf
  have sa : a.size = 1 + a.pre.length + size.sizeL a.kids := size_eq a
  have sb : b.size = 1 + b.pre.length + size.sizeL b.kids := size_eq b
  -- the whole of `a` kept or cleared
  have keepCase : ∀ d : Bool, (∀ k, H (den a k) (o.get b k) (if d then den a k else none)) →
      Valid (if d then a else a.clear) ∧ (∀ k, H (den a k) (o.get b k) (den (if d then a else a.clear) k)) ∧
      (∃ r, (if d then a else a.clear).pre = a.pre.take n ++ r) ∧
      (Canonical a → Canonical b → ∀ c ∈ (if d then a else a.clear).kids, Full c) := by
    intro d hd
    cases d with
    | true =>
      simp only [↓reduceIte] at hd ⊢
      exact ⟨ha, hd, ⟨a.pre.drop n, by simp⟩, fun h _ => h.kids_full⟩
    | false =>
      simp only [Bool.false_eq_true, ↓reduceIte] at hd ⊢
      refine ⟨valid_iff.2 Kids.nil, ?_, ⟨a.pre.drop n, by simp [clear]⟩, by simp [clear]⟩
      intro k
      have : den a.clear k = none := den_empty_none (by simp [clear, isEmpty]) k
      rw [this]
      exact hd k
  have stopCase : P.stop b.val = true → n = b.pre.length → (∀ k, H (den a k) (o.get b k) (if P.keep then den a k else none)) := by
    intro hs hn k
    by_cases hk : ∃ r, k = b.pre ++ r
    · obtain ⟨r, rfl⟩ := hk
      rw [L.stopped b hb hs]
      exact G.stop _ hs _
    · rw [L.out b k (fun r e => hk ⟨r, e⟩), den_out a k]
      · cases P.keep <;> exact G.no
      · intro r e
        apply hk
        refine ⟨a.pre.drop n ++ r, ?_⟩
        rw [e, ← List.append_assoc]
        congr 1
        rw [← List.take_append_drop n a.pre, htk, hn, List.take_length]
        simp
  unfold refCases
  by_cases h1 : n = a.pre.length ∧ n = b.pre.length
  · rw [if_pos h1]
    have hpre : a.pre = b.pre := by
      have := htk
      rw [h1.2, List.take_length, ← h1.2, h1.1, List.take_length] at this
      exact this
    cases hs : P.stop b.val with
    | true => simp only [↓reduceIte]; exact keepCase _ (stopCase hs h1.2)
    | false =>
      simp only [Bool.false_eq_true, ↓reduceIte]
      have K1 := kidsRef_spec G ha.kids hb.kids (rec := rec) (fun x hx y hy hh =>
        hrec x y (ha.kids.valid x hx) (hb.kids.valid y hy) (by have := kid_size hx; have := kid_size hy; omega) hh
          (ha.kids.ne x hx) (hb.kids.ne y hy))
      refine ⟨valid_iff.2 K1.1, ?_, ⟨[], by simp [h1.1]⟩, fun ca cb => K1.2.1 ca.kids_full cb.kids_full⟩
      apply node_point
      · intro k hk
        rw [den_out a k hk, L.out b k (by rw [← hpre]; exact hk)]
        exact G.no
      · simp only
        rw [den_at, hpre, L.node]
        exact G.vs _ _ hs
      · intro c r
        simp only
        rw [den_below, hpre, L.below b hb hs]
        exact K1.2.2 c r
  rw [if_neg h1]
  by_cases h2 : n = b.pre.length
  · rw [if_pos h2]
    have hna : n < a.pre.length := by omega
    have hpre : a.pre.take n = b.pre := by rw [htk, h2, List.take_length]
    cases hs : P.stop b.val with
    | true => simp only [↓reduceIte]; exact keepCase _ (stopCase hs h2)
    | false =>
      simp only [Bool.false_eq_true, ↓reduceIte]
      have K1 := kidsRef_spec G (Kids.single (ha.shorten n) (shorten_ne hna)) hb.kids (rec := rec) (fun x hx y hy hh => by
        simp at hx; subst hx
        exact hrec _ y (ha.shorten n) (hb.kids.valid y hy) (by have := kid_size hy; have := size_shorten a n (by omega); omega) hh
          (shorten_ne hna) (hb.kids.ne y hy))
      refine ⟨valid_iff.2 K1.1, ?_, ⟨[], by simp⟩, fun ca cb => K1.2.1 (by simpa using ca.shorten_full hna) cb.kids_full⟩
      apply node_point
      · intro k hk
        simp only at hk
        rw [L.out b k (by rw [← hpre]; exact hk), den_out a k]
        · exact G.no
        · intro r e
          refine hk (a.pre.drop n ++ r) ?_
          rw [← List.append_assoc, List.take_append_drop]; exact e
      · simp only
        rw [hpre, L.node, den_out a]
        · exact G.vb _ hs
        · intro r e
          have := congrArg List.length e
          simp at this
          omega
      · intro c r
        simp only
        have := K1.2.2 c r
        rw [denL_shorten ha hna] at this
        have e : o.get b (a.pre.take n ++ c :: r) = obsL o b.kids c r := by rw [hpre, L.below b hb hs]; rfl
        rw [e]
        exact this
  rw [if_neg h2]
  have hnb : n < b.pre.length := by omega
  by_cases h3 : n = a.pre.length
  · rw [if_pos h3]
    have hpre : b.pre.take n = a.pre := by rw [← htk, h3, List.take_length]
    have K1 := kidsRef_spec G ha.kids (Kids.single (hb.shorten n) (shorten_ne hnb)) (rec := rec) (fun x hx y hy hh => by
      simp at hy; subst hy
      exact hrec x _ (ha.kids.valid x hx) (hb.shorten n) (by have := kid_size hx; have := size_shorten b n (by omega); omega) hh
        (ha.kids.ne x hx) (shorten_ne hnb))
    refine ⟨valid_iff.2 K1.1, ?_, ⟨[], by simp [h3]⟩, fun ca cb => K1.2.1 ca.kids_full (by simpa using cb.shorten_full hnb)⟩
    apply node_point
    · intro k hk
      simp only at hk
      rw [den_out a k hk, L.out b k]
      · exact G.no
      · intro r e
        refine hk (b.pre.drop n ++ r) ?_
        rw [← hpre, ← List.append_assoc, List.take_append_drop]; exact e
    · simp only
      rw [den_at, L.out b]
      · exact G.va _
      · intro r e
        have := congrArg List.length e
        simp at this
        omega
    · intro c r
      simp only
      have := K1.2.2 c r
      rw [obsL_shorten L hb hnb, hpre] at this
      rw [den_below]
      exact this
  rw [if_neg h3]
  have hna : n < a.pre.length := by omega
  have hdis : ∀ k r s, k = a.pre ++ r → k = b.pre ++ s → False := by
    intro k r s e1 e2
    apply hdf hna hnb
    have : a.pre ++ r = b.pre ++ s := e1 ▸ e2
    rw [← List.take_append_drop n a.pre, ← List.take_append_drop n b.pre, htk, List.append_assoc, List.append_assoc] at this
    have := List.append_cancel_left this
    cases hx : a.pre.drop n with
    | nil => simp at hx; omega
    | cons x xs =>
      cases hy : b.pre.drop n with
      | nil => simp at hy; omega
      | cons y ys =>
        rw [hx, hy] at this
        simp at this
        simp [this.1]
  have disCase : ∀ d, P.dis = some d → (∀ k, H (den a k) (o.get b k) (if d then den a k else none)) := by
    intro d hd k
    have := G.dis d hd
    by_cases hk : ∃ r, k = a.pre ++ r
    · obtain ⟨r, e⟩ := hk
      rw [L.out b k (fun s e' => hdis k r s e e')]
      exact this.1 _
    · rw [den_out a k (fun r e => hk ⟨r, e⟩)]
      cases d <;> exact this.2 _
  cases hd : P.dis with
  | some d =>
    have := keepCase d (disCase d hd)
    cases d with
    | true => simpa using this
    | false => simpa using this
  | none =>
    simp only
    have K1 := kidsRef_spec G (Kids.single (ha.shorten n) (shorten_ne hna)) (Kids.single (hb.shorten n) (shorten_ne hnb)) (rec := rec)
      (fun x hx y hy hh => by
        simp at hx hy; subst hx hy
        exact absurd hh (hdf hna hnb))
    refine ⟨valid_iff.2 K1.1, ?_, ⟨[], by simp⟩,
      fun ca cb => K1.2.1 (by simpa using ca.shorten_full hna) (by simpa using cb.shorten_full hnb)⟩
    apply node_point
    · intro k hk
      simp only at hk
      rw [den_out a k, L.out b k]
      · exact G.no
      · intro r e
        refine hk (b.pre.drop n ++ r) ?_
        rw [htk, ← List.append_assoc, List.take_append_drop]; exact e
      · intro r e
        refine hk (a.pre.drop n ++ r) ?_
        rw [← List.append_assoc, List.take_append_drop]; exact e
    · simp only
      rw [den_out a, L.out b]
      · exact G.no
      · intro r e
        have := congrArg List.length e
        simp at this
        omega
      · intro r e
        have := congrArg List.length e
        simp at this
        omega
    · intro c r
      simp only
      have := K1.2.2 c r
      rw [obsL_shorten L hb hnb, denL_shorten ha hna, ← htk] at this
      exact this

/-- **the combination is pointwise correct** -/
theorem ref_spec {P : Par K V W} {o : Obs K W O} {H : Option V → O → Option V → Prop} (G : Good P o H) (L : ObsLaws o P.stop) :
    ∀ fuel (a : Tree K V) (b : Tree K W), Valid a → Valid b → a.size + b.size < fuel →
      Valid (ref P fuel a b) ∧ (∀ k, H (den a k) (o.get b k) (den (ref P fuel a b) k)) ∧
      (∀ c, hd a = some c → hd b = some c → (ref P fuel a b).isEmpty = false → hd (ref P fuel a b) = some c) ∧
      (Canonical a → Canonical b → Canonical (ref P fuel a b)) := by
  intro fuel
  induction fuel with
  | zero => intro a b _ _ h; omega
  | succ fuel ih =>
    intro a b ha hb hs
    have S := refCases_spec G L ha hb (rec := ref P fuel) (by
      intro x y hx hy hxy hh hxp hyp
      have := ih x y hx hy (by omega)
      refine ⟨this.1, this.2.1, ?_, ?_⟩
      · intro he
        cases hp : x.pre with
        | nil => exact absurd hp hxp
        | cons c r =>
          have hc : hd x = some c := by simp [hd, hp]
          rw [hc]
          exact this.2.2.1 c hc (by rw [← hh, hc]) he
      · intro fx fy he
        rcases (this.2.2.2 ⟨hx, .inr fx⟩ ⟨hy, .inr fy⟩).2 with e | f
        · rw [e] at he; simp [empty, isEmpty] at he
        · exact f)
    obtain ⟨S1, S2, ⟨r, S3⟩, S4⟩ := S
    refine ⟨S1.unsplit, ?_, ?_, ?_⟩
    · intro k
      rw [ref, unsplit_den S1]
      exact S2 k
    · intro c hca hcb he
      obtain ⟨r', e⟩ := unsplit_pre he
      rw [ref] at *
      simp only [hd] at *
      rw [e, S3]
      have hn := commonPrefix_pos a.pre b.pre c hca hcb
      cases hp : a.pre with
      | nil => rw [hp] at hca; simp at hca
      | cons x xs =>
        rw [hp] at hca hn
        cases hq : commonPrefix (x :: xs) b.pre with
        | zero => omega
        | succ m => simpa using hca
    · intro ca cb
      exact ⟨S1.unsplit, unsplit_full (S4 ca cb)⟩

end
end Tree
end Verif
