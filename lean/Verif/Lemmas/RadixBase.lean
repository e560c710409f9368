import Verif.Spec.Radix
import Verif.Lemmas.Join
/-! Radix trees as partial functions on key sequences; `unsplit`, `materialize`. -/
namespace Verif
namespace Tree
open Std

section common
variable {K : Type _} [DecidableEq K]

theorem commonPrefix_le_left (p q : List K) : commonPrefix p q ≤ p.length := by
  fun_induction commonPrefix p q <;> simp_all
theorem commonPrefix_le_right (p q : List K) : commonPrefix p q ≤ q.length := by
  fun_induction commonPrefix p q <;> simp_all
theorem commonPrefix_take (p q : List K) : p.take (commonPrefix p q) = q.take (commonPrefix p q) := by
  fun_induction commonPrefix p q <;> simp_all
/-- beyond the common prefix the next components differ -/
theorem commonPrefix_differ (p q : List K) (hp : commonPrefix p q < p.length) (hq : commonPrefix p q < q.length) :
    (p.drop (commonPrefix p q)).head? ≠ (q.drop (commonPrefix p q)).head? := by
  fun_induction commonPrefix p q with
  | case1 x xs ys ih => simp at hp hq; simpa using ih hp hq
  | case2 x xs y ys h => simpa using h
  | case3 p q h =>
    cases p with
    | nil => simp at hp
    | cons x p =>
      cases q with
      | nil => simp at hq
      | cons y q => exact absurd rfl (h x p y q rfl)
theorem commonPrefix_pos (p q : List K) (c : K) (hp : p.head? = some c) (hq : q.head? = some c) : 1 ≤ commonPrefix p q := by
  cases p with
  | nil => simp at hp
  | cons x p =>
    cases q with
    | nil => simp at hq
    | cons y q => simp at hp hq; subst hp hq; simp [commonPrefix]
theorem commonPrefix_comm (p q : List K) : commonPrefix p q = commonPrefix q p := by
  fun_induction commonPrefix p q with
  | case1 x xs ys ih => simp [commonPrefix, ih]
  | case2 x xs y ys h => simp [commonPrefix, Ne.symm h]
  | case3 p q h =>
    cases p with
    | nil => cases q <;> simp [commonPrefix]
    | cons x p =>
      cases q with
      | nil => simp [commonPrefix]
      | cons y q => exact absurd rfl (h x p y q rfl)

/-- `k` without the leading `p` -/
def strip : List K → List K → Option (List K)
  | [], k => some k
  | _ :: _, [] => none
  | x :: p, y :: k => if x = y then strip p k else none

theorem strip_eq_some {p k r : List K} : strip p k = some r ↔ k = p ++ r := by
  fun_induction strip p k with
  | case1 k => simp
  | case2 x p => simp
  | case3 x p k ih => simp [ih]
  | case4 x p y k h => simp [Ne.symm h]

theorem strip_append (p r : List K) : strip p (p ++ r) = some r := strip_eq_some.2 rfl
theorem strip_eq_none {p k : List K} : strip p k = none ↔ ∀ r, k ≠ p ++ r := by
  constructor
  · intro h r e; rw [e, strip_append] at h; cases h
  · intro h
    cases hs : strip p k with
    | none => rfl
    | some r => exact absurd (strip_eq_some.1 hs) (h r)

end common

section den
variable {K V : Type _} [DecidableEq K]

mutual
/-- the partial function a tree stands for -/
def den : Tree K V → List K → Option V
  | ⟨p, v, ks⟩, k =>
    match strip p k with
    | none => none
    | some [] => v
    | some (c :: r) => denL ks (c :: r)
/-- first child that knows the key -/
def denL : List (Tree K V) → List K → Option V
  | [], _ => none
  | c :: cs, k => (den c k).or (denL cs k)
end

theorem den_at (t : Tree K V) : den t t.pre = t.val := by
  obtain ⟨p, v, ks⟩ := t
  have := strip_append p []
  simp only [List.append_nil] at this
  simp [den, this]

theorem den_below (t : Tree K V) (c : K) (r : List K) : den t (t.pre ++ c :: r) = denL t.kids (c :: r) := by
  obtain ⟨p, v, ks⟩ := t
  simp [den, strip_append]

theorem den_out (t : Tree K V) (k : List K) (h : ∀ r, k ≠ t.pre ++ r) : den t k = none := by
  obtain ⟨p, v, ks⟩ := t
  simp [den, strip_eq_none.2 h]

theorem denL_none {ks : List (Tree K V)} {k : List K} (h : ∀ c ∈ ks, den c k = none) : denL ks k = none := by
  induction ks with
  | nil => rfl
  | cons x ks ih => simp [denL, h x (by simp), ih (fun c hc => h c (by simp [hc]))]

theorem den_empty_none {t : Tree K V} (h : t.isEmpty = true) (k : List K) : den t k = none := by
  obtain ⟨p, v, ks⟩ := t
  simp [isEmpty] at h
  obtain ⟨rfl, rfl⟩ := h
  simp only [den]
  split <;> simp [denL]

end den

/-! ### Validity -/

section valid
variable {K V : Type _} [Ord K]

/-- first component of the prefix -/
abbrev hd (t : Tree K V) : Option K := t.pre.head?

theorem headCmp_eq {W : Type _} (a : Tree K V) (b : Tree K W) : headCmp a b = compare (hd a) (hd b) := rfl

/-- a list of siblings -/
structure Kids (ks : List (Tree K V)) : Prop where
  ne : ∀ c ∈ ks, c.pre ≠ []
  asc : AscendingBy hd ks
  valid : ∀ c ∈ ks, Valid c

theorem valid_iff {t : Tree K V} : Valid t ↔ Kids t.kids := by
  constructor
  · rintro ⟨h1, h2, h3⟩; exact ⟨h1, h2, h3⟩
  · obtain ⟨p, v, ks⟩ := t; intro ⟨h1, h2, h3⟩; exact .mk h1 h2 h3

theorem Valid.kids {t : Tree K V} (h : Valid t) : Kids t.kids := valid_iff.1 h

theorem Kids.nil : Kids ([] : List (Tree K V)) := ⟨by simp, by simp, by simp⟩
theorem Kids.single {t : Tree K V} (h : Valid t) (hp : t.pre ≠ []) : Kids [t] :=
  ⟨by simpa using hp, by simp [AscendingBy], by simpa using h⟩
theorem Kids.sublist {ks ks' : List (Tree K V)} (h : Kids ks) (s : List.Sublist ks' ks) : Kids ks' :=
  ⟨fun c hc => h.ne c (s.subset hc), h.asc.sublist s, fun c hc => h.valid c (s.subset hc)⟩
theorem Kids.headed {ks : List (Tree K V)} (h : Kids ks) : headed ks = true := by
  simp only [Tree.headed, List.all_eq_true]
  intro c hc
  simpa using h.ne c hc
theorem valid_empty : Valid (empty : Tree K V) := valid_iff.2 Kids.nil
theorem Valid.setPre {t : Tree K V} (h : Valid t) (p : List K) : Valid { t with pre := p } := valid_iff.2 h.kids

theorem head?_some_of_ne {t : Tree K V} (h : t.pre ≠ []) : ∃ c r, t.pre = c :: r := by
  cases hp : t.pre with
  | nil => exact absurd hp h
  | cons c r => exact ⟨c, r, rfl⟩

variable [TransOrd K] [LawfulEqOrd K] [DecidableEq K]

/-- the child responsible for a key -/
theorem denL_eq {ks : List (Tree K V)} (h : Kids ks) (c : K) (r : List K) :
    denL ks (c :: r) = (findBy hd ks (some c)).bind (fun x => den x (c :: r)) := by
  induction ks with
  | nil => rfl
  | cons x ks ih =>
    rw [denL, findBy_cons, ih (h.sublist (List.sublist_cons_self ..))]
    by_cases hx : compare (hd x) (some c) = .eq
    · rw [if_pos hx]
      have hn : findBy hd ks (some c) = none := by
        refine findBy_none_of_lt (k' := hd x) ?_ hx
        exact (ascendingBy_cons.1 h.asc).1
      simp [hn]
    · rw [if_neg hx]
      have : den x (c :: r) = none := by
        refine den_out x _ ?_
        intro s e
        obtain ⟨c', r', hp⟩ := head?_some_of_ne (h.ne x (by simp))
        rw [hp] at e
        simp at e
        exact hx (by simp [hd, hp, e.1, cmp_self])
      simp [this]

theorem findBy_hd_mem {ks : List (Tree K V)} {c : K} {x : Tree K V} (h : findBy hd ks (some c) = some x) :
    x ∈ ks ∧ x.pre.head? = some c := by
  have := findBy_some_mem h
  exact ⟨this.1, cmp_eq_iff.1 this.2⟩

theorem den_ne_prefix {t : Tree K V} {c : K} {r : List K} (h : t.pre ≠ []) (h' : t.pre.head? ≠ some c) : den t (c :: r) = none := by
  refine den_out t _ ?_
  intro s e
  obtain ⟨c', r', hp⟩ := head?_some_of_ne h
  rw [hp] at e h'
  simp at e h'
  exact h' e.1.symm

/-! ### Entries -/

theorem den_iff_entry {t : Tree K V} (h : Valid t) (k : List K) (v : V) : den t k = some v ↔ Entry t k v := by
  constructor
  · intro hd
    have key : ∀ n (t : Tree K V) k, t.size ≤ n → Valid t → den t k = some v → Entry t k v := by
      intro n
      induction n with
      | zero => intro t k hs; obtain ⟨p, v, ks⟩ := t; simp [size] at hs
      | succ n ih =>
        intro t k hs hv hd
        by_cases hk : ∃ r, k = t.pre ++ r
        · obtain ⟨r, rfl⟩ := hk
          cases r with
          | nil =>
            rw [List.append_nil, den_at] at hd
            obtain ⟨p, v, ks⟩ := t
            simp only at hd; subst hd
            rw [List.append_nil]
            exact .here
          | cons c r =>
            rw [den_below, denL_eq hv.kids] at hd
            cases hf : findBy Tree.hd t.kids (some c) with
            | none => rw [hf] at hd; cases hd
            | some x =>
              rw [hf] at hd
              have hx := (findBy_hd_mem hf).1
              obtain ⟨p, v, ks⟩ := t
              refine .there hx (ih x _ ?_ (hv.kids.valid x hx) hd)
              have : ∀ (ks : List (Tree K V)), x ∈ ks → x.size ≤ size.sizeL ks := by
                intro ks
                induction ks with
                | nil => simp
                | cons y ks ih =>
                  intro hm
                  rcases List.mem_cons.1 hm with rfl | hm
                  · simp [size.sizeL]
                  · have := ih hm; simp [size.sizeL]; omega
              have := this ks hx
              simp [size] at hs
              omega
        · rw [den_out t k (fun r e => hk ⟨r, e⟩)] at hd; cases hd
    exact key t.size t k (Nat.le_refl _) h hd
  · intro he
    induction he with
    | here => exact den_at ⟨_, some _, _⟩
    | @there p w ks c k v hc he ih =>
      have hv := h.kids.valid c hc
      have hne := h.kids.ne c hc
      have ih := ih hv
      cases k with
      | nil =>
        rw [den_out c [] ?_] at ih
        · cases ih
        · intro r e; obtain ⟨c', r', hp⟩ := head?_some_of_ne hne; rw [hp] at e; simp at e
      | cons x k =>
        have := den_below ⟨p, w, ks⟩ x k
        simp only at this
        rw [this, denL_eq h.kids]
        have hh : c.pre.head? = some x := by
          apply Classical.byContradiction
          intro hn
          rw [den_ne_prefix hne hn] at ih
          cases ih
        have : findBy hd ks (some x) = some c := h.kids.asc.findBy_eq_some.2 ⟨hc, by simp only [hd]; rw [hh]; exact cmp_self _⟩
        simp only
        rw [this]
        exact ih

omit [Ord K] [TransOrd K] [LawfulEqOrd K] [DecidableEq K] in
theorem mem_size {x : Tree K V} {ks : List (Tree K V)} (h : x ∈ ks) : x.size ≤ size.sizeL ks := by
  induction ks with
  | nil => simp at h
  | cons y ks ih =>
    rcases List.mem_cons.1 h with rfl | hm
    · simp [size.sizeL]
    · have := ih hm; simp [size.sizeL]; omega

omit [Ord K] [TransOrd K] [LawfulEqOrd K] [DecidableEq K] in
theorem size_eq (t : Tree K V) : t.size = 1 + t.pre.length + size.sizeL t.kids := by
  obtain ⟨p, v, ks⟩ := t; rfl

omit [Ord K] [TransOrd K] [LawfulEqOrd K] [DecidableEq K] in
theorem kid_size {x t : Tree K V} (h : x ∈ t.kids) : x.size + t.pre.length < t.size := by
  have := mem_size h
  rw [size_eq t]
  omega

/-- number of key components on the longest path from the root -/
def reach {K V : Type _} : Tree K V → Nat
  | ⟨p, _, ks⟩ => p.length + reachL ks
where
  /-- the maximum -/
  reachL : List (Tree K V) → Nat
    | [] => 0
    | c :: cs => max (reach c) (reachL cs)

omit [Ord K] [TransOrd K] [LawfulEqOrd K] [DecidableEq K] in
theorem mem_reach {x : Tree K V} {ks : List (Tree K V)} (h : x ∈ ks) : x.reach ≤ reach.reachL ks := by
  induction ks with
  | nil => cases h
  | cons c cs ih =>
    cases h with
    | head => simp only [reach.reachL]; omega
    | tail _ h => have := ih h; simp only [reach.reachL]; omega

omit [Ord K] [TransOrd K] [LawfulEqOrd K] [DecidableEq K] in
theorem reach_eq (t : Tree K V) : t.reach = t.pre.length + reach.reachL t.kids := by
  obtain ⟨p, v, ks⟩ := t; simp [reach]

omit [Ord K] [TransOrd K] [LawfulEqOrd K] [DecidableEq K] in
theorem kid_reach {x t : Tree K V} (h : x ∈ t.kids) : x.reach + t.pre.length ≤ t.reach := by
  have := mem_reach h
  rw [reach_eq t]
  omega

/-! ### unsplit -/

/-- the tree at the node with the given prefix shortened by `n` components -/
def shorten (t : Tree K V) (n : Nat) : Tree K V := { t with pre := t.pre.drop n }

omit [Ord K] [TransOrd K] [LawfulEqOrd K] in
theorem shorten_den (t : Tree K V) (n : Nat) (hn : n ≤ t.pre.length) (k : List K) :
    den (t.shorten n) k = den t (t.pre.take n ++ k) := by
  by_cases hk : ∃ r, k = t.pre.drop n ++ r
  · obtain ⟨r, rfl⟩ := hk
    rw [← List.append_assoc, List.take_append_drop]
    cases r with
    | nil => simp only [List.append_nil]; rw [den_at, show t.pre.drop n = (t.shorten n).pre from rfl, den_at]; rfl
    | cons c r => rw [den_below, show t.pre.drop n = (t.shorten n).pre from rfl, den_below]; rfl
  · rw [den_out (t.shorten n) k (fun r e => hk ⟨r, e⟩), den_out]
    intro r e
    apply hk
    refine ⟨r, ?_⟩
    have : t.pre.take n ++ k = t.pre.take n ++ (t.pre.drop n ++ r) := by
      rw [← List.append_assoc, List.take_append_drop]; exact e
    exact List.append_cancel_left this

omit [TransOrd K] [LawfulEqOrd K] [DecidableEq K] in
theorem dropEmptyKids_kids {t : Tree K V} (h : Valid t) : Kids t.dropEmptyKids.kids := h.kids.sublist List.filter_sublist

theorem findBy_filter {ks : List (Tree K V)} (h : AscendingBy hd ks) (q : Tree K V → Bool) (k : Option K) :
    findBy hd (ks.filter q) k = (findBy hd ks k).filter q := by
  cases hf : findBy hd ks k with
  | none =>
    rw [findBy_none] at hf
    simp only [Option.filter_none, findBy_none]
    intro x hx
    exact hf x (List.mem_filter.1 hx).1
  | some x =>
    have hx := findBy_some_mem hf
    cases hq : q x with
    | true =>
      simp only [Option.filter, hq, ↓reduceIte]
      rw [(h.sublist List.filter_sublist).findBy_eq_some]
      exact ⟨List.mem_filter.2 ⟨hx.1, hq⟩, hx.2⟩
    | false =>
      simp only [Option.filter, hq]
      rw [if_neg (by simp), findBy_none]
      intro y hy e
      have := h.eq_of_mem hx.1 (List.mem_filter.1 hy).1 (cmp_eq_trans hx.2 (cmp_symm e))
      subst this
      simp [hq] at hy

theorem dropEmptyKids_den {t : Tree K V} (h : Valid t) (k : List K) : den t.dropEmptyKids k = den t k := by
  by_cases hk : ∃ r, k = t.pre ++ r
  · obtain ⟨r, rfl⟩ := hk
    have hp : t.dropEmptyKids.pre = t.pre := rfl
    cases r with
    | nil =>
      simp only [List.append_nil]
      have := den_at t.dropEmptyKids
      rw [hp] at this
      rw [this, den_at]; rfl
    | cons c r =>
      have := den_below t.dropEmptyKids c r
      rw [hp] at this
      rw [this, den_below, denL_eq (dropEmptyKids_kids h), denL_eq h.kids]
      show (findBy hd (t.kids.filter _) _).bind _ = _
      rw [findBy_filter h.kids.asc]
      cases hf : findBy hd t.kids (some c) with
      | none => rfl
      | some x =>
        by_cases he : x.isEmpty
        · simp [Option.filter, he, den_empty_none he]
        · simp [Option.filter, he]
  · rw [den_out _ _ (fun r e => hk ⟨r, e⟩), den_out]
    intro r e; exact hk ⟨r, e⟩

omit [Ord K] [TransOrd K] [LawfulEqOrd K] [DecidableEq K] in
theorem prepend_of_nonempty {t : Tree K V} (h : t.isEmpty = false) (p : List K) : t.prepend p = { t with pre := p ++ t.pre } := by
  unfold prepend
  cases p with
  | nil => cases t; simp
  | cons x p => simp [h]

theorem prepend_den {t : Tree K V} (p : List K) (h : t.isEmpty = false) (k : List K) : den (t.prepend p) (p ++ k) = den t k := by
  rw [prepend_of_nonempty h]
  have := shorten_den ({ t with pre := p ++ t.pre } : Tree K V) p.length (by simp) k
  simp only [shorten, List.drop_left, List.take_left] at this
  cases t
  exact this.symm

/-- the value of a one-child node under a key -/
theorem den_only {p : List K} {c : Tree K V} (hc : c.pre ≠ []) (hv : Valid c) (k : List K) :
    den ⟨p, none, [c]⟩ (p ++ k) = den c k := by
  cases k with
  | nil =>
    have := den_at ⟨p, none, [c]⟩
    simp only at this
    rw [List.append_nil, this, den_out c]
    intro r e
    obtain ⟨c', r', hp⟩ := head?_some_of_ne hc
    rw [hp] at e; simp at e
  | cons x k =>
    have := den_below ⟨p, none, [c]⟩ x k
    simp only at this
    rw [this]
    simp [denL]

theorem mergeOnlyChild_den {t : Tree K V} (h : Valid t) (hne : ∀ c ∈ t.kids, c.isEmpty = false) (k : List K) :
    den t.mergeOnlyChild k = den t k := by
  obtain ⟨p, v, ks⟩ := t
  unfold mergeOnlyChild
  split
  · next c hk hv =>
    simp only at hk hv
    subst hk hv
    have hcv := h.kids.valid c (by simp)
    have hcn := h.kids.ne c (by simp)
    have hce := hne c (by simp)
    by_cases hk : ∃ r, k = p ++ r
    · obtain ⟨r, rfl⟩ := hk
      rw [prepend_den p hce, den_only hcn hcv]
    · rw [den_out (⟨p, none, [c]⟩ : Tree K V) k (fun r e => hk ⟨r, e⟩), prepend_of_nonempty hce, den_out]
      intro r e
      exact hk ⟨c.pre ++ r, by simpa using e⟩
  · rfl

omit [TransOrd K] [LawfulEqOrd K] [DecidableEq K] in
theorem Valid.prepend {t : Tree K V} (h : Valid t) (p : List K) : Valid (t.prepend p) := by
  unfold Tree.prepend
  split
  · exact h.setPre _
  · exact h

omit [TransOrd K] [LawfulEqOrd K] [DecidableEq K] in
theorem Valid.mergeOnlyChild {t : Tree K V} (h : Valid t) : Valid t.mergeOnlyChild := by
  unfold Tree.mergeOnlyChild
  split
  · next c hk hv => exact (h.kids.valid c (by simp [hk])).prepend _
  · exact h

omit [TransOrd K] [LawfulEqOrd K] [DecidableEq K] in
theorem Valid.dropEmptyKids {t : Tree K V} (h : Valid t) : Valid t.dropEmptyKids := valid_iff.2 (dropEmptyKids_kids h)

omit [TransOrd K] [LawfulEqOrd K] [DecidableEq K] in
theorem Valid.unsplit {t : Tree K V} (h : Valid t) : Valid t.unsplit := by
  unfold Tree.unsplit Tree.clearEmptyPrefix
  split
  · exact h.dropEmptyKids.mergeOnlyChild.setPre _
  · exact h.dropEmptyKids.mergeOnlyChild

omit [Ord K] [TransOrd K] [LawfulEqOrd K] [DecidableEq K] in
theorem mem_dropEmptyKids {t c : Tree K V} (h : c ∈ t.dropEmptyKids.kids) : c.isEmpty = false := by
  have := (List.mem_filter.1 h).2
  simpa using this

omit [Ord K] [TransOrd K] [LawfulEqOrd K] [DecidableEq K] in
theorem isEmpty_iff {t : Tree K V} : t.isEmpty = true ↔ t.val = none ∧ t.kids = [] := by simp [isEmpty]

theorem unsplit_den {t : Tree K V} (h : Valid t) (k : List K) : den t.unsplit k = den t k := by
  have e : den t.dropEmptyKids.mergeOnlyChild k = den t k := by
    rw [mergeOnlyChild_den h.dropEmptyKids (fun c hc => mem_dropEmptyKids hc), dropEmptyKids_den h]
  unfold unsplit clearEmptyPrefix
  split
  · next he =>
    rw [den_empty_none he] at e
    rw [← e]
    have he := isEmpty_iff.1 he
    apply den_empty_none
    rw [isEmpty_iff]
    exact he
  · exact e

omit [Ord K] [TransOrd K] [LawfulEqOrd K] [DecidableEq K] in
/-- the result keeps the leading part of the prefix -/
theorem unsplit_pre {t : Tree K V} (h : t.unsplit.isEmpty = false) : ∃ r, t.unsplit.pre = t.pre ++ r := by
  have e : ∃ r, t.dropEmptyKids.mergeOnlyChild.pre = t.pre ++ r := by
    unfold mergeOnlyChild
    split
    · next c hk hv =>
      rw [prepend_of_nonempty (mem_dropEmptyKids (t := t) (by simp [hk]))]
      exact ⟨c.pre, rfl⟩
    · exact ⟨[], by simp [dropEmptyKids]⟩
  unfold unsplit clearEmptyPrefix at h ⊢
  split at h
  · next he => rw [isEmpty_iff] at he; simp [isEmpty, he] at h
  · next he => rw [if_neg he]; exact e

omit [Ord K] [TransOrd K] [LawfulEqOrd K] [DecidableEq K] in
theorem unsplit_empty {t : Tree K V} (h : t.unsplit.isEmpty = true) : t.unsplit = empty := by
  unfold unsplit clearEmptyPrefix at h ⊢
  split at h
  · next he =>
    rw [if_pos he]
    rw [isEmpty_iff] at he
    simp [he, empty]
  · next he => exact absurd h he

omit [Ord K] [TransOrd K] [LawfulEqOrd K] [DecidableEq K] in
theorem Full.nonempty {t : Tree K V} (h : Full t) : t.isEmpty = false := by
  obtain ⟨h1, h2⟩ := h
  next p v ks =>
  cases hv : v with
  | some v => simp [isEmpty]
  | none =>
    have := h1 hv
    cases ks with
    | nil => simp at this
    | cons c ks => simp [isEmpty]

omit [Ord K] [TransOrd K] [LawfulEqOrd K] [DecidableEq K] in
theorem full_iff {t : Tree K V} : Full t ↔ (t.val = none → 2 ≤ t.kids.length) ∧ ∀ c ∈ t.kids, Full c := by
  constructor
  · rintro ⟨h1, h2⟩; exact ⟨h1, h2⟩
  · obtain ⟨p, v, ks⟩ := t; intro ⟨h1, h2⟩; exact .mk h1 h2

omit [Ord K] [TransOrd K] [LawfulEqOrd K] [DecidableEq K] in
theorem Full.setPre {t : Tree K V} (h : Full t) (p : List K) : Full { t with pre := p } := by
  have := full_iff.1 h
  exact full_iff.2 ⟨this.1, this.2⟩

omit [Ord K] [TransOrd K] [LawfulEqOrd K] [DecidableEq K] in
theorem dropEmptyKids_of_full {t : Tree K V} (h : ∀ c ∈ t.kids, Full c) : t.dropEmptyKids = t := by
  obtain ⟨p, v, ks⟩ := t
  simp only [dropEmptyKids, Tree.mk.injEq, true_and]
  rw [List.filter_eq_self]
  intro c hc
  simp [(h c hc).nonempty]

omit [Ord K] [TransOrd K] [LawfulEqOrd K] [DecidableEq K] in
theorem unsplit_of_full {t : Tree K V} (h : Full t) : t.unsplit = t := by
  have h' := full_iff.1 h
  unfold unsplit
  rw [dropEmptyKids_of_full h'.2]
  have : t.mergeOnlyChild = t := by
    unfold mergeOnlyChild
    split
    · next c hk hv => have := h'.1 hv; rw [hk] at this; simp at this
    · rfl
  rw [this, clearEmptyPrefix, if_neg (by simp [h.nonempty])]

omit [Ord K] [TransOrd K] [LawfulEqOrd K] [DecidableEq K] in
/-- `unsplit` canonicalises a node with canonical children -/
theorem unsplit_full {t : Tree K V} (h : ∀ c ∈ t.kids, Full c) : t.unsplit = empty ∨ Full t.unsplit := by
  cases he : t.unsplit.isEmpty with
  | true => exact .inl (unsplit_empty he)
  | false =>
    right
    unfold unsplit at he ⊢
    rw [dropEmptyKids_of_full h] at he ⊢
    have key : t.mergeOnlyChild.isEmpty = true ∨ Full t.mergeOnlyChild := by
      unfold mergeOnlyChild
      split
      · next c hk hv =>
        right
        have hc := h c (by simp [hk])
        rw [prepend_of_nonempty hc.nonempty]
        exact hc.setPre _
      · next hne =>
        cases hk : t.kids with
        | nil =>
          cases hv : t.val with
          | none => left; simp [isEmpty, hk, hv]
          | some v => right; exact full_iff.2 ⟨by simp [hv], h⟩
        | cons c ks =>
          right
          refine full_iff.2 ⟨fun hv => ?_, h⟩
          cases ks with
          | nil => exact (hne c hk hv).elim
          | cons d ks => simp [hk]
    rcases key with hk | hk
    · rw [clearEmptyPrefix, if_pos hk] at he
      rw [isEmpty_iff] at hk
      simp [isEmpty, hk] at he
    · rw [clearEmptyPrefix, if_neg (by simp [hk.nonempty])]
      exact hk

/-! ### materialize -/

omit [TransOrd K] [LawfulEqOrd K] [DecidableEq K] in
theorem materialize_spec : ∀ (m : Nat) (t : Tree K V), t.size ≤ m → Valid t → ∀ n, n < t.pre.length →
    t.materializeShortened n = .ret (t.shorten n) := by
  intro m
  induction m with
  | zero => intro t hs; obtain ⟨p, v, ks⟩ := t; simp [size] at hs
  | succ m ih =>
    intro t hs hv n hn
    have hks : ∀ (l : List (Tree K V)), (∀ c ∈ l, c ∈ t.kids) → materializeKids l = .ret l := by
      intro l
      induction l with
      | nil => intro _; rfl
      | cons c l ihl =>
        intro hl
        have hc := hl c (by simp)
        have hne := hv.kids.ne c hc
        have := ih c (by have := kid_size hc; omega) (hv.kids.valid c hc) 0 (by
          cases hp : c.pre with
          | nil => exact absurd hp hne
          | cons => simp)
        rw [materializeKids, this]
        simp only
        rw [ihl (fun x hx => hl x (by simp [hx]))]
        cases c; simp [shorten]
    obtain ⟨p, v, ks⟩ := t
    simp only at hn
    have := hks ks (fun c hc => hc)
    simp [materializeShortened, hn, this, shorten]

omit [TransOrd K] [LawfulEqOrd K] [DecidableEq K] in
theorem materializeShortened_eq {t : Tree K V} (h : Valid t) {n : Nat} (hn : n < t.pre.length) :
    t.materializeShortened n = .ret (t.shorten n) := materialize_spec _ t (Nat.le_refl _) h n hn

omit [TransOrd K] [LawfulEqOrd K] [DecidableEq K] in
theorem materialize_eq {t : Tree K V} (h : Valid t) (hp : t.pre ≠ []) : t.materialize = .ret t := by
  unfold materialize
  rw [materializeShortened_eq h (by cases hp' : t.pre with
    | nil => exact absurd hp' hp
    | cons => simp)]
  cases t; simp [shorten]

omit [TransOrd K] [LawfulEqOrd K] [DecidableEq K] in
theorem materializeKids_eq {ks : List (Tree K V)} (h : Kids ks) : materializeKids ks = .ret ks := by
  induction ks with
  | nil => rfl
  | cons c ks ih =>
    have := materialize_eq (h.valid c (by simp)) (h.ne c (by simp))
    unfold materialize at this
    rw [materializeKids, this]
    simp only
    rw [ih (h.sublist (List.sublist_cons_self ..))]

omit [TransOrd K] [LawfulEqOrd K] in
theorem Valid.shorten {t : Tree K V} (h : Valid t) (n : Nat) : Valid (t.shorten n) := h.setPre _

end valid
end Tree
end Verif
