import Verif.Lemmas.RadixPrefixLog
import Verif.Lemmas.RadixDepth
/-! What the prefix operations do, for predicates with side effects. -/
namespace Verif
namespace Tree
open Std

section basics
variable {K V W S : Type _}

/-- `k` is a prefix of the path to a node -/
def OnWay (t : Tree K V) (k : List K) : Prop := ∃ r, NodeBy t (k ++ r)
/-- the entries of siblings -/
def EL (ks : List (Tree K V)) (k : List K) (v : V) : Prop := ∃ c ∈ ks, Entry c k v
/-- the paths of siblings -/
def OL (ks : List (Tree K V)) (k : List K) : Prop := ∃ c ∈ ks, OnWay c k
/-- what is kept: with `ret` what is below a selected key, otherwise what is not -/
def Surv (ret : Bool) (log : List ((List K × W) × Bool)) (k : List K) : Prop := Under log k ↔ ret = true

theorem nodeBy_iff {p : List K} {v : Option V} {ks : List (Tree K V)} {k : List K} :
    NodeBy ⟨p, v, ks⟩ k ↔ k = p ∨ ∃ c ∈ ks, ∃ k1, k = p ++ k1 ∧ NodeBy c k1 := by
  constructor
  · intro h
    cases h with
    | here => exact .inl rfl
    | there h1 h2 => exact .inr ⟨_, h1, _, rfl, h2⟩
  · rintro (rfl | ⟨c, h1, k1, rfl, h2⟩)
    · exact .here
    · exact .there h1 h2

theorem nodeBy_pre {t : Tree K V} {k : List K} (h : NodeBy t k) : ∃ r, k = t.pre ++ r := by
  cases h with
  | here => exact ⟨[], by simp⟩
  | there _ _ => exact ⟨_, rfl⟩

theorem entry_el {p : List K} {tv : Option V} {ks : List (Tree K V)} {k : List K} {v : V} :
    Entry ⟨p, tv, ks⟩ k v ↔ (k = p ∧ tv = some v) ∨ ∃ k1, k = p ++ k1 ∧ EL ks k1 v := by
  rw [entry_node_iff]
  constructor
  · rintro (h | ⟨c, hc, k1, h1, h2⟩)
    · exact .inl h
    · exact .inr ⟨k1, h1, c, hc, h2⟩
  · rintro (h | ⟨k1, h1, c, hc, h2⟩)
    · exact .inl h
    · exact .inr ⟨c, hc, k1, h1, h2⟩

theorem onWay_self (t : Tree K V) : OnWay t t.pre := ⟨[], by obtain ⟨p, v, ks⟩ := t; rw [List.append_nil]; exact .here⟩

/-- paths below the node -/
theorem onWay_below {p : List K} {v : Option V} {ks : List (Tree K V)} {x : K} {r : List K} :
    OnWay ⟨p, v, ks⟩ (p ++ x :: r) ↔ OL ks (x :: r) := by
  constructor
  · rintro ⟨s, h⟩
    rcases nodeBy_iff.1 h with h | ⟨c, hc, k1, h1, h2⟩
    · have := congrArg List.length h
      simp at this
    · rw [List.append_assoc, List.append_cancel_left_eq] at h1
      exact ⟨c, hc, s, by rwa [h1]⟩
  · rintro ⟨c, hc, s, h⟩
    exact ⟨s, nodeBy_iff.2 (.inr ⟨c, hc, x :: r ++ s, by simp, h⟩)⟩

/-- splitting a node does not change what is on a path -/
theorem onWay_split (t : Tree K V) (n : Nat) (v : Option V) (k : List K) :
    OnWay ⟨t.pre.take n, v, [t.shorten n]⟩ k ↔ OnWay t k := by
  obtain ⟨p, tv, ks⟩ := t
  simp only [shorten]
  constructor
  · rintro ⟨r, h⟩
    rcases nodeBy_iff.1 h with h | ⟨c, hc, k1, h1, h2⟩
    · refine ⟨r ++ p.drop n, nodeBy_iff.2 (.inl ?_)⟩
      rw [← List.append_assoc, h, List.take_append_drop]
    · simp only [List.mem_singleton] at hc
      subst hc
      rcases nodeBy_iff.1 h2 with h2 | ⟨c, hc, k2, h3, h4⟩
      · refine ⟨r, nodeBy_iff.2 (.inl ?_)⟩
        rw [h1, h2, List.take_append_drop]
      · refine ⟨r, nodeBy_iff.2 (.inr ⟨c, hc, k2, ?_, h4⟩)⟩
        rw [h1, h3, ← List.append_assoc, List.take_append_drop]
  · rintro ⟨r, h⟩
    refine ⟨r, nodeBy_iff.2 (.inr ⟨_, List.mem_singleton.2 rfl, ?_⟩)⟩
    rcases nodeBy_iff.1 h with h | ⟨c, hc, k1, h1, h2⟩
    · exact ⟨p.drop n, by rw [h, List.take_append_drop], nodeBy_iff.2 (.inl rfl)⟩
    · exact ⟨p.drop n ++ k1, by rw [h1, ← List.append_assoc, List.take_append_drop], nodeBy_iff.2 (.inr ⟨c, hc, k1, rfl, h2⟩)⟩

theorem entry_splitNode (t : Tree K V) (n : Nat) (k : List K) (v : V) : Entry ⟨t.pre.take n, none, [t.shorten n]⟩ k v ↔ Entry t k v := by
  obtain ⟨p, tv, ks⟩ := t
  simp only [shorten]
  rw [entry_node_iff, entry_node_iff]
  simp only [reduceCtorEq, and_false, false_or, List.mem_singleton, exists_eq_left, entry_node_iff]
  constructor
  · rintro ⟨k1, rfl, ⟨rfl, h⟩ | ⟨c, hc, k2, rfl, h⟩⟩
    · exact .inl ⟨List.take_append_drop .., h⟩
    · exact .inr ⟨c, hc, k2, by rw [← List.append_assoc, List.take_append_drop], h⟩
  · rintro (⟨rfl, h⟩ | ⟨c, hc, k2, rfl, h⟩)
    · exact ⟨k.drop n, (List.take_append_drop ..).symm, .inl ⟨rfl, h⟩⟩
    · exact ⟨p.drop n ++ k2, by rw [← List.append_assoc, List.take_append_drop], .inr ⟨c, hc, k2, rfl, h⟩⟩

theorem el_cons {t : Tree K V} {ks : List (Tree K V)} {k : List K} {v : V} : EL (t :: ks) k v ↔ Entry t k v ∨ EL ks k v := by simp [EL]
theorem ol_cons {t : Tree K V} {ks : List (Tree K V)} {k : List K} : OL (t :: ks) k ↔ OnWay t k ∨ OL ks k := by simp [OL]
theorem not_el_nil {k : List K} {v : V} : ¬ EL ([] : List (Tree K V)) k v := by simp [EL]
theorem not_ol_nil {k : List K} : ¬ OL ([] : List (Tree K V)) k := by simp [OL]

theorem el_append {ks ks' : List (Tree K V)} {k : List K} {v : V} : EL (ks ++ ks') k v ↔ EL ks k v ∨ EL ks' k v := by
  simp only [EL, List.mem_append]
  constructor
  · rintro ⟨c, hc | hc, h⟩
    · exact .inl ⟨c, hc, h⟩
    · exact .inr ⟨c, hc, h⟩
  · rintro (⟨c, hc, h⟩ | ⟨c, hc, h⟩)
    · exact ⟨c, .inl hc, h⟩
    · exact ⟨c, .inr hc, h⟩

variable [Ord K]

omit [Ord K] in
theorem entry_hd {c : Tree K V} (hn : c.pre ≠ []) {k : List K} {v : V} (h : Entry c k v) : ∃ x r, hd c = some x ∧ k = x :: r := by
  obtain ⟨r, rfl⟩ := entry_pre h
  obtain ⟨x, xs, hx⟩ := List.exists_cons_of_ne_nil hn
  exact ⟨x, xs ++ r, by simp [hd, hx], by simp [hx]⟩

omit [Ord K] in
theorem onWay_hd {c : Tree K V} (hn : c.pre ≠ []) {k : List K} (hk : k ≠ []) (h : OnWay c k) : ∃ x r, hd c = some x ∧ k = x :: r := by
  obtain ⟨s, h⟩ := h
  obtain ⟨r, hr⟩ := nodeBy_pre h
  obtain ⟨x, xs, hx⟩ := List.exists_cons_of_ne_nil hn
  cases k with
  | nil => exact absurd rfl hk
  | cons y k =>
    rw [hx] at hr
    simp only [List.cons_append, List.cons.injEq] at hr
    exact ⟨x, k, by simp [hd, hx], by rw [hr.1]⟩

/-- the entries of `bs` that are on a path of `as` -/
def QL (as : List (Tree K V)) (bs : List (Tree K W)) (k : List K) (w : W) : Prop := EL bs k w ∧ OL as k
/-- the entries of `b` that are on a path of `a` -/
def QT (a : Tree K V) (b : Tree K W) (k : List K) (w : W) : Prop := Entry b k w ∧ OnWay a k

theorem QL.head {as : List (Tree K V)} {bs : List (Tree K W)} (kb : Kids bs) {k : List K} {w : W} (h : QL as bs k w) :
    ∃ y ∈ bs, ∃ x r, hd y = some x ∧ k = x :: r := by
  obtain ⟨⟨y, hy, he⟩, _⟩ := h
  exact ⟨y, hy, entry_hd (kb.ne y hy) he⟩

theorem QL.head_a {as : List (Tree K V)} {bs : List (Tree K W)} (ka : Kids as) (kb : Kids bs) {k : List K} {w : W} (h : QL as bs k w) :
    ∃ y ∈ as, ∃ x r, hd y = some x ∧ k = x :: r := by
  obtain ⟨_, _, x, r, _, e⟩ := h.head kb
  obtain ⟨_, y, hy, ho⟩ := h
  exact ⟨y, hy, onWay_hd (ka.ne y hy) (by simp [e]) ho⟩

/-- what a run on two trees does -/
structure RunP (ret : Bool) (f : PredE S W) (a : Tree K V) (b : Tree K W) (c : S) (r : (Tree K V × S) × Flow)
    (log : List ((List K × W) × Bool)) (pan : Option (List K × W)) : Prop where
  lg : LogOk (QT a b) f c log pan r.1.2
  fl : r.2 = if pan.isSome then .panic else .cont
  valid : Valid r.1.1
  pre : pan = none → r.1.1.isEmpty = false → ∀ x, hd a = some x → hd b = some x → hd r.1.1 = some x
  full : pan = none → a = empty ∨ Full a → r.1.1 = empty ∨ Full r.1.1
  done : pan = none → ∀ k v, Entry r.1.1 k v ↔ Entry a k v ∧ Surv ret log k
  cut : ∀ q, pan = some q →
    (log = [] ∧ r.1.1 = a ∧ ∀ k, HasEntry a k ∨ HasEntry b k → k = q.1 ∨ LexLt q.1 k) ∨
    ∃ p x s, q.1 = p ++ x :: s ∧ (∀ k, HasEntry a k ∨ HasEntry b k → ∃ s, k = p ++ s) ∧
      (Full a → Full b → ∃ k, (HasEntry a k ∨ HasEntry b k) ∧ ∀ s, k ≠ p ++ x :: s) ∧
      ∀ k v, Entry r.1.1 k v ↔ (Entry a k v ∧ Surv ret log k) ∧ LexLt k q.1 ∧ ∀ s, k ≠ p ++ x :: s

/-- what a merge of siblings does -/
structure RunL (ret : Bool) (f : PredE S W) (as : List (Tree K V)) (bs : List (Tree K W)) (c : S) (out : List (Tree K V)) (fl : Flow) (c' : S)
    (log : List ((List K × W) × Bool)) (pan : Option (List K × W)) : Prop where
  lg : LogOk (QL as bs) f c log pan c'
  fl : fl = if pan.isSome then .panic else .cont
  kids : Kids out
  heads : ∀ z ∈ out, ∃ x ∈ as, hd z = hd x
  full : (∀ x ∈ as, Full x) → ∀ z ∈ out, Full z
  content : ∀ k v, EL out k v ↔ EL as k v ∧ Surv ret log k ∧ ∀ q, pan = some q → HL k q.1

theorem surv_nil {ret : Bool} {k : List K} : Surv ret ([] : List ((List K × W) × Bool)) k ↔ ret = false := by
  simp only [Surv, not_under_nil, false_iff]
  cases ret <;> simp

variable [TransOrd K] [LawfulEqOrd K]

theorem Kids.cons {t : Tree K V} {ks : List (Tree K V)} (hv : Valid t) (hn : t.pre ≠ []) (hk : Kids ks)
    (hl : ∀ c ∈ ks, compare (hd t) (hd c) = .lt) : Kids (t :: ks) where
  ne c hc := by exact (List.mem_cons.1 hc).elim (fun e => by rw [e]; exact hn) (hk.ne c)
  asc := ascendingBy_cons.2 ⟨hl, hk.asc⟩
  valid c hc := by exact (List.mem_cons.1 hc).elim (fun e => by rw [e]; exact hv) (hk.valid c)

theorem HL.irrefl {k : List K} (h : HL k k) : False := (h.not_prefix (r := [])).1 (by simp)

theorem el_hd {ks : List (Tree K V)} (hk : Kids ks) {k : List K} {v : V} (h : EL ks k v) : ∃ c ∈ ks, ∃ x r, hd c = some x ∧ k = x :: r := by
  obtain ⟨c, hc, h⟩ := h
  exact ⟨c, hc, entry_hd (hk.ne c hc) h⟩

omit [TransOrd K] [LawfulEqOrd K] in
theorem ol_hd {ks : List (Tree K V)} (hk : Kids ks) {k : List K} (hn : k ≠ []) (h : OL ks k) : ∃ c ∈ ks, ∃ x r, hd c = some x ∧ k = x :: r := by
  obtain ⟨c, hc, h⟩ := h
  exact ⟨c, hc, onWay_hd (hk.ne c hc) hn h⟩

omit [TransOrd K] [LawfulEqOrd K] in
theorem hl_of_hd {k k' : List K} {x y : K} {r s : List K} {a b : Option K} (ha : a = some x) (hb : b = some y) (h : compare a b = .lt)
    (hk : k = x :: r) (hk' : k' = y :: s) : HL k k' := by
  subst ha hb
  exact ⟨x, r, y, s, hk, hk', h⟩

/-- an entry of a tree whose head no selected key has -/
theorem not_under_of_heads {log : List ((List K × W) × Bool)} {k : List K} {x : K} {r : List K} (hk : k = x :: r)
    (h : ∀ p w, ((p, w), true) ∈ log → ∃ y s, p = y :: s ∧ y ≠ x) : ¬ Under log k := by
  rintro ⟨p, t, w, e, hm⟩
  obtain ⟨y, s, rfl, hy⟩ := h p w hm
  rw [hk] at e
  simp only [List.cons_append, List.cons.injEq] at e
  exact hy e.1.symm

omit [TransOrd K] [LawfulEqOrd K] in
theorem not_under_hd {log : List ((List K × W) × Bool)} {Q : List K → W → Prop} {f : PredE S W} {c c' : S} {pan : Option (List K × W)}
    (lg : LogOk Q f c log pan c') {k : List K} (hq : ∀ p w, Q p w → HL k p ∨ HL p k) [TransOrd K] [LawfulEqOrd K] : ¬ Under log k := by
  rintro ⟨p, t, w, e, hm⟩
  rcases hq p w (lg.of_log hm) with h | h
  · exact h.not_prefix.2 e
  · exact h.not_prefix.1 e

theorem ga_kids {ret : Bool} {a : Tree K V} {as out : List (Tree K V)} (ka : Kids (a :: as)) (ko : Kids out) (hh : ∀ z ∈ out, ∃ x ∈ as, hd z = hd x)
    {t : Tree K V} (hv : Valid t) (hd' : hd t = hd a) : Kids (t :: out) := by
  refine ko.cons hv ?_ ?_
  · intro e
    have := ka.ne a (by simp)
    rw [hd, e] at hd'
    obtain ⟨x, xs, hx⟩ := List.exists_cons_of_ne_nil this
    rw [hd, hx] at hd'
    simp at hd'
  · intro z hz
    obtain ⟨x, hx, e⟩ := hh z hz
    rw [hd', e]
    exact (ascendingBy_cons.1 ka.asc).1 x hx

theorem ql_both {a : Tree K V} {as : List (Tree K V)} {b : Tree K W} {bs : List (Tree K W)} (ka : Kids (a :: as)) (kb : Kids (b :: bs))
    (h' : hd a = hd b) (k : List K) (w : W) : QL (a :: as) (b :: bs) k w ↔ QT a b k w ∨ QL as bs k w := by
  have sa := (ascendingBy_cons.1 ka.asc).1
  constructor
  · rintro ⟨h1, h2⟩
    rcases el_cons.1 h1 with h1 | h1
    · rcases ol_cons.1 h2 with h2 | h2
      · exact .inl ⟨h1, h2⟩
      · exfalso
        obtain ⟨x, r, e1, e2⟩ := entry_hd (kb.ne b (by simp)) h1
        obtain ⟨y, hy, z, s, e3, e4⟩ := ol_hd (ka.sublist (List.sublist_cons_self ..)) (by simp [e2]) h2
        have := hl_of_hd (h'.trans e1) e3 (sa y hy) e2 e4
        exact this.irrefl.elim
    · rcases ol_cons.1 h2 with h2 | h2
      · exfalso
        obtain ⟨y, hy, z, s, e3, e4⟩ := el_hd (kb.sublist (List.sublist_cons_self ..)) h1
        obtain ⟨x, r, e1, e2⟩ := onWay_hd (ka.ne a (by simp)) (by simp [e4]) h2
        have := hl_of_hd (h'.symm.trans e1) e3 ((ascendingBy_cons.1 kb.asc).1 y hy) e2 e4
        exact this.irrefl.elim
      · exact .inr ⟨h1, h2⟩
  · rintro (⟨h1, h2⟩ | ⟨h1, h2⟩)
    · exact ⟨el_cons.2 (.inl h1), ol_cons.2 (.inl h2)⟩
    · exact ⟨el_cons.2 (.inr h1), ol_cons.2 (.inr h2)⟩

/-- merging siblings -/
theorem join_run {ret : Bool} {f : PredE S W} {rec : Tree K V → Tree K W → S → (Tree K V × S) × Flow} (as : List (Tree K V)) (bs : List (Tree K W))
    (c : S) (ka : Kids as) (kb : Kids bs)
    (hrec : ∀ x ∈ as, ∀ y ∈ bs, hd x = hd y → ∀ c, ∃ log pan, RunP ret f x y c (rec x y c) log pan) :
    ∃ log pan, RunL ret f as bs c
      (joinE headCmp (fun x => if !ret then some x else none) (fun x y c => recEmitE (rec x y c)) as bs c).1.1
      (joinE headCmp (fun x => if !ret then some x else none) (fun x y c => recEmitE (rec x y c)) as bs c).1.2
      (joinE headCmp (fun x => if !ret then some x else none) (fun x y c => recEmitE (rec x y c)) as bs c).2 log pan := by
  fun_induction joinE headCmp (fun x => if !ret then some x else none) (fun x y c => recEmitE (rec x y c)) as bs c with
  | case1 bs c =>
    exact ⟨[], none, LogOk.quiet (fun k w h => not_ol_nil h.2), rfl, Kids.nil, by simp, by simp, fun k v => by simp [not_el_nil]⟩
  | case2 a as c =>
    refine ⟨[], none, LogOk.quiet (fun k w h => not_el_nil h.1), rfl, ?_, ?_, ?_, ?_⟩
    · cases ret with
      | true =>
        have : List.filterMap (fun x : Tree K V => if (!true) = true then some x else none) (a :: as) = [] := List.filterMap_eq_nil_iff.2 (by simp)
        rw [this]
        exact Kids.nil
      | false => simpa using ka
    · cases ret <;> simp
      intro x hx
      exact .inr ⟨x, hx, rfl⟩
    · cases ret <;> simp
    · intro k v
      rw [surv_nil]
      cases ret with
      | true => simp [EL]
      | false => simp
  | case3 a as b bs c h ih =>
    rw [headCmp_eq] at h
    have sa := (ascendingBy_cons.1 ka.asc).1
    have sb := (ascendingBy_cons.1 kb.asc).1
    have lt : ∀ y ∈ b :: bs, compare (hd a) (hd y) = .lt := by
      intro y hy
      rcases List.mem_cons.1 hy with rfl | hy
      · exact h
      · exact cmp_lt_trans h (sb y hy)
    obtain ⟨log, pan, R⟩ := ih (ka.sublist (List.sublist_cons_self ..)) kb fun x hx => hrec x (by simp [hx])
    have hq : ∀ k v, Entry a k v → ∀ p w, QL as (b :: bs) p w → HL k p := by
      intro k v he p w hp
      obtain ⟨x, r, e1, e2⟩ := entry_hd (ka.ne a (by simp)) he
      obtain ⟨y, hy, z, s, e3, e4⟩ := hp.head kb
      exact hl_of_hd e1 e3 (lt y hy) e2 e4
    refine ⟨log, pan, R.lg.congr ?_, R.fl, ?_, ?_, ?_, ?_⟩
    · intro k w
      constructor
      · rintro ⟨h1, h2⟩
        refine ⟨h1, ?_⟩
        rcases ol_cons.1 h2 with h2 | h2
        · obtain ⟨y, hy, z, s, e3, e4⟩ := el_hd kb h1
          obtain ⟨x, r, e1, e2⟩ := onWay_hd (ka.ne a (by simp)) (by simp [e4]) h2
          have := hl_of_hd e1 e3 (lt y hy) e2 e4
          exact this.irrefl.elim
        · exact h2
      · rintro ⟨h1, h2⟩
        exact ⟨h1, ol_cons.2 (.inr h2)⟩
    · cases ret with
      | true => exact R.kids
      | false => exact ga_kids (ret := false) ka R.kids R.heads (ka.valid a (by simp)) rfl
    · intro z hz
      rcases List.mem_append.1 hz with hz | hz
      · refine ⟨a, by simp, ?_⟩
        cases ret <;> simp at hz
        rw [hz]
      · obtain ⟨x, hx, e⟩ := R.heads z hz
        exact ⟨x, by simp [hx], e⟩
    · intro hf z hz
      rcases List.mem_append.1 hz with hz | hz
      · cases ret <;> simp at hz
        rw [hz]
        exact hf a (by simp)
      · exact R.full (fun x hx => hf x (by simp [hx])) z hz
    · intro k v
      rw [el_append, R.content, el_cons]
      constructor
      · rintro (hz | ⟨h1, h2, h3⟩)
        · cases ret with
          | true => simp [EL] at hz
          | false =>
            have he : Entry a k v := by simpa [EL] using hz
            refine ⟨.inl he, ?_, fun q hq' => hq k v he _ _ (R.lg.of_pan hq')⟩
            simp only [Surv, Bool.false_eq_true, iff_false]
            exact not_under_hd R.lg fun p w hp => .inl (hq k v he p w hp)
        · exact ⟨.inr h1, h2, h3⟩
      · rintro ⟨he | he, h2, h3⟩
        · left
          have := not_under_hd R.lg fun p w hp => .inl (hq k v he p w hp)
          cases ret with
          | true => exact absurd (h2.2 rfl) this
          | false => simpa [EL] using he
        · exact .inr ⟨he, h2, h3⟩
  | case4 a as b bs c h ih =>
    rw [headCmp_eq, cmp_gt_iff] at h
    have sa := (ascendingBy_cons.1 ka.asc).1
    have lt : ∀ x ∈ a :: as, compare (hd b) (hd x) = .lt := by
      intro x hx
      rcases List.mem_cons.1 hx with rfl | hx
      · exact h
      · exact cmp_lt_trans h (sa x hx)
    obtain ⟨log, pan, R⟩ := ih ka (kb.sublist (List.sublist_cons_self ..)) fun x hx y hy => hrec x hx y (by simp [hy])
    refine ⟨log, pan, R.lg.congr ?_, R.fl, R.kids, R.heads, R.full, R.content⟩
    intro k w
    constructor
    · rintro ⟨h1, h2⟩
      refine ⟨?_, h2⟩
      rcases el_cons.1 h1 with h1 | h1
      · obtain ⟨z, s, e3, e4⟩ := entry_hd (kb.ne b (by simp)) h1
        obtain ⟨x, hx, y, r, e1, e2⟩ := ol_hd ka (by simp [e4]) h2
        have := hl_of_hd e3 e1 (lt x hx) e4 e2
        exact this.irrefl.elim
      · exact h1
    · rintro ⟨h1, h2⟩
      exact ⟨el_cons.2 (.inr h1), h2⟩
  | case5 a as b bs c h hc ih =>
    have h' : hd a = hd b := by rw [headCmp_eq] at h; exact cmp_eq_iff.1 h
    obtain ⟨log1, pan1, P⟩ := hrec a (by simp) b (by simp) h' c
    obtain ⟨log2, pan2, R⟩ := ih (ka.sublist (List.sublist_cons_self ..)) (kb.sublist (List.sublist_cons_self ..))
      fun x hx y hy => hrec x (by simp [hx]) y (by simp [hy])
    have sa := (ascendingBy_cons.1 ka.asc).1
    have hfl : (rec a b c).2 = .cont := by
      simp only [recEmitE, recEmit] at hc
      cases hx : (rec a b c).2 with
      | cont => rfl
      | stop => rw [hx] at hc; cases hc
      | panic => rw [hx] at hc; cases hc
    have hp : pan1 = none := by
      have := P.fl
      rw [hfl] at this
      cases pan1 with
      | none => rfl
      | some q => cases this
    subst hp
    have em : recEmitE (rec a b c) = (((nonEmpty (rec a b c).1.1).toList, .cont), (rec a b c).1.2) := by
      simp only [recEmitE, recEmit, hfl, Emit.ret]
    rw [em] at R ⊢
    simp only at R ⊢
    have qt_hd : ∀ k w, QT a b k w → ∃ x r, hd a = some x ∧ k = x :: r := by
      intro k w hq
      rw [h']
      exact entry_hd (kb.ne b (by simp)) hq.1
    have ql_hd : ∀ k w, QL as bs k w → ∃ y ∈ as, ∃ x r, hd y = some x ∧ k = x :: r := fun k w hq =>
      hq.head_a (ka.sublist (List.sublist_cons_self ..)) (kb.sublist (List.sublist_cons_self ..))
    have cross : ∀ k w k' w', QT a b k w → QL as bs k' w' → HL k k' := by
      intro k w k' w' h1 h2
      obtain ⟨x, r, e1, e2⟩ := qt_hd k w h1
      obtain ⟨y, hy, z, s, e3, e4⟩ := ql_hd k' w' h2
      exact hl_of_hd e1 e3 (sa y hy) e2 e4
    have lg := P.lg.append R.lg cross
    have sur1 : ∀ k v, Entry a k v → (Under (log1 ++ log2) k ↔ Under log1 k) := by
      intro k v he
      obtain ⟨x, r, e1, e2⟩ := entry_hd (ka.ne a (by simp)) he
      rw [under_append, or_iff_left]
      refine not_under_hd R.lg fun p w hp => .inl ?_
      obtain ⟨y, hy, z, s, e3, e4⟩ := ql_hd p w hp
      exact hl_of_hd e1 e3 (sa y hy) e2 e4
    have sur2 : ∀ k v, EL as k v → (Under (log1 ++ log2) k ↔ Under log2 k) := by
      intro k v he
      obtain ⟨y, hy, z, s, e3, e4⟩ := el_hd (ka.sublist (List.sublist_cons_self ..)) he
      rw [under_append, or_iff_right]
      refine not_under_hd P.lg fun p w hp => .inr ?_
      obtain ⟨x, r, e1, e2⟩ := qt_hd p w hp
      exact hl_of_hd e1 e3 (sa y hy) e2 e4
    refine ⟨log1 ++ log2, pan2, lg.congr ?_, R.fl, ?_, ?_, ?_, ?_⟩
    · exact ql_both ka kb h'
    · cases he : (rec a b c).1.1.isEmpty with
      | true => simpa [nonEmpty, he] using R.kids
      | false =>
        simp only [nonEmpty, he, Bool.false_eq_true, ↓reduceIte, Option.toList_some, List.singleton_append]
        obtain ⟨x, xs, hx⟩ := List.exists_cons_of_ne_nil (ka.ne a (by simp))
        have e1 : hd a = some x := by simp [hd, hx]
        exact ga_kids (ret := ret) ka R.kids R.heads P.valid ((P.pre rfl he x e1 (h'.symm.trans e1)).trans e1.symm)
    · intro z hz
      rcases List.mem_append.1 hz with hz | hz
      · refine ⟨a, by simp, ?_⟩
        cases he : (rec a b c).1.1.isEmpty with
        | true => simp [nonEmpty, he] at hz
        | false =>
          simp [nonEmpty, he] at hz
          subst hz
          obtain ⟨x, xs, hx⟩ := List.exists_cons_of_ne_nil (ka.ne a (by simp))
          have e1 : hd a = some x := by simp [hd, hx]
          exact (P.pre rfl he x e1 (h'.symm.trans e1)).trans e1.symm
      · obtain ⟨x, hx, e⟩ := R.heads z hz
        exact ⟨x, by simp [hx], e⟩
    · intro hf z hz
      rcases List.mem_append.1 hz with hz | hz
      · cases he : (rec a b c).1.1.isEmpty with
        | true => simp [nonEmpty, he] at hz
        | false =>
          simp [nonEmpty, he] at hz
          subst hz
          rcases P.full rfl (.inr (hf a (by simp))) with e | e
          · rw [e] at he; cases he
          · exact e
      · exact R.full (fun x hx => hf x (by simp [hx])) z hz
    · intro k v
      have ht : EL (nonEmpty (rec a b c).1.1).toList k v ↔ Entry (rec a b c).1.1 k v := by
        cases he : (rec a b c).1.1.isEmpty with
        | true =>
          obtain ⟨g1, g2⟩ := isEmpty_iff.1 he
          simp only [nonEmpty, he, ↓reduceIte, Option.toList_none, not_el_nil, false_iff]
          intro hx
          rw [tree_eta (rec a b c).1.1, g1, g2] at hx
          rcases entry_el.1 hx with ⟨_, h⟩ | ⟨_, _, h⟩
          · cases h
          · exact not_el_nil h
        | false => simp [nonEmpty, he, EL]
      rw [el_append, ht, P.done rfl, R.content, el_cons]
      constructor
      · rintro (⟨h1, h2⟩ | ⟨h1, h2, h3⟩)
        · refine ⟨.inl h1, (sur1 k v h1).trans h2, ?_⟩
          intro q hq
          obtain ⟨x, r, e1, e2⟩ := entry_hd (ka.ne a (by simp)) h1
          obtain ⟨y, hy, z, s, e3, e4⟩ := ql_hd _ _ (R.lg.of_pan hq)
          exact hl_of_hd e1 e3 (sa y hy) e2 e4
        · exact ⟨.inr h1, (sur2 k v h1).trans h2, h3⟩
      · rintro ⟨h1 | h1, h2, h3⟩
        · exact .inl ⟨h1, (sur1 k v h1).symm.trans h2⟩
        · exact .inr ⟨h1, (sur2 k v h1).symm.trans h2, h3⟩
  | case6 a as b bs c h hc =>
    have h' : hd a = hd b := by rw [headCmp_eq] at h; exact cmp_eq_iff.1 h
    obtain ⟨log1, pan1, P⟩ := hrec a (by simp) b (by simp) h' c
    have sa := (ascendingBy_cons.1 ka.asc).1
    cases pan1 with
    | none =>
      exfalso
      have := P.fl
      simp only [Option.isSome_none, Bool.false_eq_true, ↓reduceIte] at this
      apply hc
      simp only [recEmitE, recEmit, this, Emit.ret]
    | some q =>
      have hfl : (rec a b c).2 = .panic := P.fl
      have em : recEmitE (rec a b c) = (([], .panic), (rec a b c).1.2) := by
        simp only [recEmitE, recEmit, hfl]
      rw [em]
      have cross : ∀ k w k' w', QT a b k w → QL as bs k' w' → HL k k' := by
        intro k w k' w' h1 h2
        obtain ⟨x, r, e1, e2⟩ := entry_hd (kb.ne b (by simp)) h1.1
        obtain ⟨y, hy, z, s, e3, e4⟩ := h2.head_a (ka.sublist (List.sublist_cons_self ..)) (kb.sublist (List.sublist_cons_self ..))
        exact hl_of_hd (h'.trans e1) e3 (sa y hy) e2 e4
      refine ⟨log1, some q, (P.lg.stop cross).congr ?_, rfl, Kids.nil, by simp, by simp, ?_⟩
      · exact ql_both ka kb h'
      · intro k v
        simp only [not_el_nil, false_iff]
        rintro ⟨h1, h2, h3⟩
        have h3 := h3 q rfl
        obtain ⟨x, r, e1, e2⟩ := entry_hd (kb.ne b (by simp)) (P.lg.of_pan rfl).1
        obtain ⟨y, hy, z, s, e3, e4⟩ := el_hd ka h1
        obtain ⟨u, _, v', _, e5, e6, e7⟩ := h3
        rw [e2] at e6
        rw [e4] at e5
        simp only [List.cons.injEq] at e5 e6
        rw [← e5.1, ← e6.1] at e7
        have e8 : compare (hd y) (hd a) = .lt := by rw [e3, h', e1]; exact e7
        rcases List.mem_cons.1 hy with rfl | hy
        · rw [cmp_self] at e8; cases e8
        · have := cmp_lt_trans e8 (sa y hy)
          rw [cmp_self] at this; cases this

end basics
end Tree
end Verif
