import Verif.Lemmas.RadixFind
/-! Iteration over radix trees. -/
namespace Verif
namespace Tree
open Std

section
variable {K V : Type _}

mutual
/-- the items below a node whose full key is `q` -/
def items (q : List K) : Tree K V → List (List K × V)
  | ⟨_, v, ks⟩ => v.toList.map (fun v => (q, v)) ++ itemsL q ks
def itemsL (q : List K) : List (Tree K V) → List (List K × V)
  | [] => []
  | c :: cs => items (q ++ c.pre) c ++ itemsL q cs
end

theorem items_eq (q : List K) (t : Tree K V) : items q t = t.val.toList.map (fun v => (q, v)) ++ itemsL q t.kids := by
  cases t; rfl

theorem iter_kids {n : Nat}
    (ih : ∀ (t : Tree K V), t.size ≤ n → ∀ q0 rest l, Yields Iter.turn ⟨q0, rest⟩ l →
      Yields Iter.turn ⟨q0 ++ t.pre, (t, 0) :: rest⟩ (items (q0 ++ t.pre) t ++ l))
    (t : Tree K V) (hs : t.size ≤ n + 1) (q0 : List K) (rest : List (Tree K V × Nat)) (l : List (List K × V))
    (hl : Yields Iter.turn ⟨q0, rest⟩ l) :
    ∀ m pos, pos + m = t.kids.length →
      Yields Iter.turn ⟨q0 ++ t.pre, (t, pos + 1) :: rest⟩ (itemsL (q0 ++ t.pre) (t.kids.drop pos) ++ l) := by
  intro m
  induction m with
  | zero =>
    intro pos hp
    rw [List.drop_of_length_le (by omega)]
    refine .again (s' := ⟨q0, rest⟩) ?_ (by simpa [itemsL] using hl)
    simp only [Iter.turn]
    rw [List.getElem?_eq_none (by omega)]
    simp
  | succ m ihm =>
    intro pos hp
    have hlt : pos < t.kids.length := by omega
    rw [List.drop_eq_getElem_cons hlt, itemsL, List.append_assoc]
    refine .again (s' := ⟨(q0 ++ t.pre) ++ t.kids[pos].pre, (t.kids[pos], 0) :: (t, pos + 1 + 1) :: rest⟩) ?_ ?_
    · simp only [Iter.turn]
      rw [List.getElem?_eq_getElem hlt]
    · have := kid_size (List.getElem_mem hlt)
      exact ih _ (by omega) _ _ _ (ihm (pos + 1) (by omega))

theorem iter_tree : ∀ n (t : Tree K V), t.size ≤ n → ∀ q0 rest l, Yields Iter.turn ⟨q0, rest⟩ l →
      Yields Iter.turn ⟨q0 ++ t.pre, (t, 0) :: rest⟩ (items (q0 ++ t.pre) t ++ l) := by
  intro n
  induction n with
  | zero => intro t hs; rw [size_eq] at hs; omega
  | succ n ih =>
    intro t hs q0 rest l hl
    have hk := iter_kids ih t hs q0 rest l hl t.kids.length 0 (by omega)
    simp only [List.drop_zero, Nat.zero_add] at hk
    rw [items_eq]
    cases hv : t.val with
    | none =>
      refine .again (s' := ⟨q0 ++ t.pre, (t, 1) :: rest⟩) (by simp [Iter.turn, hv]) ?_
      simpa using hk
    | some v =>
      refine .yield (s' := ⟨q0 ++ t.pre, (t, 1) :: rest⟩) (by simp [Iter.turn, hv]) ?_
      simpa using hk

theorem values_kids {n : Nat}
    (ih : ∀ (t : Tree K V), t.size ≤ n → ∀ q rest l, Yields Values.turn ⟨rest⟩ l →
      Yields Values.turn ⟨(t, 0) :: rest⟩ ((items q t).map Prod.snd ++ l))
    (t : Tree K V) (hs : t.size ≤ n + 1) (q : List K) (rest : List (Tree K V × Nat)) (l : List V)
    (hl : Yields Values.turn ⟨rest⟩ l) :
    ∀ m pos, pos + m = t.kids.length →
      Yields Values.turn ⟨(t, pos + 1) :: rest⟩ ((itemsL q (t.kids.drop pos)).map Prod.snd ++ l) := by
  intro m
  induction m with
  | zero =>
    intro pos hp
    rw [List.drop_of_length_le (by omega)]
    refine .again (s' := ⟨rest⟩) ?_ (by simpa [itemsL] using hl)
    simp only [Values.turn]
    rw [List.getElem?_eq_none (by omega)]
  | succ m ihm =>
    intro pos hp
    have hlt : pos < t.kids.length := by omega
    rw [List.drop_eq_getElem_cons hlt, itemsL, List.map_append, List.append_assoc]
    refine .again (s' := ⟨(t.kids[pos], 0) :: (t, pos + 1 + 1) :: rest⟩) ?_ ?_
    · simp only [Values.turn]
      rw [List.getElem?_eq_getElem hlt]
    · have := kid_size (List.getElem_mem hlt)
      exact ih _ (by omega) _ _ _ (ihm (pos + 1) (by omega))

theorem values_tree : ∀ n (t : Tree K V), t.size ≤ n → ∀ q rest l, Yields Values.turn ⟨rest⟩ l →
      Yields Values.turn ⟨(t, 0) :: rest⟩ ((items q t).map Prod.snd ++ l) := by
  intro n
  induction n with
  | zero => intro t hs; rw [size_eq] at hs; omega
  | succ n ih =>
    intro t hs q rest l hl
    have hk := values_kids ih t hs q rest l hl t.kids.length 0 (by omega)
    simp only [List.drop_zero, Nat.zero_add] at hk
    rw [items_eq]
    cases hv : t.val with
    | none =>
      refine .again (s' := ⟨(t, 1) :: rest⟩) (by simp [Values.turn, hv]) ?_
      simpa using hk
    | some v =>
      refine .yield (s' := ⟨(t, 1) :: rest⟩) (by simp [Values.turn, hv]) ?_
      simpa using hk

/-! ### Contents -/

theorem mem_itemsL {q : List K} {ks : List (Tree K V)} {e : List K × V} : e ∈ itemsL q ks ↔ ∃ c ∈ ks, e ∈ items (q ++ c.pre) c := by
  induction ks with
  | nil => simp [itemsL]
  | cons c ks ih => simp [itemsL, ih]

theorem entry_iff {t : Tree K V} {k : List K} {v : V} :
    Entry t k v ↔ (k = t.pre ∧ t.val = some v) ∨ ∃ c ∈ t.kids, ∃ k', k = t.pre ++ k' ∧ Entry c k' v := by
  constructor
  · intro h
    cases h with
    | here => exact .inl ⟨rfl, rfl⟩
    | there hc h => exact .inr ⟨_, hc, _, rfl, h⟩
  · obtain ⟨p, w, ks⟩ := t
    rintro (⟨rfl, h⟩ | ⟨c, hc, k', rfl, h⟩)
    · simp only at h; subst h; exact .here
    · exact .there hc h

theorem mem_items : ∀ n (t : Tree K V), t.size ≤ n → ∀ (q k : List K) (v : V),
    (k, v) ∈ items (q ++ t.pre) t ↔ ∃ k', k = q ++ k' ∧ Entry t k' v := by
  intro n
  induction n with
  | zero => intro t hs; rw [size_eq] at hs; omega
  | succ n ih =>
    intro t hs q k v
    rw [items_eq, List.mem_append, mem_itemsL]
    constructor
    · rintro (h | ⟨c, hc, h⟩)
      · simp at h
        exact ⟨t.pre, h.2.symm, entry_iff.2 (.inl ⟨rfl, h.1⟩)⟩
      · have := kid_size hc
        obtain ⟨k', rfl, he⟩ := (ih c (by omega) _ _ _).1 h
        exact ⟨t.pre ++ k', by simp, entry_iff.2 (.inr ⟨c, hc, k', rfl, he⟩)⟩
    · rintro ⟨k', rfl, he⟩
      rcases entry_iff.1 he with ⟨rfl, hv⟩ | ⟨c, hc, k'', rfl, he'⟩
      · left; simp [hv]
      · right
        have := kid_size hc
        exact ⟨c, hc, (ih c (by omega) _ _ _).2 ⟨k'', by simp, he'⟩⟩

/-! ### Order -/

variable [Ord K]

theorem LexLt.append {q a b : List K} (h : LexLt a b) : LexLt (q ++ a) (q ++ b) := by
  rcases h with ⟨c, r, rfl⟩ | ⟨p, x, y, r, s, rfl, rfl, h⟩
  · exact .inl ⟨c, r, by simp⟩
  · exact .inr ⟨q ++ p, x, y, r, s, by simp, by simp, h⟩

theorem entry_prefix {t : Tree K V} {k : List K} {v : V} (h : Entry t k v) : ∃ r, k = t.pre ++ r := by
  rcases entry_iff.1 h with ⟨rfl, _⟩ | ⟨_, _, k', rfl, _⟩
  · exact ⟨[], by simp⟩
  · exact ⟨k', rfl⟩

theorem items_sorted : ∀ n (t : Tree K V), t.size ≤ n → Valid t → ∀ q,
    (items (q ++ t.pre) t).Pairwise (fun x y => LexLt x.1 y.1) := by
  intro n
  induction n with
  | zero => intro t hs; rw [size_eq] at hs; omega
  | succ n ih =>
    intro t hs hv q
    have key : ∀ ks : List (Tree K V), Kids ks → (∀ c ∈ ks, c.size ≤ n) → ∀ q, (itemsL q ks).Pairwise (fun x y => LexLt x.1 y.1) := by
      intro ks
      induction ks with
      | nil => intro _ _ q; exact List.Pairwise.nil
      | cons c ks ihk =>
        intro hk hsz q
        rw [itemsL, List.pairwise_append]
        refine ⟨ih c (hsz c (by simp)) (hk.valid c (by simp)) q, ihk (hk.sublist (List.sublist_cons_self ..)) (fun x hx => hsz x (by simp [hx])) q, ?_⟩
        rintro ⟨k1, v1⟩ h1 ⟨k2, v2⟩ h2
        obtain ⟨k1', rfl, e1⟩ := (mem_items n c (hsz c (by simp)) q k1 v1).1 h1
        obtain ⟨d, hd', h2⟩ := mem_itemsL.1 h2
        obtain ⟨k2', rfl, e2⟩ := (mem_items n d (hsz d (by simp [hd'])) q k2 v2).1 h2
        have hlt := (ascendingBy_cons.1 hk.asc).1 d hd'
        obtain ⟨x, xs, hx⟩ := head?_some_of_ne (hk.ne c (by simp))
        obtain ⟨y, ys, hy⟩ := head?_some_of_ne (hk.ne d (by simp [hd']))
        obtain ⟨r, rfl⟩ := entry_prefix e1
        obtain ⟨s, rfl⟩ := entry_prefix e2
        refine LexLt.append (.inr ⟨[], x, y, xs ++ r, ys ++ s, by simp [hx], by simp [hy], ?_⟩)
        simp only [hd, hx, hy] at hlt
        exact hlt
    rw [items_eq, List.pairwise_append]
    refine ⟨?_, key t.kids hv.kids (fun c hc => by have := kid_size hc; omega) _, ?_⟩
    · cases t.val <;> simp
    · rintro ⟨k1, v1⟩ h1 ⟨k2, v2⟩ h2
      simp at h1
      obtain ⟨c, hc, h2⟩ := mem_itemsL.1 h2
      obtain ⟨k', rfl, e⟩ := (mem_items n c (by have := kid_size hc; omega) (q ++ t.pre) k2 v2).1 h2
      obtain ⟨r, rfl⟩ := entry_prefix e
      obtain ⟨x, xs, hx⟩ := head?_some_of_ne (hv.kids.ne c hc)
      exact .inl ⟨x, xs ++ r, by simp [hx, ← h1.2]⟩

theorem yields_nil (q : List K) : Yields Iter.turn (⟨q, []⟩ : Iter K V) [] := .done rfl

/-- iterating over a subtree whose full key is `q ++ t.pre` -/
theorem iter_new {t : Tree K V} (h : Valid t) (q : List K) :
    ∃ l, Yields Iter.turn (Iter.new t (q ++ t.pre)) l ∧ l.Pairwise (fun x y => LexLt x.1 y.1) ∧
      (∀ k v, (k, v) ∈ l ↔ ∃ k', k = q ++ k' ∧ Entry t k' v) ∧ Yields Values.turn t.values (l.map Prod.snd) := by
  refine ⟨items (q ++ t.pre) t, ?_, items_sorted _ t (Nat.le_refl _) h q, mem_items _ t (Nat.le_refl _) q, ?_⟩
  · have := iter_tree _ t (Nat.le_refl _) q [] [] (yields_nil q)
    simpa [Iter.new] using this
  · have := values_tree _ t (Nat.le_refl _) (q ++ t.pre) [] [] (.done rfl)
    simpa [values] using this

variable [TransOrd K] [LawfulEqOrd K] [DecidableEq K]

theorem scanPrefix_spec {t : Tree K V} (h : Valid t) (p : List K) : ∃ it, t.scanPrefix p = .ret it ∧ EnumeratesUnder it t p := by
  obtain ⟨r, hr, S⟩ := find_eq h p
  have S2 := S.shape
  rw [scanPrefix, hr]
  -- the entries of `t` under `p` are those of the subtree
  have key : ∀ (t' : Tree K V) (n : Nat) (q : List K), Valid t' → n ≤ t'.pre.length → p = q ++ t'.pre.take n →
      (∀ k, den t (p ++ k) = den (t'.shorten n) k) → EnumeratesUnder (Iter.new t' (p ++ t'.pre.drop n)) t p := by
    intro t' n q hv hn hp hd
    obtain ⟨l, h1, h2, h3, _⟩ := iter_new hv q
    have e : q ++ t'.pre = p ++ t'.pre.drop n := by rw [hp, List.append_assoc, List.take_append_drop]
    rw [e] at h1
    refine ⟨l, h1, h2, ?_⟩
    intro k v
    rw [h3]
    constructor
    · rintro ⟨k', rfl, he⟩
      obtain ⟨s, rfl⟩ := entry_prefix he
      have e2 : q ++ (t'.pre ++ s) = p ++ (t'.pre.drop n ++ s) := by rw [← List.append_assoc, e, List.append_assoc]
      refine ⟨(den_iff_entry h _ _).1 ?_, _, e2⟩
      rw [e2, hd, shorten_den t' n hn, ← List.append_assoc, List.take_append_drop]
      exact (den_iff_entry hv _ _).2 he
    · rintro ⟨he, s, rfl⟩
      have := (den_iff_entry h _ _).2 he
      rw [hd, shorten_den t' n hn] at this
      exact ⟨t'.pre.take n ++ s, by rw [hp]; simp, (den_iff_entry hv _ _).1 this⟩
  cases r with
  | found t' =>
    obtain ⟨q, hq⟩ := S2.2.2.2.2.2
    have := key t' t'.pre.length q S2.1 (Nat.le_refl _) (by simpa using hq) S.den
    simp only [List.drop_length, List.append_nil] at this
    exact ⟨_, rfl, this⟩
  | «prefix» t' rt =>
    obtain ⟨q, hq⟩ := S2.2.2.2.2.2
    exact ⟨_, rfl, key t' (t'.pre.length - rt) q S2.1 (by omega) hq S.den⟩
  | notFound c rp rt =>
    refine ⟨_, rfl, [], .done rfl, .nil, ?_⟩
    intro k v
    simp only [List.not_mem_nil, false_iff]
    rintro ⟨he, s, rfl⟩
    have := (den_iff_entry h _ _).2 he
    rw [S.den] at this
    simp [FindResult.sub, den_empty_none (t := (empty : Tree K V)) rfl] at this

end
end Tree
end Verif
