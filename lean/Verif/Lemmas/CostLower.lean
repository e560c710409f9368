import Verif.Spec.Merging
/-!
# How many comparisons merging needs at all

For `n ≤ m`, each of the `n` elements may have any of `m / n + 1` places among the next `m / n` of the `m` elements. A program that merges must tell all these cases apart.
-/
namespace Verif.Merging

/-! ### Few comparisons tell few inputs apart -/

theorem length_split {α : Type} (f : α → Bool) : ∀ l : List α, l.length = (l.filter f).length + (l.filter fun x => !f x).length
  | [] => rfl
  | x :: l => by
    have := length_split f l
    cases h : f x <;> simp [h] <;> omega

theorem tell_apart {R : Type} {n m : Nat} : ∀ (p : Program R) (k : Nat) (L : List (List Nat × List Nat)), (∀ x ∈ L, Inputs n m x.1 x.2 ∧ p.comparisons x.1 x.2 ≤ k) →
    L.Pairwise (fun x y => p.says x.1 x.2 ≠ p.says y.1 y.2) → L.length ≤ 2 ^ k := by
  intro p
  induction p with
  | done r =>
    intro k L _ hd
    have hk : 1 ≤ 2 ^ k := Nat.one_le_two_pow
    match L, hd with
    | [], _ => exact Nat.zero_le _
    | [x], _ => exact hk
    | x :: y :: L, hd => exact absurd rfl ((List.pairwise_cons.1 hd).1 y (by simp))
  | ask i j next ih =>
    intro k L hL hd
    cases k with
    | zero =>
      cases L with
      | nil => exact Nat.zero_le _
      | cons x L =>
        have h := (hL x (by simp)).2
        unfold Program.comparisons at h
        omega
    | succ k =>
      have part : ∀ (o : Ordering) (L' : List (List Nat × List Nat)), L'.Sublist L → (∀ x ∈ L', outcome x.1 x.2 i j = o) → L'.length ≤ 2 ^ k := by
        intro o L' hs ho
        refine ih o k L' (fun x hx => ⟨(hL x (hs.subset hx)).1, ?_⟩) ?_
        · have h := (hL x (hs.subset hx)).2
          unfold Program.comparisons at h
          rw [ho x hx] at h
          omega
        · refine (hd.sublist hs).imp_of_mem fun {x y} hx hy h => ?_
          unfold Program.says at h
          rwa [ho x hx, ho y hy] at h
      by_cases hr : i < n ∧ j < m
      · have h1 := part .lt (L.filter fun x => outcome x.1 x.2 i j == .lt) List.filter_sublist (fun x hx => by
          simpa using (List.mem_filter.1 hx).2)
        have h2 := part .gt (L.filter fun x => !(outcome x.1 x.2 i j == .lt)) List.filter_sublist (fun x hx => by
          obtain ⟨hx, hn⟩ := List.mem_filter.1 hx
          obtain ⟨hi, _⟩ := hL x hx
          have e1 : x.1[i]? = some (x.1[i]'(by rw [hi.left]; exact hr.1)) := List.getElem?_eq_getElem _
          have e2 : x.2[j]? = some (x.2[j]'(by rw [hi.right]; exact hr.2)) := List.getElem?_eq_getElem _
          unfold outcome at hn ⊢
          rw [e1, e2] at hn ⊢
          simp only at hn ⊢
          cases hc : compare (x.1[i]'(by rw [hi.left]; exact hr.1)) (x.2[j]'(by rw [hi.right]; exact hr.2)) with
          | lt => rw [hc] at hn; exact absurd hn (by decide)
          | gt => rfl
          | eq =>
            have := Nat.compare_eq_eq.1 hc
            exact absurd (by rw [this]; exact List.getElem_mem _) (hi.apart _ (List.getElem_mem (by rw [hi.left]; exact hr.1))))
        have := length_split (fun x : List Nat × List Nat => outcome x.1 x.2 i j == .lt) L
        rw [Nat.pow_succ]
        omega
      · have h := part .eq L (List.Sublist.refl _) (fun x hx => by
          obtain ⟨hi, _⟩ := hL x hx
          unfold outcome
          by_cases h1 : i < n
          · have : x.2[j]? = none := List.getElem?_eq_none (by rw [hi.right]; omega)
            rw [this]
            cases x.1[i]? <;> rfl
          · have : x.1[i]? = none := List.getElem?_eq_none (by rw [hi.left]; omega)
            rw [this])
        rw [Nat.pow_succ]
        omega

/-! ### The result of a merge tells where the elements of the first sequence are -/

theorem ordered {a b l : List Nat} {r : List (Nat ⊕ Nat)} (he : r.map (element a b) = l.map some) (hl : l.Pairwise (· < ·)) {i j u v x y : Nat}
    (hu : r[u]? = some (.inl i)) (hv : r[v]? = some (.inr j)) (hx : a[i]? = some x) (hy : b[j]? = some y) (h : x < y) : u < v := by
  have g : ∀ (w : Nat) (q : Nat ⊕ Nat) (z : Nat), r[w]? = some q → element a b q = some z → l[w]? = some z := by
    intro w q z hw hz
    have := congrArg (fun l => l[w]?) he
    simp only [List.getElem?_map, hw, Option.map_some, hz] at this
    cases hlw : l[w]? with
    | none => rw [hlw] at this; cases this
    | some z' => rw [hlw] at this; cases this; rfl
  have hlu := g u _ x hu hx
  have hlv := g v _ y hv hy
  obtain ⟨lu, eu⟩ := List.getElem?_eq_some_iff.1 hlu
  obtain ⟨lv, ev⟩ := List.getElem?_eq_some_iff.1 hlv
  rcases Nat.lt_trichotomy u v with c | c | c
  · exact c
  · subst c; omega
  · have := List.pairwise_iff_getElem.1 hl v u lv lu c
    omega

theorem ordered' {a b l : List Nat} {r : List (Nat ⊕ Nat)} (he : r.map (element a b) = l.map some) (hl : l.Pairwise (· < ·)) {i j u v x y : Nat}
    (hu : r[u]? = some (.inl i)) (hv : r[v]? = some (.inr j)) (hx : a[i]? = some x) (hy : b[j]? = some y) (h : y < x) : v < u := by
  have g : ∀ (w : Nat) (q : Nat ⊕ Nat) (z : Nat), r[w]? = some q → element a b q = some z → l[w]? = some z := by
    intro w q z hw hz
    have := congrArg (fun l => l[w]?) he
    simp only [List.getElem?_map, hw, Option.map_some, hz] at this
    cases hlw : l[w]? with
    | none => rw [hlw] at this; cases this
    | some z' => rw [hlw] at this; cases this; rfl
  have hlu := g u _ x hu hx
  have hlv := g v _ y hv hy
  obtain ⟨lu, eu⟩ := List.getElem?_eq_some_iff.1 hlu
  obtain ⟨lv, ev⟩ := List.getElem?_eq_some_iff.1 hlv
  rcases Nat.lt_trichotomy u v with c | c | c
  · have := List.pairwise_iff_getElem.1 hl u v lu lv c
    omega
  · subst c; omega
  · exact c

theorem inj_of_asc {a : List Nat} (h : a.Pairwise (· < ·)) {i j x : Nat} (hi : a[i]? = some x) (hj : a[j]? = some x) : i = j := by
  obtain ⟨li, ei⟩ := List.getElem?_eq_some_iff.1 hi
  obtain ⟨lj, ej⟩ := List.getElem?_eq_some_iff.1 hj
  rcases Nat.lt_trichotomy i j with c | c | c
  · have := List.pairwise_iff_getElem.1 h i j li lj c; omega
  · exact c
  · have := List.pairwise_iff_getElem.1 h j i lj li c; omega

/-- both elements are named -/
theorem named {n m : Nat} {a b : List Nat} (hi : Inputs n m a b) {r : List (Nat ⊕ Nat)} (hs : Sorted a b r) {i j x y : Nat} (hx : a[i]? = some x) (hy : b[j]? = some y) :
    (∃ u : Nat, r[u]? = some (.inl i)) ∧ ∃ v : Nat, r[v]? = some (.inr j) := by
  obtain ⟨l, he, _, hm⟩ := hs
  have find : ∀ z, z ∈ l → ∃ (w : Nat) (q : Nat ⊕ Nat), r[w]? = some q ∧ element a b q = some z := by
    intro z hz
    obtain ⟨w, lw, ew⟩ := List.mem_iff_getElem.1 hz
    have := congrArg (fun l => l[w]?) he
    simp only [List.getElem?_map, List.getElem?_eq_getElem lw, ew, Option.map_some] at this
    cases hrw : r[w]? with
    | none => rw [hrw] at this; cases this
    | some q => rw [hrw] at this; exact ⟨w, q, hrw, by simpa using this⟩
  have mx : x ∈ a := List.mem_of_getElem? hx
  have my : y ∈ b := List.mem_of_getElem? hy
  constructor
  · obtain ⟨w, q, h1, h2⟩ := find x ((hm x).2 (.inl mx))
    cases q with
    | inl i' => exact ⟨w, by rw [h1, inj_of_asc hi.asc hx h2]⟩
    | inr j' => exact absurd (List.mem_of_getElem? h2) (hi.apart x mx)
  · obtain ⟨w, q, h1, h2⟩ := find y ((hm y).2 (.inr my))
    cases q with
    | inr j' => exact ⟨w, by rw [h1, inj_of_asc hi.asc' hy h2]⟩
    | inl j' => exact absurd my (hi.apart y (List.mem_of_getElem? h2))

/-- If the same result is right for two inputs, the elements compare alike in both. -/
theorem alike {n m : Nat} {a b a' b' : List Nat} (hi : Inputs n m a b) {r : List (Nat ⊕ Nat)} (hs : Sorted a b r) (hs' : Sorted a' b' r) {i j x y x' y' : Nat}
    (hx : a[i]? = some x) (hy : b[j]? = some y) (hx' : a'[i]? = some x') (hy' : b'[j]? = some y') (h : x < y) : ¬ y' < x' := by
  intro h'
  obtain ⟨⟨u, hu⟩, ⟨v, hv⟩⟩ := named hi hs hx hy
  obtain ⟨l, he, hl, _⟩ := hs
  obtain ⟨l', he', hl', _⟩ := hs'
  have h1 := ordered he hl hu hv hx hy h
  have h2 := ordered' he' hl' hu hv hx' hy' h'
  omega

/-! ### Many inputs -/

/-- all lists of `n` numbers up to `q` -/
def digits (q : Nat) : Nat → List (List Nat)
  | 0 => [[]]
  | n + 1 => (List.range (q + 1)).flatMap fun d => (digits q n).map (d :: ·)

theorem digits_length (q : Nat) : ∀ n, (digits q n).length = (q + 1) ^ n
  | 0 => rfl
  | n + 1 => by
    have sum : ∀ (c : Nat) (l : List Nat), (l.map fun _ => c).sum = l.length * c := by
      intro c l
      induction l with
      | nil => simp
      | cons x l ih => rw [List.map_cons, List.sum_cons, ih, List.length_cons, Nat.succ_mul, Nat.add_comm]
    simp only [digits, List.length_flatMap, List.length_map, digits_length q n]
    rw [sum, List.length_range, Nat.pow_succ, Nat.mul_comm]

theorem mem_digits {q : Nat} : ∀ {n : Nat} {l : List Nat}, l ∈ digits q n → l.length = n ∧ ∀ d ∈ l, d ≤ q
  | 0, l, h => by
    simp only [digits, List.mem_singleton] at h
    subst h
    exact ⟨rfl, nofun⟩
  | n + 1, l, h => by
    simp only [digits, List.mem_flatMap, List.mem_map, List.mem_range] at h
    obtain ⟨d, hd, l', hl', rfl⟩ := h
    obtain ⟨h1, h2⟩ := mem_digits hl'
    refine ⟨by simp [h1], fun x hx => ?_⟩
    rcases List.mem_cons.1 hx with rfl | hx
    · omega
    · exact h2 x hx

theorem digits_distinct (q : Nat) : ∀ n, (digits q n).Pairwise (· ≠ ·)
  | 0 => List.pairwise_singleton _ _
  | n + 1 => by
    unfold digits
    rw [List.pairwise_flatMap]
    refine ⟨fun d _ => ?_, ?_⟩
    · rw [List.pairwise_map]
      exact (digits_distinct q n).imp fun h e => h (List.cons.inj e).2
    · refine List.Pairwise.imp ?_ List.nodup_range
      intro d d' hd x hx y hy e
      obtain ⟨_, _, rfl⟩ := List.mem_map.1 hx
      obtain ⟨_, _, rfl⟩ := List.mem_map.1 hy
      exact hd (List.cons.inj e).1

/-- the short input: its `i`-th element comes after `i * q + l[i]` of the elements of the long one -/
def short (q c : Nat) : Nat → List Nat → List Nat
  | _, [] => []
  | i, d :: l => (c * (i * q + d) + i + 1) :: short q c (i + 1) l

/-- the long input -/
def long (c m : Nat) : List Nat := (List.range m).map fun j => c * (j + 1)

theorem short_length (q c : Nat) : ∀ (i : Nat) (l : List Nat), (short q c i l).length = l.length
  | _, [] => rfl
  | i, d :: l => by simp [short, short_length q c (i + 1) l]

theorem short_get (q c : Nat) : ∀ (i : Nat) (l : List Nat) (k d : Nat), l[k]? = some d → (short q c i l)[k]? = some (c * ((i + k) * q + d) + (i + k) + 1)
  | _, [], k, d, h => by simp at h
  | i, e :: l, 0, d, h => by
    simp only [List.getElem?_cons_zero, Option.some.injEq] at h
    simp [short, h]
  | i, e :: l, k + 1, d, h => by
    have := short_get q c (i + 1) l k d (by simpa using h)
    simp only [short, List.getElem?_cons_succ, this]
    rw [show i + 1 + k = i + (k + 1) by omega]

theorem short_asc (q c : Nat) : ∀ (i : Nat) (l : List Nat), (∀ d ∈ l, d ≤ q) → (short q c i l).Pairwise (· < ·) ∧ ∀ x ∈ short q c i l, c * (i * q) + i < x
  | _, [], _ => ⟨List.Pairwise.nil, nofun⟩
  | i, d :: l, h => by
    obtain ⟨h1, h2⟩ := short_asc q c (i + 1) l fun x hx => h x (List.mem_cons_of_mem _ hx)
    have hd := h d (by simp)
    have e : (i + 1) * q = i * q + q := Nat.succ_mul ..
    have e1 : c * (i * q + d) = c * (i * q) + c * d := Nat.mul_add ..
    have e2 : c * (i * q + q) = c * (i * q) + c * q := Nat.mul_add ..
    have e3 : c * d ≤ c * q := Nat.mul_le_mul_left _ hd
    rw [e] at h2
    refine ⟨List.pairwise_cons.2 ⟨fun x hx => ?_, h1⟩, fun x hx => ?_⟩
    · have := h2 x hx
      omega
    · rcases List.mem_cons.1 hx with rfl | hx
      · omega
      · have := h2 x hx
        omega

/-- no element is a multiple of `c` -/
theorem short_mod (q c : Nat) : ∀ (i : Nat) (l : List Nat), i + l.length < c → ∀ x ∈ short q c i l, x % c ≠ 0
  | _, [], _, x, hx => by cases hx
  | i, d :: l, h, x, hx => by
    rw [List.length_cons] at h
    rcases List.mem_cons.1 hx with rfl | hx
    · rw [Nat.add_assoc, Nat.mul_add_mod, Nat.mod_eq_of_lt (by omega)]
      omega
    · exact short_mod q c (i + 1) l (by omega) x hx

theorem inputs {q n m : Nat} {l : List Nat} (hl : l ∈ digits q n) : Inputs n m (short q (n + 1) 0 l) (long (n + 1) m) := by
  obtain ⟨h1, h2⟩ := mem_digits hl
  refine ⟨by rw [short_length, h1], by simp [long], (short_asc q (n + 1) 0 l h2).1, ?_, fun x hx hm => ?_⟩
  · unfold long
    rw [List.pairwise_map]
    refine List.Pairwise.imp ?_ List.pairwise_lt_range
    intro a b h
    exact Nat.mul_lt_mul_of_pos_left (by omega) (by omega)
  · obtain ⟨j, _, rfl⟩ := List.mem_map.1 hm
    exact short_mod q (n + 1) 0 l (by omega) _ hx (Nat.mul_mod_right ..)

/-- different digits need different results -/
theorem differ {q n m : Nat} (hq : n * q ≤ m) {l l' : List Nat} (hl : l ∈ digits q n) (hl' : l' ∈ digits q n) (hne : l ≠ l') {r : List (Nat ⊕ Nat)}
    (hs : Sorted (short q (n + 1) 0 l) (long (n + 1) m) r) (hs' : Sorted (short q (n + 1) 0 l') (long (n + 1) m) r) : False := by
  obtain ⟨h1, h2⟩ := mem_digits hl
  obtain ⟨h1', h2'⟩ := mem_digits hl'
  have main : ∀ {l l' : List Nat}, l ∈ digits q n → l' ∈ digits q n → Sorted (short q (n + 1) 0 l) (long (n + 1) m) r → Sorted (short q (n + 1) 0 l') (long (n + 1) m) r →
      ∀ i d d' : Nat, l[i]? = some d → l'[i]? = some d' → ¬ d < d' := by
    intro l l' hl hl' hs hs' i d d' hd hd' hlt
    obtain ⟨h1, h2⟩ := mem_digits hl
    obtain ⟨h1', h2'⟩ := mem_digits hl'
    obtain ⟨li, _⟩ := List.getElem?_eq_some_iff.1 hd
    have g := short_get q (n + 1) 0 l i d hd
    have g' := short_get q (n + 1) 0 l' i d' hd'
    rw [Nat.zero_add] at g g'
    have hd'q := h2' d' (List.mem_of_getElem? hd')
    have hiq : (i + 1) * q ≤ n * q := Nat.mul_le_mul_right _ (by omega)
    have e : (i + 1) * q = i * q + q := Nat.succ_mul ..
    have gl : (long (n + 1) m)[i * q + d]? = some ((n + 1) * (i * q + d + 1)) := by
      unfold long
      rw [List.getElem?_map, List.getElem?_range (by omega)]
      rfl
    refine alike (inputs hl) hs hs' g gl g' gl ?_ ?_
    · rw [Nat.mul_add (n + 1) (i * q + d) 1]
      omega
    · have : (n + 1) * (i * q + d + 1) ≤ (n + 1) * (i * q + d') := Nat.mul_le_mul_left _ (by omega)
      omega
  apply hne
  apply List.ext_getElem?
  intro i
  by_cases hi : i < n
  · have e := List.getElem?_eq_getElem (show i < l.length by omega)
    have e' := List.getElem?_eq_getElem (show i < l'.length by omega)
    rw [e, e']
    have c1 := main hl hl' hs hs' i _ _ e e'
    have c2 := main hl' hl hs' hs i _ _ e' e
    congr 1
    omega
  · rw [List.getElem?_eq_none (by omega), List.getElem?_eq_none (by omega)]

/-- Merging `n` with `m` elements: on some input the program makes `k` comparisons with `(q + 1) ^ n ≤ 2 ^ k`. -/
theorem lower {q n m : Nat} (hq : n * q ≤ m) (p : Program (List (Nat ⊕ Nat))) (hp : Merges n m p) (k : Nat) (hk : ∀ a b, Inputs n m a b → p.comparisons a b ≤ k) :
    (q + 1) ^ n ≤ 2 ^ k := by
  have h := tell_apart (n := n) (m := m) p k ((digits q n).map fun l => (short q (n + 1) 0 l, long (n + 1) m))
    (fun x hx => by
      obtain ⟨l, hl, rfl⟩ := List.mem_map.1 hx
      exact ⟨inputs hl, hk _ _ (inputs hl)⟩)
    (by
      rw [List.pairwise_map]
      refine (digits_distinct q n).imp_of_mem fun {l l'} hl hl' hne e => ?_
      have s := hp _ _ (inputs (m := m) hl)
      have s' := hp _ _ (inputs (m := m) hl')
      simp only at e
      rw [← e] at s'
      exact differ hq hl hl' hne s s')
  rw [List.length_map, digits_length] at h
  exact h

/-! ### The other way round -/

/-- the program for the inputs in the other order -/
def Program.flip : Program (List (Nat ⊕ Nat)) → Program (List (Nat ⊕ Nat))
  | .done r => .done (r.map Sum.swap)
  | .ask i j next => .ask j i fun o => (next o.swap).flip

theorem outcome_swap (a b : List Nat) (i j : Nat) : (outcome b a j i).swap = outcome a b i j := by
  unfold outcome
  cases a[i]? <;> cases b[j]? <;> try rfl
  exact Nat.compare_swap _ _

theorem flip_says (a b : List Nat) : ∀ p, (Program.flip p).says b a = (p.says a b).map Sum.swap ∧ (Program.flip p).comparisons b a = p.comparisons a b
  | .done r => ⟨rfl, rfl⟩
  | .ask i j next => by
    have := flip_says a b (next (outcome a b i j))
    unfold Program.flip Program.says Program.comparisons
    simp only [outcome_swap]
    exact ⟨this.1, congrArg (· + 1) this.2⟩

theorem Inputs.flip {n m : Nat} {a b : List Nat} (h : Inputs n m a b) : Inputs m n b a := ⟨h.right, h.left, h.asc', h.asc, fun x hx hy => h.apart x hy hx⟩

theorem Merges.flip {n m : Nat} {p : Program (List (Nat ⊕ Nat))} (h : Merges n m p) : Merges m n p.flip := by
  intro b a hi
  rw [(flip_says a b p).1]
  obtain ⟨l, h1, h2, h3⟩ := h a b hi.flip
  refine ⟨l, ?_, h2, fun x => (h3 x).trans Or.comm⟩
  rw [List.map_map, ← h1]
  refine List.map_congr_left fun x _ => ?_
  cases x <;> rfl

end Verif.Merging
