import Verif.Lemmas.CopyOnWriteFind
import Verif.Lemmas.CopyOnWriteOnce
import Verif.Lemmas.RadixAsks
import Verif.Lemmas.RadixDepth
import Verif.Spec.LazyIter
/-! How far an iteration has come, and what it has cost so far. -/
namespace Verif.Cow
open Verif.Tree (Turn Iter Values items itemsL Full Valid OnPath nodes Yields)
open Std

section
variable {K V : Type}

/-! ### The same iterators on plain trees -/

def plainStack (l : List (CTree K V × Nat)) : List (Tree K V × Nat) := l.map fun e => (e.1.plain, e.2)
def CIter.plain (s : CIter K V) : Iter K V := ⟨s.path, plainStack s.stack⟩
def CValues.plain (s : CValues K V) : Values K V := ⟨plainStack s.stack⟩

def mapTurn {σ τ ι : Type} (f : σ → τ) : Turn σ ι → Turn τ ι
  | .done => .done
  | .again s => .again (f s)
  | .yield x s => .yield x (f s)

theorem kid_plain (t : CTree K V) (i : Nat) : t.plain.kids[i]? = (t.load.res.kids[i]?).map CTree.plain := by
  rw [← load_plain t, plain_kids, List.getElem?_map]

theorem turn_plain (s : CIter K V) : mapTurn CIter.plain s.turn.res = Iter.turn s.plain := by
  obtain ⟨path, stack⟩ := s
  match stack with
  | [] => rfl
  | (t, 0) :: rest =>
    simp only [CIter.turn, CIter.plain, plainStack, List.map_cons, Iter.turn, plain_val]
    cases t.val <;> rfl
  | (t, pos + 1) :: rest =>
    simp only [CIter.turn, CIter.plain, plainStack, List.map_cons, Iter.turn, kid_plain, bind_res, plain_pre]
    cases t.load.res.kids[pos]? with
    | none =>
      have : t.load.res.pre = t.pre := by have := congrArg Tree.pre (load_plain t); simpa using this
      simp only [pure_res, mapTurn, CIter.plain, plainStack, Option.map_none, this]
    | some c => simp only [pure_res, mapTurn, CIter.plain, plainStack, Option.map_some, List.map_cons, load_plain, plain_pre]

theorem values_turn_plain (s : CValues K V) : mapTurn CValues.plain s.turn.res = Values.turn s.plain := by
  obtain ⟨stack⟩ := s
  match stack with
  | [] => rfl
  | (t, 0) :: rest =>
    simp only [CValues.turn, CValues.plain, plainStack, List.map_cons, Values.turn, plain_val]
    cases t.val <;> rfl
  | (t, pos + 1) :: rest =>
    simp only [CValues.turn, CValues.plain, plainStack, List.map_cons, Values.turn, kid_plain, bind_res]
    cases t.load.res.kids[pos]? with
    | none => rfl
    | some c => simp only [pure_res, mapTurn, CValues.plain, plainStack, Option.map_some, List.map_cons, load_plain]

section generic
variable {σ τ ι : Type} {turn : σ → Charged (Turn σ ι)} {pturn : τ → Turn τ ι} {f : σ → τ}

/-- a run yields the first items of the whole iteration -/
theorem Run.prefix_of (hf : ∀ s, mapTurn f (turn s).res = pturn (f s)) {s s' : σ} {n : Nat} {l all : List ι} {m : Mem} (h : Run turn s n l m s')
    (hy : Yields pturn (f s) all) : ∃ rest, all = l ++ rest ∧ Yields pturn (f s') rest := by
  induction h with
  | start => exact ⟨all, rfl, hy⟩
  | @again n l m s1 s2 _ ht ih =>
    obtain ⟨rest, e, hr⟩ := ih
    have hp := hf s1
    rw [ht] at hp
    refine ⟨rest, e, ?_⟩
    cases hr with
    | done h => rw [h] at hp; cases hp
    | again h hr => rw [h] at hp; cases hp; exact hr
    | yield h hr => rw [h] at hp; cases hp
  | @yield n l m s1 s2 x _ ht ih =>
    obtain ⟨rest, e, hr⟩ := ih
    have hp := hf s1
    rw [ht] at hp
    cases hr with
    | done h => rw [h] at hp; cases hp
    | again h hr => rw [h] at hp; cases hp
    | @yield _ _ y rest' h hr => rw [h] at hp; cases hp; exact ⟨rest', by rw [e, List.append_assoc]; rfl, hr⟩

theorem Run.after {s s1 s2 : σ} {n n' : Nat} {l l' : List ι} {m m' : Mem} (h : Run turn s n l m s1) (h' : Run turn s1 n' l' m' s2) :
    ∃ m'', Run turn s (n + n') (l ++ l') m'' s2 := by
  induction h' with
  | start => exact ⟨m, by rw [List.append_nil]; exact h⟩
  | again _ ht ih => obtain ⟨m2, ih⟩ := ih; exact ⟨_, .again ih ht⟩
  | yield _ ht ih => obtain ⟨m2, ih⟩ := ih; exact ⟨_, by rw [← List.append_assoc]; exact .yield ih ht⟩

/-- every beginning of the whole iteration is yielded by a run -/
theorem Run.reaches (hf : ∀ s, mapTurn f (turn s).res = pturn (f s)) {p : τ} {all : List ι} (hy : Yields pturn p all) :
    ∀ (s : σ), f s = p → ∀ l r, all = l ++ r → ∃ n m s', Run turn s n l m s' := by
  induction hy with
  | done _ =>
    intro s _ l r e
    obtain ⟨rfl, rfl⟩ := List.append_eq_nil_iff.1 e.symm
    exact ⟨0, _, s, .start⟩
  | again h _ ih =>
    intro s hs l r e
    have hp := hf s
    rw [hs, h] at hp
    cases ht : (turn s).res with
    | done => rw [ht] at hp; cases hp
    | yield x s1 => rw [ht] at hp; cases hp
    | again s1 =>
      rw [ht] at hp
      injection hp with hp
      obtain ⟨n, m, s', h'⟩ := ih s1 hp l r e
      obtain ⟨m', h''⟩ := Run.after (.again .start ht) h'
      exact ⟨_, m', s', h''⟩
  | @yield _ _ x all h _ ih =>
    intro s hs l r e
    cases l with
    | nil => exact ⟨0, _, s, .start⟩
    | cons y l =>
      rw [List.cons_append] at e
      injection e with e1 e2
      have hp := hf s
      rw [hs, h] at hp
      cases ht : (turn s).res with
      | done => rw [ht] at hp; cases hp
      | again s1 => rw [ht] at hp; cases hp
      | yield z s1 =>
        rw [ht] at hp
        injection hp with h1 h2
        obtain ⟨n, m, s', h'⟩ := ih s1 h2 l r e2
        obtain ⟨m', h''⟩ := Run.after (.yield .start ht) h'
        rw [List.nil_append, List.singleton_append, h1, e1] at h''
        exact ⟨_, m', s', h''⟩
end generic

/-- what an iteration over values does, an iteration over entries does -/
theorem values_as_iter {stack : List (CTree K V × Nat)} (path : List K) {n : Nat} {l : List V} {m : Mem} {s' : CValues K V} (h : Run CValues.turn ⟨stack⟩ n l m s') :
    ∃ path' l', Run CIter.turn ⟨path, stack⟩ n l' m ⟨path', s'.stack⟩ ∧ l'.map Prod.snd = l := by
  induction h with
  | start => exact ⟨path, [], .start, rfl⟩
  | @again n l m s1 s2 _ ht ih =>
    obtain ⟨path', l', h, hl⟩ := ih
    obtain ⟨stack1⟩ := s1
    match stack1, ht, h with
    | [], ht, _ => cases ht
    | (t, 0) :: rest, ht, h =>
      simp only [CValues.turn] at ht ⊢
      cases hv : t.val with
      | some v => rw [hv] at ht; cases ht
      | none =>
        rw [hv] at ht
        injection ht with ht
        subst ht
        have := Run.again h (s'' := ⟨path', (t, 1) :: rest⟩) (by simp only [CIter.turn, hv, pure_res])
        exact ⟨path', l', by simpa only [CIter.turn, hv, pure_mem] using this, hl⟩
    | (t, pos + 1) :: rest, ht, h =>
      simp only [CValues.turn, bind_res] at ht
      cases hk : t.load.res.kids[pos]? with
      | none =>
        rw [hk] at ht
        injection ht with ht
        subst ht
        have := Run.again h (s'' := ⟨path'.take (path'.length - t.load.res.pre.length), rest⟩) (by simp only [CIter.turn, bind_res, hk, pure_res])
        exact ⟨_, l', by simpa only [CIter.turn, CValues.turn, bind_mem, hk, pure_mem] using this, hl⟩
      | some c =>
        rw [hk] at ht
        injection ht with ht
        subst ht
        have := Run.again h (s'' := ⟨path' ++ c.pre, (c, 0) :: (t.load.res, pos + 2) :: rest⟩) (by simp only [CIter.turn, bind_res, hk, pure_res])
        exact ⟨_, l', by simpa only [CIter.turn, CValues.turn, bind_mem, hk, pure_mem] using this, hl⟩
  | @yield n l m s1 s2 x _ ht ih =>
    obtain ⟨path', l', h, hl⟩ := ih
    obtain ⟨stack1⟩ := s1
    match stack1, ht, h with
    | [], ht, _ => cases ht
    | (t, 0) :: rest, ht, h =>
      simp only [CValues.turn] at ht ⊢
      cases hv : t.val with
      | none => rw [hv] at ht; cases ht
      | some v =>
        rw [hv] at ht
        injection ht with ht1 ht
        subst ht ht1
        have := Run.yield h (x := (path', v)) (s'' := ⟨path', (t, 1) :: rest⟩) (by simp only [CIter.turn, hv, pure_res])
        exact ⟨path', _, by simpa only [CIter.turn, hv, pure_mem] using this, by rw [List.map_append, hl]; rfl⟩
    | (t, pos + 1) :: rest, ht, h =>
      simp only [CValues.turn, bind_res] at ht
      cases hk : t.load.res.kids[pos]? with
      | none => rw [hk] at ht; cases ht
      | some c => rw [hk] at ht; cases ht

/-! ### How far it has come -/

/-- the number of entries -/
def cnt (t : Tree K V) : Nat := (items [] t).length
def cntL (l : List (Tree K V)) : Nat := (itemsL [] l).length

theorem items_length (q : List K) (t : Tree K V) : (items q t).length = cnt t := by
  have := Tree.items_shift q [] t
  rw [List.append_nil] at this
  rw [this, List.length_map, cnt]

theorem cntL_cons (c : Tree K V) (l : List (Tree K V)) : cntL (c :: l) = cnt c + cntL l := by
  rw [cntL, itemsL, List.length_append, items_length, cntL]
theorem cntL_append (a b : List (Tree K V)) : cntL (a ++ b) = cntL a + cntL b := by
  induction a with
  | nil => exact (Nat.zero_add _).symm
  | cons x a ih => rw [List.cons_append, cntL_cons, cntL_cons, ih, Nat.add_assoc]
theorem cnt_eq (t : Tree K V) : cnt t = (if t.val.isSome then 1 else 0) + cntL t.kids := by
  rw [cnt, Tree.items_eq, List.length_append, cntL, List.length_map]
  cases t.val <;> rfl

theorem nodes_eq (t : Tree K V) : t.nodes = 1 + nodes.nodesL t.kids := by cases t; rfl
theorem nodesL_append (a b : List (Tree K V)) : nodes.nodesL (a ++ b) = nodes.nodesL a + nodes.nodesL b := by
  induction a with
  | nil => exact (Nat.zero_add _).symm
  | cons x a ih => rw [List.cons_append, nodes.nodesL, nodes.nodesL, ih, Nat.add_assoc]

/-- turns, loads and items due to a node on the stack and its children that are finished -/
def turnsAt (t : CTree K V) : Nat → Nat
  | 0 => 0
  | pos + 1 => 1 + 3 * nodes.nodesL (t.plain.kids.take pos)
def loadsAt (t : CTree K V) : Nat → Nat
  | 0 => 0
  | pos + 1 => (if t.held = .raw then 0 else 1) + nodes.nodesL (t.plain.kids.take pos)
def itemsAt (t : CTree K V) : Nat → Nat
  | 0 => 0
  | pos + 1 => (if t.val.isSome then 1 else 0) + cntL (t.plain.kids.take pos)

/-- the stack after `n` turns with `j` items and at most `l` loads -/
inductive Progress (root : Tree K V) : List (CTree K V × Nat) → Nat → Nat → Nat → Prop
  | root {t : CTree K V} {p : Nat} : t.plain = root → p ≤ t.plain.kids.length + 1 → Progress root [(t, p)] (turnsAt t p) (loadsAt t p) (itemsAt t p)
  | push {x c : CTree K V} {i p n l j : Nat} {rest : List (CTree K V × Nat)} :
      Progress root ((x, i + 1) :: rest) n l j → x.plain.kids[i]? = some c.plain → p ≤ c.plain.kids.length + 1 →
      Progress root ((c, p) :: (x, i + 2) :: rest) (n + 1 + turnsAt c p) (l + loadsAt c p) (j + itemsAt c p)
  | finished : Progress root [] (3 * root.nodes - 1) root.nodes (cnt root)

variable {root : Tree K V}

/-- the node on top at the beginning, at any other place -/
theorem Progress.first {c : CTree K V} {p n l j : Nat} {rest : List (CTree K V × Nat)} (h : Progress root ((c, p) :: rest) n l j) :
    ∃ n0 l0 j0, n = n0 + turnsAt c p ∧ l = l0 + loadsAt c p ∧ j = j0 + itemsAt c p ∧ p ≤ c.plain.kids.length + 1 ∧
      ∀ (c' : CTree K V) (p' : Nat), c'.plain = c.plain → p' ≤ c.plain.kids.length + 1 → Progress root ((c', p') :: rest) (n0 + turnsAt c' p') (l0 + loadsAt c' p') (j0 + itemsAt c' p') := by
  cases h with
  | root e hp =>
    refine ⟨0, 0, 0, (Nat.zero_add _).symm, (Nat.zero_add _).symm, (Nat.zero_add _).symm, hp, fun c' p' e' hp' => ?_⟩
    simp only [Nat.zero_add]
    exact .root (e'.trans e) (by rw [e']; exact hp')
  | push h hk hp =>
    exact ⟨_, _, _, rfl, rfl, rfl, hp, fun c' p' e' hp' => .push h (by rw [hk, e']) (by rw [e']; exact hp')⟩

theorem Progress.moved {root : Tree K V} {st : List (CTree K V × Nat)} {n l j n' l' j' : Nat} (h : Progress root st n l j) (e1 : n = n') (e2 : l = l') (e3 : j = j') :
    Progress root st n' l' j' := by subst e1 e2 e3; exact h

/-- a child has been finished -/
theorem Progress.bump {x : CTree K V} {c : Tree K V} {i n l j : Nat} {rest : List (CTree K V × Nat)} (h : Progress root ((x, i + 1) :: rest) n l j)
    (hc : x.plain.kids[i]? = some c) : Progress root ((x, i + 2) :: rest) (n + 3 * c.nodes) (l + c.nodes) (j + cnt c) := by
  obtain ⟨n0, l0, j0, rfl, rfl, rfl, hp, hall⟩ := h.first
  have hi : i < x.plain.kids.length := (List.getElem?_eq_some_iff.1 hc).1
  have ht : x.plain.kids.take (i + 1) = x.plain.kids.take i ++ [c] := by
    rw [List.take_add_one, hc]; rfl
  refine (hall x (i + 2) rfl (by omega)).moved ?_ ?_ ?_
  · simp only [turnsAt, ht, nodesL_append, nodes.nodesL]; omega
  · simp only [loadsAt, ht, nodesL_append, nodes.nodesL]; omega
  · simp only [itemsAt, ht, cntL_append]
    rw [show cntL [c] = cnt c by rw [cntL_cons]; rfl]
    omega

/-- loading the node on top -/
theorem Progress.load {x : CTree K V} {i n l j : Nat} {rest : List (CTree K V × Nat)} (h : Progress root ((x, i + 1) :: rest) n l j) :
    Progress root ((x.load.res, i + 1) :: rest) n (l + x.load.mem.loads) j := by
  obtain ⟨n0, l0, j0, rfl, rfl, rfl, hp, hall⟩ := h.first
  refine (hall x.load.res (i + 1) (load_plain x) hp).moved ?_ ?_ ?_
  · simp only [turnsAt, load_plain]
  · simp only [loadsAt, load_plain, if_neg (load_held x)]
    have : (if x.held = .raw then 0 else 1) + x.load.mem.loads = 1 := by
      unfold CTree.load
      cases x.held <;> rfl
    omega
  · have : x.load.res.val = x.val := by have := congrArg Tree.val (load_plain x); simpa using this
    simp only [itemsAt, load_plain, this]

theorem Progress.pop {x : CTree K V} {i n l j : Nat} {rest : List (CTree K V × Nat)} (h : Progress root ((x, i + 1) :: rest) n l j) (hh : x.held ≠ .raw)
    (hi : x.plain.kids[i]? = none) : Progress root rest (n + 1) l j := by
  have hlen := List.getElem?_eq_none_iff.1 hi
  have hfull : ∀ p, i + 1 ≤ p → p ≤ x.plain.kids.length + 1 → turnsAt x (i + 1) + 2 = 3 * x.plain.nodes ∧ loadsAt x (i + 1) = x.plain.nodes ∧ itemsAt x (i + 1) = cnt x.plain := by
    intro _ _ _
    refine ⟨?_, ?_, ?_⟩
    · simp only [turnsAt, List.take_of_length_le hlen, nodes_eq x.plain]; omega
    · simp only [loadsAt, List.take_of_length_le hlen, if_neg hh, nodes_eq x.plain]
    · simp only [itemsAt, List.take_of_length_le hlen, cnt_eq x.plain, plain_val]
  generalize hst : (x, i + 1) :: rest = st at h
  cases h with
  | root e hp =>
    injection hst with e1 e2
    injection e1 with e3 e4
    subst e2 e3 e4
    obtain ⟨h1, h2, h3⟩ := hfull _ (Nat.le_refl _) hp
    subst e
    exact Progress.finished.moved (by omega) h2.symm h3.symm
  | @push y c k p n l j rest' h hk hp =>
    injection hst with e1 e2
    injection e1 with e3 e4
    subst e2 e3 e4
    obtain ⟨h1, h2, h3⟩ := hfull _ (Nat.le_refl _) hp
    exact (h.bump hk).moved (by omega) (by omega) (by omega)
  | finished => cases hst

/-- one turn -/
theorem Progress.turn {s s' : CIter K V} {n l j : Nat} (h : Progress root s.stack n l j) :
    (s.turn.res = .again s' → Progress root s'.stack (n + 1) (l + s.turn.mem.loads) j ∨ ∃ l', l + s.turn.mem.loads ≤ l' ∧ Progress root s'.stack (n + 1) l' j) ∧
    (∀ x, s.turn.res = .yield x s' → ∃ l', l + s.turn.mem.loads ≤ l' ∧ Progress root s'.stack (n + 1) l' (j + 1)) := by
  obtain ⟨path, stack⟩ := s
  match stack, h with
  | [], _ => exact ⟨nofun, nofun⟩
  | (t, 0) :: rest, h =>
    obtain ⟨n0, l0, j0, rfl, rfl, rfl, hp, hall⟩ := h.first
    have h1 := hall t 1 rfl (by omega)
    simp only [CIter.turn]
    cases hv : t.val with
    | some v =>
      refine ⟨nofun, fun x e => ?_⟩
      injection e with e1 e2
      subst e2
      refine ⟨_, ?_, h1.moved ?_ rfl ?_⟩
      · simp [loadsAt, Mem.zero]
      · simp [turnsAt, nodes.nodesL]
      · simp [itemsAt, hv, cntL, itemsL]
    | none =>
      refine ⟨fun e => .inr ?_, nofun⟩
      injection e with e2
      subst e2
      refine ⟨_, ?_, h1.moved ?_ rfl ?_⟩
      · simp [loadsAt, Mem.zero]
      · simp [turnsAt, nodes.nodesL]
      · simp [itemsAt, hv, cntL, itemsL]
  | (t, pos + 1) :: rest, h =>
    have hl := h.load
    simp only [CIter.turn, bind_res, bind_mem]
    have hk := kid_plain t pos
    rw [← load_plain t] at hk
    cases hc : t.load.res.kids[pos]? with
    | none =>
      rw [hc] at hk
      refine ⟨fun e => .inl ?_, nofun⟩
      injection e with e2
      subst e2
      refine (hl.pop (load_held t) hk).moved rfl ?_ rfl
      simp [Mem.add, Mem.zero]
    | some c =>
      rw [hc] at hk
      refine ⟨fun e => .inl ?_, nofun⟩
      injection e with e2
      subst e2
      refine (Progress.push hl hk (Nat.zero_le _)).moved rfl ?_ rfl
      simp [Mem.add, Mem.zero, loadsAt]

theorem Progress.run {t : CTree K V} {q : List K} {n : Nat} {items : List (List K × V)} {m : Mem} {s : CIter K V} (h : Run CIter.turn (CIter.new t q) n items m s) :
    ∃ l, m.loads ≤ l ∧ Progress t.plain s.stack n l items.length := by
  induction h with
  | start => exact ⟨0, Nat.le_refl _, .root (p := 0) rfl (Nat.zero_le _)⟩
  | again _ ht ih =>
    obtain ⟨l, hl, hp⟩ := ih
    rcases hp.turn.1 ht with h' | ⟨l', hl', h'⟩
    · exact ⟨_, Nat.add_le_add_right hl _, h'⟩
    · exact ⟨l', Nat.le_trans (Nat.add_le_add_right hl _) hl', h'⟩
  | yield _ ht ih =>
    obtain ⟨l, hl, hp⟩ := ih
    obtain ⟨l', hl', h'⟩ := hp.turn.2 _ ht
    exact ⟨l', Nat.le_trans (Nat.add_le_add_right hl _) hl', by rw [List.length_append]; exact h'⟩

/-! ### Bounds -/

theorem nodesL_bound {ks : List (Tree K V)} (h : ∀ c ∈ ks, Full c) : nodes.nodesL ks ≤ 2 * cntL ks := by
  induction ks with
  | nil => exact Nat.zero_le _
  | cons c ks ih =>
    have h1 := Tree.nodes_bound c (h c (List.mem_cons_self ..)) []
    have h2 := ih fun x hx => h x (List.mem_cons_of_mem _ hx)
    rw [items_length] at h1
    rw [nodes.nodesL, cntL_cons]
    omega

theorem Progress.bounds {st : List (CTree K V × Nat)} {n l j : Nat} (h : Progress root st n l j) (hf : Full root) :
    n ≤ 6 * j + 2 * st.length ∧ l ≤ 2 * j + st.length ∧ ∀ t p rest, st = (t, p) :: rest → Full t.plain := by
  have at_ : ∀ (t : CTree K V) (p : Nat), Full t.plain → turnsAt t p ≤ 6 * itemsAt t p + 1 ∧ loadsAt t p ≤ 2 * itemsAt t p + 1 := by
    intro t p ht
    cases p with
    | zero => simp [turnsAt, loadsAt]
    | succ pos =>
      have := nodesL_bound (ks := t.plain.kids.take pos) fun c hc => (Tree.full_iff.1 ht).2 c (List.mem_of_mem_take hc)
      simp only [turnsAt, loadsAt, itemsAt]
      split <;> split <;> omega
  induction h with
  | @root t p e hp =>
    subst e
    obtain ⟨h1, h2⟩ := at_ t p hf
    simp only [List.length_singleton]
    refine ⟨by omega, by omega, fun t' p' rest e => ?_⟩
    injection e with e1 _
    injection e1 with e1 _
    subst e1
    exact hf
  | @push x c i p n l j rest h hk hp ih =>
    obtain ⟨i1, i2, i3⟩ := ih
    have hx := i3 x _ rest rfl
    have hc := (Tree.full_iff.1 hx).2 _ (List.mem_of_getElem? hk)
    obtain ⟨h1, h2⟩ := at_ c p hc
    simp only [List.length_cons] at i1 i2 ⊢
    refine ⟨by omega, by omega, fun t' p' rest e => ?_⟩
    injection e with e1 _
    injection e1 with e1 _
    subst e1
    exact hc
  | finished =>
    have := Tree.nodes_bound root hf []
    rw [items_length] at this
    exact ⟨by simp only [List.length_nil]; omega, by simp only [List.length_nil]; omega, nofun⟩

theorem Progress.onPath {st : List (CTree K V × Nat)} {n l j : Nat} (h : Progress root st n l j) : OnPath root (plainStack st) := by
  induction h with
  | root e _ => subst e; exact .root
  | push _ hk _ ih => exact .push (List.mem_of_getElem? hk) (ih.setPos _)
  | finished => exact .nil

theorem Progress.no_two {st : List (CTree K V × Nat)} {n l j : Nat} (h : Progress root st n l j) (hk : root.kids = []) :
    ∀ {x p y q r}, st = (x, p) :: (y, q) :: r → False := by
  induction h with
  | root _ _ => intro _ _ _ _ _ e; simp at e
  | @push x c i p n l j rest h hk' _ ih =>
    intro _ _ _ _ _ _
    cases h with
    | root e _ => rw [e, hk] at hk'; simp at hk'
    | push _ _ _ => exact ih rfl
  | finished => intro _ _ _ _ _ e; simp at e

/-- every node is counted once -/
theorem Progress.within {st : List (CTree K V × Nat)} {n l j : Nat} (h : Progress root st n l j) (hk : root.kids = []) : n ≤ 2 ∧ l ≤ 1 := by
  induction h with
  | @root t p e hp =>
    subst e
    cases p with
    | zero => exact ⟨Nat.zero_le _, Nat.zero_le _⟩
    | succ pos =>
      simp only [turnsAt, loadsAt, hk, List.take_nil, nodes.nodesL]
      split <;> omega
  | @push x c i p n l j rest h hk' hp ih =>
    exact (Progress.no_two (.push h hk' hp) hk rfl).elim
  | finished =>
    rw [nodes_eq, hk]
    simp [nodes.nodesL]

/-! ### Only what is not loaded is loaded -/

/-- vectors that are not loaded and that the iteration may still come to -/
def restAt : CTree K V → Nat → Nat
  | t, 0 => unloaded t
  | t, pos + 1 => (if t.held = .raw then 1 else 0) + unloadeds (t.kids.drop pos)
def restOf : List (CTree K V × Nat) → Nat
  | [] => 0
  | (t, p) :: rest => restAt t p + restOf rest

theorem turn_rest {s s' : CIter K V} : (s.turn.res = .again s' → s.turn.mem.loads + restOf s'.stack ≤ restOf s.stack) ∧
    (∀ x, s.turn.res = .yield x s' → s.turn.mem.loads + restOf s'.stack ≤ restOf s.stack) := by
  obtain ⟨path, stack⟩ := s
  have start : ∀ t : CTree K V, restAt t 1 = unloaded t := by
    intro ⟨p, v, h, ks⟩
    rfl
  match stack with
  | [] => exact ⟨nofun, nofun⟩
  | (t, 0) :: rest =>
    simp only [CIter.turn]
    cases t.val with
    | some v =>
      refine ⟨nofun, fun x e => ?_⟩
      injection e with _ e2
      subst e2
      show 0 + (restAt t 1 + _) ≤ restAt t 0 + _
      rw [start, Nat.zero_add]
      exact Nat.le_refl _
    | none =>
      refine ⟨fun e => ?_, nofun⟩
      injection e with e2
      subst e2
      show 0 + (restAt t 1 + _) ≤ restAt t 0 + _
      rw [start, Nat.zero_add]
      exact Nat.le_refl _
  | (t, pos + 1) :: rest =>
    have hk : t.load.res.kids = t.kids := by unfold CTree.load; split <;> rfl
    have hm : t.load.mem.loads = if t.held = .raw then 1 else 0 := by unfold CTree.load; cases t.held <;> rfl
    simp only [CIter.turn, bind_res, bind_mem]
    cases hc : t.load.res.kids[pos]? with
    | none =>
      refine ⟨fun e => ?_, nofun⟩
      injection e with e2
      subst e2
      simp only [pure_mem, Mem.add, Mem.zero, restOf, restAt, hm]
      omega
    | some c =>
      refine ⟨fun e => ?_, nofun⟩
      injection e with e2
      subst e2
      rw [hk] at hc
      have hd : t.kids.drop pos = c :: t.kids.drop (pos + 1) := by
        obtain ⟨hlt, he⟩ := List.getElem?_eq_some_iff.1 hc
        rw [List.drop_eq_getElem_cons hlt, he]
      simp only [pure_mem, Mem.add, Mem.zero, restOf, restAt, hm, hk, hd, unloadeds, if_neg (load_held t)]
      omega

theorem run_rest {s s' : CIter K V} {n : Nat} {items : List (List K × V)} {m : Mem} (h : Run CIter.turn s n items m s') : m.loads + restOf s'.stack ≤ restOf s.stack := by
  induction h with
  | start => exact Nat.le_of_eq (Nat.zero_add _)
  | again _ ht ih => have := turn_rest.1 ht; simp only [Mem.add]; omega
  | yield _ ht ih => have := turn_rest.2 _ ht; simp only [Mem.add]; omega

theorem turn_reads (s : CIter K V) : Reads 1 s.turn.mem := by
  obtain ⟨path, stack⟩ := s
  match stack with
  | [] => exact .zero
  | (t, 0) :: rest =>
    simp only [CIter.turn]
    cases t.val <;> exact .zero
  | (t, pos + 1) :: rest =>
    simp only [CIter.turn, bind_mem]
    cases t.load.res.kids[pos]? <;> exact (load_reads t).add (Reads.zero (l := 0))

theorem run_reads {s s' : CIter K V} {n : Nat} {items : List (List K × V)} {m : Mem} (h : Run CIter.turn s n items m s') : Reads n m := by
  induction h with
  | start => exact .zero
  | again _ _ ih => exact ih.add (turn_reads _)
  | yield _ _ ih => exact ih.add (turn_reads _)

end
end Verif.Cow
