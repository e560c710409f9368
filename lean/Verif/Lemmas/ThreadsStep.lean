import Verif.Lemmas.ThreadsZip
/-! One step of one thread (for C74). -/
namespace Verif.Threads
open Verif.Shared
variable {K V : Type _}

def Call.mutLoc : Call K V → Option Loc
  | .setVal l _ | .setPre l _ | .swap l _ | .insertKid l _ _ | .removeKid l _ _ => some l
  | _ => none
def Call.readLoc : Call K V → Option Loc
  | .clone l _ | .look l => some l
  | _ => none
def Call.isKid : Call K V → Bool
  | .insertKid _ _ _ | .removeKid _ _ _ => true
  | _ => false

/-- the variable that is checked out -/
def out : Phase K V → Option Nat
  | .mut c _ _ _ | .copy c _ _ _ _ | .own c _ _ _ _ _ _ _ | .drop c _ => c.loc.map Loc.reg
  | _ => none

/-- the arguments are there, except for the variable that is checked out -/
structure Ready (regs : List (Option (Node K V))) (c : Call K V) (o : Option Nat) : Prop where
  full : ∀ x ∈ c.full, o ≠ some x → isFull regs x = some true
  empty : ∀ x ∈ c.empty, isFull regs x = some false
  nodup : c.full.Nodup
  disj : ∀ x ∈ c.empty, x ∉ c.full

/-- a mutation at `l` has got to the subtree `t` -/
structure At (s : St K V) (vs : Vars K V) (c : Call K V) (l : Loc) (gs : List (GFrame K V)) (rest : List Nat) (t : Tree K V) : Prop where
  loc : c.mutLoc = some l
  ready : Ready s.regs c (some l.reg)
  empty : isFull s.regs l.reg = some false
  path : l.path = gpath gs ++ rest
  tree : vs[l.reg]? = some (some (plug t gs))

inductive PhaseOk (s : St K V) (vs : Vars K V) : Phase K V → List (Node K V × Tree K V) → List Nat → Nat → Prop
  | idle {b} : PhaseOk s vs .idle [] [] b
  | start {c b} : Ready s.regs c none → c.cost vs ≤ b → PhaseOk s vs (.start c) [] [] b
  | read {c l p σ rest b} : c.readLoc = some l → Ready s.regs c none → l.path = p ++ rest → SiteAt s l.reg p σ → 2 * rest.length + 1 ≤ b →
      (b = 2 * rest.length + 1 → ∀ n, s.node σ = some n → ∃ id, n.kids = .arc id) → PhaseOk s vs (.read c σ rest) [] [] b
  | mut {c l gs rest cur t N b} : At s vs c l gs rest t → nodes t ≤ N → (rest.length + 1) * (2 * N + 3) + 1 ≤ b →
      PhaseOk s vs (.mut c (gs.map GFrame.frame) rest cur) ((cur, t) :: gs.flatMap GFrame.held) (gs.map GFrame.id) b
  | copy {c l gs rest cur t N id cs b} : At s vs c l gs rest t → (rest = [] → c.isKid = true) → cur.kids = .arc id → cs.map Prod.snd = t.kids.take cs.length →
      nodes t ≤ N → (t.kids.length - cs.length) + (N + 3) + rest.length * (2 * N + 3) ≤ b →
      PhaseOk s vs (.copy c (gs.map GFrame.frame) rest cur (cs.map Prod.fst)) ((cur, t) :: (cs ++ gs.flatMap GFrame.held)) (gs.map GFrame.id) b
  | own {c l gs rest p v id cs ws N b} : At s vs c l gs rest ⟨p, v, cs.map Prod.snd⟩ → (rest = [] → c.isKid = true) → nodes (⟨p, v, cs.map Prod.snd⟩ : Tree K V) ≤ N →
      nodes.nodesL (ws.map Prod.snd) + 2 + rest.length * (2 * N + 3) ≤ b →
      PhaseOk s vs (.own c (gs.map GFrame.frame) rest p v id (cs.map Prod.fst) (ws.map Prod.fst)) (ws ++ (cs ++ gs.flatMap GFrame.held)) (id :: gs.map GFrame.id) b
  | drop {r ws o b} : isFull s.regs r = some false → vs[r]? = some o → nodes.nodesL (ws.map Prod.snd) + 1 ≤ b →
      PhaseOk s vs (.drop (.drop r) (ws.map Prod.fst)) ws [] b

/-- addresses of vectors that are checked out -/
structure Held (s : St K V) (ids : List Nat) : Prop where
  held : ∀ j ∈ ids, s.heap.cell j = none ∧ j < s.heap.next
  nodup : ids.Nodup

structure Fresh (s : St K V) (ids : List Nat) (s' : St K V) (ids' : List Nat) : Prop extends Held s' ids' where
  new : ∀ j ∈ ids', j ∈ ids ∨ s.heap.next ≤ j ∨ s.heap.cell j ≠ none
  others : ∀ j, j < s.heap.next → j ∉ ids → s.heap.cell j = none → s'.heap.cell j = none
  next : s.heap.next ≤ s'.heap.next

/-- what a step does for the caller -/
def Effect (ts vs : Vars K V) (c : Call K V) (ph : Phase K V) (b : Nat) (ts' : Vars K V) (ph' : Phase K V) (b' : Nat) : Option (Obs K V) → Prop
  | none => ph'.call = some c ∧ b' < b ∧ ∀ x, out ph' ≠ some x → out ph ≠ some x ∧ ts'[x]? = ts[x]?
  | some o => ph' = .idle ∧ (c.on vs).2 = o ∧ ∀ x ∈ c.excl, ts'[x]? = (c.on vs).1[x]?

structure StepOk (s : St K V) (R : List (Node K V × Tree K V)) (ts vs : Vars K V) (c : Call K V) (ph : Phase K V) (ids : List Nat) (b : Nat)
    (s' : St K V) (ph' : Phase K V) (o : Option (Obs K V)) (ts' : Vars K V) (F' : List (Node K V × Tree K V)) (ids' : List Nat) (b' : Nat) : Prop where
  inv : Inv s' (F' ++ R) ts'
  phase : PhaseOk s' vs ph' F' ids' b'
  fresh : Fresh s ids s' ids'
  stays : Stays s s'
  regs : ∀ x, x ∉ c.excl → RegStays s s' x ∧ isFull s'.regs x = isFull s.regs x ∧ ts'[x]? = ts[x]?
  effect : Effect ts vs c ph b ts' ph' b' o

/-- the step is fine -/
def Good (s : St K V) (R : List (Node K V × Tree K V)) (ts vs : Vars K V) (c : Call K V) (ph : Phase K V) (ids : List Nat) (b : Nat) (r : St K V × Phase K V × Option (Obs K V)) : Prop :=
  ∃ ts' F' ids' b', StepOk s R ts vs c ph ids b r.1 r.2.1 r.2.2 ts' F' ids' b'

/-! ## variables -/
theorem isFull_true {regs : List (Option (Node K V))} {x : Nat} : isFull regs x = some true ↔ ∃ n, regs[x]? = some (some n) := by
  simp only [isFull]
  rcases regs[x]? with _ | _ | n <;> simp
theorem isFull_false {regs : List (Option (Node K V))} {x : Nat} : isFull regs x = some false ↔ regs[x]? = some none := by
  simp only [isFull]
  rcases regs[x]? with _ | _ | n <;> simp
theorem isFull_set_ne {regs : List (Option (Node K V))} {x r : Nat} {o} (h : x ≠ r) : isFull (regs.set r o) x = isFull regs x := by
  simp only [isFull]; rw [List.getElem?_set_ne (Ne.symm h)]
theorem Inv.none {s : St K V} {F ts} (hi : Inv s F ts) {x : Nat} (h : s.regs[x]? = some none) : ts[x]? = some Option.none := by
  obtain ⟨o, h1, h2⟩ := hi.regs.den x _ h
  rcases o with _ | t
  · exact h1
  · exact absurd h2 (by simp [OptDen])
theorem getElem?_set_same {α : Type _} {l : List α} {x : Nat} {o : α} (h : l[x]? = some o) (v : α) : (l.set x v)[x]? = some v := by
  rw [List.getElem?_set_self (lt_of_getElem? h)]

theorem Held.fresh_same {s s' : St K V} {ids} (hh : Held s ids) (h1 : ∀ j, s.heap.cell j = none → s'.heap.cell j = none) (h2 : s.heap.next ≤ s'.heap.next) : Fresh s ids s' ids where
  held j hj := ⟨h1 j (hh.held j hj).1, Nat.lt_of_lt_of_le (hh.held j hj).2 h2⟩
  nodup := hh.nodup
  new j hj := .inl hj
  others j _ _ hc := h1 j hc
  next := h2

theorem CloseOk.fresh {s : St K V} {r ids ts R s' ts'} (h : CloseOk s r ids ts R s' ts') : Fresh s ids s' [] where
  held j hj := by cases hj
  nodup := .nil
  new j hj := by cases hj
  others j _ hj hc := (h.cells j hj).trans hc
  next := Nat.le_of_eq h.next.symm

theorem excl_of_mutLoc {c : Call K V} {l} (h : c.mutLoc = some l) : l.reg ∈ c.excl := by
  cases c <;> simp [Call.mutLoc] at h <;> subst h <;> simp [Call.excl]
theorem loc_of_mutLoc {c : Call K V} {l} (h : c.mutLoc = some l) : c.loc = some l := by
  cases c <;> simp [Call.mutLoc] at h <;> subst h <;> rfl

theorem Ready.mono {regs regs' : List (Option (Node K V))} {c : Call K V} {o} (h : Ready regs c o)
    (hx : ∀ x, x ∈ c.full ∨ x ∈ c.empty → o ≠ some x → isFull regs' x = isFull regs x) (ho : ∀ x, o = some x → x ∉ c.empty) : Ready regs' c o where
  full x hm hn := (hx x (.inl hm) hn).trans (h.full x hm hn)
  empty x hm := (hx x (.inr hm) (fun e => ho x e hm)).trans (h.empty x hm)
  nodup := h.nodup
  disj := h.disj

theorem At.mono {s s' : St K V} {vs : Vars K V} {c l gs rest t} (h : At s vs c l gs rest t) (hr : s'.regs = s.regs) : At s' vs c l gs rest t :=
  ⟨h.loc, by rw [hr]; exact h.ready, by rw [hr]; exact h.empty, h.path, h.tree⟩

theorem At.atLoc {s : St K V} {vs : Vars K V} {c l gs rest t} (h : At s vs c l gs rest t) : vs.at l = treeAt rest t := by
  simp only [Vars.at, h.tree, h.path]; exact treeAt_plug gs rest t
theorem At.put {s : St K V} {vs : Vars K V} {c l gs t} (h : At s vs c l gs [] t) (u : Tree K V) : vs.put l u = vs.set l.reg (some (plug u gs)) := by
  simp only [Vars.put, h.tree, h.path]; rw [putAt_plug]; rfl

/-! ## steps within a mutation, not the last one: variables do not change -/
theorem good_mut {s : St K V} {R ts vs c ph ids b} {h' : Heap K V} {ph' F' ids' b'} (hi : Inv { s with heap := h' } (F' ++ R) ts)
    (hp : PhaseOk { s with heap := h' } vs ph' F' ids' b') (hf : Fresh s ids { s with heap := h' } ids') (hs : Stays s { s with heap := h' })
    (hc : ph'.call = some c) (hb : b' < b) (ho : out ph' = out ph) : Good s R ts vs c ph ids b (goOn { s with heap := h' } ph') :=
  ⟨ts, F', ids', b', hi, hp, hf, hs, fun x _ => ⟨.refl s x, rfl, rfl⟩, hc, hb, fun x hx => ⟨ho ▸ hx, rfl⟩⟩

theorem perm_mid {α : Type _} (a b c : List α) (x : α) : (a ++ (b ++ x :: c)).Perm (x :: (a ++ (b ++ c))) := by
  rw [← List.append_assoc, ← List.append_assoc]; exact List.perm_middle

theorem drop_good {s : St K V} {R ts} {w : Node K V} {ws : List (Node K V × Tree K V)} {t : Tree K V} {G : List (Node K V × Tree K V)}
    (hi : Inv s (((w, t) :: ws) ++ G ++ R) ts) :
    ∃ h more, dropStep s.heap w = some (h, more.map Prod.fst) ∧ Inv { s with heap := h } ((more ++ ws) ++ G ++ R) ts ∧ Stays s { s with heap := h } ∧
      nodes.nodesL ((more ++ ws).map Prod.snd) < nodes.nodesL (((w, t) :: ws).map Prod.snd) ∧ h.next = s.heap.next ∧ ∀ j, s.heap.cell j = none → h.cell j = none := by
  obtain ⟨h, more, h1, ks, h2, h3, h4, h5, h6, h7⟩ := Inv.dropStep (F := ws ++ G ++ R) (by simpa using hi)
  refine ⟨h, more.zip ks, by rw [h1, map_fst_zip h2], by simpa using h3, h4, ?_, h6, h7⟩
  rw [List.map_append, nodesL_append, map_snd_zip h2]
  simp only [List.map_cons, nodes.nodesL, nodes_eq t]
  rcases h5 with rfl | rfl
  · simp only [nodes.nodesL]; omega
  · omega

theorem stays_heap {s : St K V} {h : Heap K V} (hs : SameVecs s.heap h) : Stays s { s with heap := h } := .of_sameVecs hs

/-! ## the phases -/
section
variable {s : St K V} {R : List (Node K V × Tree K V)} {ts vs : Vars K V}

theorem step_drop {r ws o b} (hi : Inv s (ws ++ R) ts) (hr : isFull s.regs r = some false) (ho : vs[r]? = some o) (hb : nodes.nodesL (ws.map Prod.snd) + 1 ≤ b) :
    Good s R ts vs (.drop r) (.drop (.drop r) (ws.map Prod.fst)) [] b (dropVarStep s (.drop r) (ws.map Prod.fst)) := by
  cases ws with
  | nil =>
    refine ⟨ts, [], [], 0, hi, .idle, Held.fresh_same ⟨by simp, .nil⟩ (fun _ h => h) (Nat.le_refl _), .refl s, fun x _ => ⟨.refl s x, rfl, rfl⟩, rfl, rfl, fun x hx => ?_⟩
    simp only [Call.excl, List.mem_singleton] at hx
    subst hx
    rw [hi.none (isFull_false.1 hr)]
    exact (getElem?_set_same ho _).symm
  | cons w ws =>
    obtain ⟨w, t⟩ := w
    obtain ⟨h, more, h1, h2, h3, h4, h5, h6⟩ := drop_good (G := []) (by simpa using hi)
    have : dropVarStep s (.drop r) (((w, t) :: ws).map Prod.fst) = goOn { s with heap := h } (.drop (.drop r) ((more ++ ws).map Prod.fst)) := by
      simp [dropVarStep, h1]
    rw [this]
    exact good_mut (by simpa using h2) (.drop (b := b - 1) hr ho (by omega)) (Held.fresh_same ⟨by simp, .nil⟩ h6 (Nat.le_of_eq h5.symm)) h3 rfl (by omega) rfl

/-- `own` with something left to drop -/
theorem step_own_work {c l gs rest p v id cs w ws N b} (hh : Held s (id :: gs.map GFrame.id)) (hi : Inv s ((w :: ws) ++ (cs ++ gs.flatMap GFrame.held) ++ R) ts)
    (ha : At s vs c l gs rest ⟨p, v, cs.map Prod.snd⟩) (hk : rest = [] → c.isKid = true) (hN : nodes (⟨p, v, cs.map Prod.snd⟩ : Tree K V) ≤ N)
    (hb : nodes.nodesL ((w :: ws).map Prod.snd) + 2 + rest.length * (2 * N + 3) ≤ b) :
    Good s R ts vs c (.own c (gs.map GFrame.frame) rest p v id (cs.map Prod.fst) ((w :: ws).map Prod.fst)) (id :: gs.map GFrame.id) b
      (ownStep s c (gs.map GFrame.frame) rest p v id (cs.map Prod.fst) ((w :: ws).map Prod.fst)) := by
  obtain ⟨w, t⟩ := w
  obtain ⟨h, more, h1, h2, h3, h4, h5, h6⟩ := drop_good hi
  have : ownStep s c (gs.map GFrame.frame) rest p v id (cs.map Prod.fst) (((w, t) :: ws).map Prod.fst) =
      goOn { s with heap := h } (.own c (gs.map GFrame.frame) rest p v id (cs.map Prod.fst) ((more ++ ws).map Prod.fst)) := by
    simp [ownStep, h1]
  rw [this]
  exact good_mut h2 (.own (b := b - 1) (ha.mono rfl) hk hN (by omega)) (hh.fresh_same h6 (Nat.le_of_eq h5.symm)) h3 rfl (by omega) rfl

/-- the last step of a mutation -/
theorem good_close {c ph ids b} {regs1 : List (Option (Node K V))} {ts1 s' ts' o r} (h : CloseOk { s with regs := regs1 } r ids ts1 R s' (ts1.set r ts')) (hr : r ∈ c.excl)
    (hx : ∀ x, x ∉ c.excl → regs1[x]? = s.regs[x]? ∧ ts1[x]? = ts[x]?) (h2 : (c.on vs).2 = o) (h3 : ∀ x ∈ c.excl, (ts1.set r ts')[x]? = (c.on vs).1[x]?) :
    Good s R ts vs c ph ids b (complete s' o) := by
  refine ⟨ts1.set r ts', [], [], 0, h.inv, .idle, ?_, .of_sameVecs h.vecs, fun x hxe => ?_, rfl, h2, h3⟩
  · obtain ⟨q1, q2, q3, q4⟩ := h.fresh
    exact ⟨q1, q2, q3, q4⟩
  · have hne : r ≠ x := by rintro rfl; exact hxe hr
    obtain ⟨n, hn⟩ := h.regs
    have h4 : s'.regs[x]? = s.regs[x]? := by rw [hn, List.getElem?_set_ne hne]; exact (hx x hxe).1
    refine ⟨.of_eq h4, by simp only [complete, isFull, h4], ?_⟩
    rw [List.getElem?_set_ne hne]; exact (hx x hxe).2

theorem on_bad {c : Call K V} {l} (h : c.mutLoc = some l) (hb : vs.at l = none) : c.on vs = (vs, .bad) := by
  cases c <;> simp [Call.mutLoc] at h <;> subst h <;> simp [Call.on, hb]

theorem ownStep_cons {c : Call K V} {l} (h : c.mutLoc = some l) (fs : List (Frame K V)) (i is p v id) (ns : List (Node K V)) :
    ownStep s c fs (i :: is) p v id ns [] = match ns[i]? with
      | some n => goOn s (.mut c (⟨p, v, id, ns.take i, ns.drop (i + 1)⟩ :: fs) is n)
      | none => complete (closeOwn s l.reg p v id ns fs) .bad := by
  cases c <;> simp [Call.mutLoc] at h <;> subst h <;> rfl

/-- the place does not exist: the vectors are put back -/
theorem good_bad {c l gs rest p v id cs b ph} (hh : Held s (id :: gs.map GFrame.id)) (hi : Inv s (cs ++ (gs.flatMap GFrame.held ++ R)) ts)
    (ha : At s vs c l gs rest ⟨p, v, cs.map Prod.snd⟩) (hag : ∀ x ∈ c.excl, l.reg ≠ x → ts[x]? = vs[x]?) (hb : c.on vs = (vs, .bad)) :
    Good s R ts vs c ph (id :: gs.map GFrame.id) b (complete (closeOwn s l.reg p v id (cs.map Prod.fst) (gs.map GFrame.frame)) .bad) := by
  have hr := isFull_false.1 ha.empty
  refine good_close (regs1 := s.regs) (ts1 := ts) (closeOwn_ok hi hh.held hh.nodup hr) (excl_of_mutLoc ha.loc) (fun x _ => ⟨rfl, rfl⟩) (by rw [hb]) (fun x hx => ?_)
  rw [hb]
  by_cases e : l.reg = x
  · subst e
    rw [getElem?_set_same (hi.none hr), ha.tree]
  · rw [List.getElem?_set_ne e]; exact hag x hx e

/-- `own` with nothing left to drop, further down -/
theorem step_own_down {c l gs i is p v id cs N b} (hh : Held s (id :: gs.map GFrame.id)) (hi : Inv s ((cs ++ gs.flatMap GFrame.held) ++ R) ts)
    (ha : At s vs c l gs (i :: is) ⟨p, v, cs.map Prod.snd⟩) (hN : nodes (⟨p, v, cs.map Prod.snd⟩ : Tree K V) ≤ N)
    (hb : 2 + (is.length + 1) * (2 * N + 3) ≤ b) (hag : ∀ x ∈ c.excl, l.reg ≠ x → ts[x]? = vs[x]?) :
    Good s R ts vs c (.own c (gs.map GFrame.frame) (i :: is) p v id (cs.map Prod.fst) []) (id :: gs.map GFrame.id) b
      (ownStep s c (gs.map GFrame.frame) (i :: is) p v id (cs.map Prod.fst) []) := by
  rw [ownStep_cons ha.loc, List.getElem?_map]
  cases hc : cs[i]? with
  | none =>
    refine good_bad hh (by simpa using hi) ha hag (on_bad ha.loc ?_)
    rw [ha.atLoc, treeAt, List.getElem?_map, hc]; rfl
  | some x =>
    obtain ⟨n, u⟩ := x
    have hlt := lt_of_getElem? hc
    have hcs : cs = cs.take i ++ (n, u) :: cs.drop (i + 1) := by
      rw [← List.getElem?_eq_some_iff.1 hc |>.2, List.getElem_cons_drop, List.take_append_drop]
    have key := PhaseOk.mut (s := s) (vs := vs) (c := c) (l := l) (gs := ⟨p, v, id, cs.take i, cs.drop (i + 1)⟩ :: gs) (rest := is) (cur := n) (t := u) (N := N) (b := b - 1)
      ⟨ha.loc, ha.ready, ha.empty, ?_, ?_⟩ ?_ (by omega)
    · simp only [List.map_cons, List.flatMap_cons] at key
      have hfr : (⟨p, v, id, cs.take i, cs.drop (i + 1)⟩ : GFrame K V).frame = ⟨p, v, id, (cs.map Prod.fst).take i, (cs.map Prod.fst).drop (i + 1)⟩ := by
        simp [GFrame.frame, List.map_take, List.map_drop]
      rw [hfr] at key
      refine good_mut (s := s) (h' := s.heap) ?_ key (hh.fresh_same (fun _ h => h) (Nat.le_refl _)) (.refl s) rfl (by omega) rfl
      refine hi.perm ?_
      rw [List.append_assoc cs]
      simp only [GFrame.held, List.cons_append, List.append_assoc]
      conv => rhs; rw [hcs]
      simp only [List.append_assoc, List.cons_append]
      exact List.perm_middle.symm
    · rw [ha.path]
      simp only [gpath, List.append_assoc, List.singleton_append, List.length_take]
      rw [Nat.min_eq_left (by omega)]
    · rw [ha.tree, plug]
      conv => lhs; rw [hcs]
      simp
    · have h1 : u ∈ cs.map Prod.snd := List.mem_map.2 ⟨(n, u), List.mem_of_getElem? hc, rfl⟩
      have h2 := nodes_mem h1
      rw [nodes_eq] at hN
      simp only at hN
      omega

/-- `own` at the node -/
theorem step_own_here {c l gs p v id cs b} (hh : Held s (id :: gs.map GFrame.id)) (hi : Inv s ((cs ++ gs.flatMap GFrame.held) ++ R) ts)
    (ha : At s vs c l gs [] ⟨p, v, cs.map Prod.snd⟩) (hk : c.isKid = true) (hag : ∀ x ∈ c.excl, l.reg ≠ x → ts[x]? = vs[x]?) :
    Good s R ts vs c (.own c (gs.map GFrame.frame) [] p v id (cs.map Prod.fst) []) (id :: gs.map GFrame.id) b
      (ownStep s c (gs.map GFrame.frame) [] p v id (cs.map Prod.fst) []) := by
  have hr := isFull_false.1 ha.empty
  have hloc := ha.loc
  have hat : vs.at l = some ⟨p, v, cs.map Prod.snd⟩ := ha.atLoc
  have hi' : Inv s (cs ++ (gs.flatMap GFrame.held ++ R)) ts := by simpa using hi
  cases c <;> simp [Call.isKid] at hk <;> simp only [Call.mutLoc, Option.some.injEq] at hloc <;> subst hloc
  case insertKid l i r =>
    have hne : l.reg ≠ r := by have := ha.ready.nodup; simpa [Call.full] using this
    obtain ⟨m, hm⟩ := isFull_true.1 (ha.ready.full r (by simp [Call.full]) (by simpa using hne))
    obtain ⟨u, hu, hi2⟩ := hi'.takeReg hm
    have hvr : vs[r]? = some (some u) := by rw [← hag r (by simp [Call.excl]) hne]; exact hu
    simp only [ownStep, hm, List.length_map]
    by_cases hle : i ≤ cs.length
    · rw [if_pos hle]
      have hi3 : Inv { s with regs := s.regs.set r none } ((cs.take i ++ (m, u) :: cs.drop i) ++ (gs.flatMap GFrame.held ++ R)) (ts.set r none) := by
        refine hi2.perm ?_
        rw [List.append_assoc, List.cons_append]
        refine List.perm_middle.trans ?_
        rw [← List.append_assoc, List.take_append_drop]
      have hcl := closeOwn_ok (p := p) (v := v) (id := id) (r := l.reg) hi3 hh.held hh.nodup (by rw [List.getElem?_set_ne (Ne.symm hne)]; exact hr)
      have e1 : (cs.take i ++ (m, u) :: cs.drop i).map Prod.fst = (cs.map Prod.fst).take i ++ m :: (cs.map Prod.fst).drop i := by simp
      have e2 : (cs.take i ++ (m, u) :: cs.drop i).map Prod.snd = (cs.map Prod.snd).take i ++ u :: (cs.map Prod.snd).drop i := by simp
      rw [e1, e2] at hcl
      have hon : (Call.insertKid l i r : Call K V).on vs = ((vs.set l.reg (some (plug ⟨p, v, (cs.map Prod.snd).take i ++ u :: (cs.map Prod.snd).drop i⟩ gs))).set r none, .ok) := by
        simp only [Call.on, hat, hvr, List.length_map]
        rw [if_pos hle, ha.put]
      refine good_close hcl (by simp [Call.excl]) (fun x hx => ?_) (by rw [hon]) (fun x hx => ?_)
      · have : r ≠ x := by rintro rfl; exact hx (by simp [Call.excl])
        rw [List.getElem?_set_ne this, List.getElem?_set_ne this]; exact ⟨rfl, rfl⟩
      · rw [hon]
        simp only [Call.excl, List.mem_cons, List.not_mem_nil, or_false] at hx
        rcases hx with rfl | rfl
        · rw [List.getElem?_set_self (by rw [List.length_set]; exact lt_of_getElem? (hi.none hr)), List.getElem?_set_ne (Ne.symm hne), getElem?_set_same ha.tree]
        · rw [List.getElem?_set_ne hne, getElem?_set_same hu, List.getElem?_set_self (by rw [List.length_set]; exact lt_of_getElem? hvr)]
    · rw [if_neg hle]
      refine good_bad hh hi' ha hag ?_
      simp only [Call.on, hat, hvr, List.length_map]
      rw [if_neg hle]
  case removeKid l i dst =>
    have hne : l.reg ≠ dst := by
      have := ha.ready.disj dst (by simp [Call.empty])
      simp only [Call.full, List.mem_singleton] at this
      exact Ne.symm this
    have hd := isFull_false.1 (ha.ready.empty dst (by simp [Call.empty]))
    have hvr : vs[dst]? = some none := by rw [← hag dst (by simp [Call.excl]) hne]; exact hi.none hd
    simp only [ownStep, List.getElem?_map]
    cases hc : cs[i]? with
    | none =>
      refine good_bad hh hi' ha hag ?_
      simp only [Call.on, hat, List.getElem?_map, hc, Option.map_none]
    | some x =>
      obtain ⟨m, u⟩ := x
      have hcs : cs = cs.take i ++ (m, u) :: cs.drop (i + 1) := by
        rw [← List.getElem?_eq_some_iff.1 hc |>.2, List.getElem_cons_drop, List.take_append_drop]
      have hi2 : Inv s ((m, u) :: ((cs.take i ++ cs.drop (i + 1)) ++ (gs.flatMap GFrame.held ++ R))) ts := by
        refine hi'.perm ?_
        conv => rhs; rw [hcs]
        simp only [List.append_assoc, List.cons_append]
        exact List.perm_middle.symm
      have hi3 := hi2.putReg hd
      have hcl := closeOwn_ok (p := p) (v := v) (id := id) (r := l.reg) hi3 hh.held hh.nodup (by rw [List.getElem?_set_ne (Ne.symm hne)]; exact hr)
      have e1 : (cs.take i ++ cs.drop (i + 1)).map Prod.fst = (cs.map Prod.fst).take i ++ (cs.map Prod.fst).drop (i + 1) := by simp
      have e2 : (cs.take i ++ cs.drop (i + 1)).map Prod.snd = (cs.map Prod.snd).take i ++ (cs.map Prod.snd).drop (i + 1) := by simp
      rw [e1, e2] at hcl
      have hon : (Call.removeKid l i dst : Call K V).on vs = ((vs.set l.reg (some (plug ⟨p, v, (cs.map Prod.snd).take i ++ (cs.map Prod.snd).drop (i + 1)⟩ gs))).set dst (some u), .ok) := by
        simp only [Call.on, hat, List.getElem?_map, hc, Option.map_some]
        rw [ha.put]
      refine good_close hcl (by simp [Call.excl]) (fun x hx => ?_) (by rw [hon]) (fun x hx => ?_)
      · have : dst ≠ x := by rintro rfl; exact hx (by simp [Call.excl])
        rw [List.getElem?_set_ne this, List.getElem?_set_ne this]; exact ⟨rfl, rfl⟩
      · rw [hon]
        simp only [Call.excl, List.mem_cons, List.not_mem_nil, or_false] at hx
        rcases hx with rfl | rfl
        · rw [List.getElem?_set_self (by rw [List.length_set]; exact lt_of_getElem? (hi.none hr)), List.getElem?_set_ne (Ne.symm hne), getElem?_set_same ha.tree]
        · rw [List.getElem?_set_ne hne, getElem?_set_same (hi.none hd), List.getElem?_set_self (by rw [List.length_set]; exact lt_of_getElem? hvr)]

/-- copying a shared vector -/
theorem step_copy {c l gs rest cur t N id cs b} (hh : Held s (gs.map GFrame.id)) (hi : Inv s ((cur, t) :: (cs ++ gs.flatMap GFrame.held) ++ R) ts)
    (ha : At s vs c l gs rest t) (hk : rest = [] → c.isKid = true) (hc : cur.kids = .arc id) (hcs : cs.map Prod.snd = t.kids.take cs.length)
    (hN : nodes t ≤ N) (hb : (t.kids.length - cs.length) + (N + 3) + rest.length * (2 * N + 3) ≤ b) :
    Good s R ts vs c (.copy c (gs.map GFrame.frame) rest cur (cs.map Prod.fst)) (gs.map GFrame.id) b
      (copyStep s c (gs.map GFrame.frame) rest cur (cs.map Prod.fst)) := by
  have hd := hi.held (cur, t) (by simp)
  simp only at hd
  cases hd with
  | raw => cases hc
  | @arc p v id' r ns ks hcell hds =>
    cases hc
    have hlen : cs.length ≤ ks.length := by
      have := congrArg List.length hcs
      simp only [List.length_map, List.length_take] at this
      omega
    simp only [copyStep, hcell, List.length_map]
    rcases hds.get cs.length with ⟨g1, g2⟩ | ⟨n, u, g1, g2, g3⟩
    · rw [g1]
      have hfull : cs.length = ks.length := by
        have := List.getElem?_eq_none_iff.1 g2; omega
      have hcs' : cs.map Prod.snd = ks := by rw [hcs, hfull]; simp
      have key := PhaseOk.own (s := { s with heap := { s.heap with next := s.heap.next + 1 } }) (vs := vs) (c := c) (l := l) (gs := gs) (rest := rest) (p := p) (v := v)
        (id := s.heap.next) (cs := cs) (ws := [(⟨[], none, .arc id⟩, ⟨[], none, ks⟩)]) (N := N) (b := b - 1)
        (by rw [hcs']; exact ha.mono rfl) hk (by rw [hcs']; exact hN) (by
          rw [nodes_eq] at hN
          simp only [List.map_cons, List.map_nil, nodes.nodesL, nodes_eq] at hN ⊢
          omega)
      refine good_mut ?_ key ?_ (stays_heap fun _ r _ h => ⟨r, h⟩) rfl (by omega) rfl
      · refine Inv.bump ?_
        refine hi.reheld (fun j => ?_) (fun x hx => ?_)
        · simp only [List.map_cons, List.cons_append, List.nil_append]
          rw [refs_cons, refs_cons j ⟨p, v, .arc id⟩, refs_arc, refs_arc]
        · simp only [List.cons_append, List.nil_append, List.mem_cons] at hx
          rcases hx with rfl | hx
          · exact .arc _ _ hcell hds
          · exact hi.held x (List.mem_cons_of_mem _ hx)
      · refine ⟨⟨fun j hj => ?_, ?_⟩, fun j hj => ?_, fun j hj _ hcj => hcj, Nat.le_succ _⟩
        · rcases List.mem_cons.1 hj with rfl | hj
          · exact ⟨hi.wf.bound _ (Nat.le_refl _), Nat.lt_succ_self _⟩
          · exact ⟨(hh.held j hj).1, Nat.lt_succ_of_lt (hh.held j hj).2⟩
        · refine List.nodup_cons.2 ⟨fun hm => ?_, hh.nodup⟩
          exact absurd (hh.held _ hm).2 (Nat.lt_irrefl _)
        · rcases List.mem_cons.1 hj with rfl | hj
          · exact .inr (.inl (Nat.le_refl _))
          · exact .inl hj
    · rw [g1]
      obtain ⟨h, q1, q2, q3, q4, q5⟩ := hi.clone g3
      simp only [q1]
      have hlt := lt_of_getElem? g2
      have key := PhaseOk.copy (s := { s with heap := h }) (vs := vs) (c := c) (l := l) (gs := gs) (rest := rest) (cur := ⟨p, v, .arc id⟩) (t := ⟨p, v, ks⟩) (N := N)
        (id := id) (cs := cs ++ [(n, u)]) (b := b - 1) (ha.mono rfl) hk rfl (by
          simp only [List.map_append, hcs, List.map_cons, List.map_nil, List.length_append, List.length_singleton]
          rw [List.take_add_one, g2]; rfl) hN (by
          simp only [List.length_append, List.length_singleton] at hb ⊢
          omega)
      simp only [List.map_append, List.map_cons, List.map_nil] at key
      refine good_mut ?_ key (hh.fresh_same q5 (Nat.le_of_eq q4.symm)) (stays_heap q3) rfl (by omega) rfl
      refine q2.perm ?_
      simp only [List.append_assoc, List.cons_append, List.nil_append]
      refine (List.Perm.cons _ List.perm_middle).trans (List.Perm.swap ..)

/-- `Arc::make_mut` -/
theorem step_makeMut {c l gs rest cur t N b} (hh : Held s (gs.map GFrame.id)) (hi : Inv s ((cur, t) :: gs.flatMap GFrame.held ++ R) ts)
    (ha : At s vs c l gs rest t) (hk : rest = [] → c.isKid = true) (hN : nodes t ≤ N) (hb : (rest.length + 1) * (2 * N + 3) + 1 ≤ b) :
    Good s R ts vs c (.mut c (gs.map GFrame.frame) rest cur) (gs.map GFrame.id) b (makeMut s c (gs.map GFrame.frame) rest cur) := by
  rw [Nat.succ_mul] at hb
  have hd := hi.held (cur, t) (by simp)
  simp only at hd
  cases hd with
  | raw p v us =>
    simp only [makeMut]
    have e1 : (us.map fun u => (rawNode u, u)).map Prod.fst = us.map rawNode := by simp
    have e2 : (us.map fun u => (rawNode u, u)).map Prod.snd = us := by simp [Function.comp_def]
    have key := PhaseOk.own (s := { s with heap := { s.heap with next := s.heap.next + 1 } }) (vs := vs) (c := c) (l := l) (gs := gs) (rest := rest) (p := p) (v := v)
      (id := s.heap.next) (cs := us.map fun u => (rawNode u, u)) (ws := []) (N := N) (b := b - 1)
      (by rw [e2]; exact ha.mono rfl) hk (by rw [e2]; exact hN) (by simp only [List.map_nil, nodes.nodesL]; omega)
    rw [e1] at key
    refine good_mut ?_ key ?_ (stays_heap fun _ r _ h => ⟨r, h⟩) rfl (by omega) rfl
    · refine Inv.bump ?_
      refine hi.reheld (fun j => ?_) (fun x hx => ?_)
      · simp only [List.map_cons, List.cons_append, List.nil_append, List.map_append, e1, List.append_assoc]
        rw [refs_append, refs_rawNodes, refs_cons j ⟨p, v, .raw us⟩, refs_raw]
      · simp only [List.nil_append, List.append_assoc, List.mem_append, List.mem_map] at hx
        rcases hx with ⟨u, -, rfl⟩ | hx
        · exact den_rawNode _ _
        · exact hi.held x (by simp only [List.cons_append, List.mem_cons, List.mem_append]; exact .inr hx)
    · refine ⟨⟨fun j hj => ?_, ?_⟩, fun j hj => ?_, fun j hj _ hcj => hcj, Nat.le_succ _⟩
      · rcases List.mem_cons.1 hj with rfl | hj
        · exact ⟨hi.wf.bound _ (Nat.le_refl _), Nat.lt_succ_self _⟩
        · exact ⟨(hh.held j hj).1, Nat.lt_succ_of_lt (hh.held j hj).2⟩
      · refine List.nodup_cons.2 ⟨fun hm => ?_, hh.nodup⟩
        exact absurd (hh.held _ hm).2 (Nat.lt_irrefl _)
      · rcases List.mem_cons.1 hj with rfl | hj
        · exact .inr (.inl (Nat.le_refl _))
        · exact .inl hj
  | @arc p v id r ns ks hcell hds =>
    simp only [makeMut, hcell]
    by_cases hr : r = 1
    · subst hr
      rw [if_pos rfl]
      obtain ⟨f1, f2, f3, f4, f5⟩ := Inv.free (F := gs.flatMap GFrame.held ++ R) hi hcell
      have key := PhaseOk.own (s := { s with heap := s.heap.set id none }) (vs := vs) (c := c) (l := l) (gs := gs) (rest := rest) (p := p) (v := v)
        (id := id) (cs := ns.zip ks) (ws := []) (N := N) (b := b - 1)
        (by rw [map_snd_zip f2]; exact ha.mono rfl) hk (by rw [map_snd_zip f2]; exact hN) (by simp only [List.map_nil, nodes.nodesL]; omega)
      rw [map_fst_zip f2] at key
      refine good_mut (by simpa using f1) key ?_ (.of_erase f3 fun j c hj hcj => by simp [Heap.set, hj, hcj]) rfl (by omega) rfl
      have hset : ∀ j, s.heap.cell j = none → (s.heap.set id none).cell j = none := fun j hj => by
        simp only [Heap.set]; split
        · rfl
        · exact hj
      refine ⟨⟨fun j hj => ?_, ?_⟩, fun j hj => ?_, fun j hj _ hcj => hset j hcj, Nat.le_refl _⟩
      · rcases List.mem_cons.1 hj with rfl | hj
        · exact ⟨by simp [Heap.set], hi.wf.lt hcell⟩
        · exact ⟨hset j (hh.held j hj).1, (hh.held j hj).2⟩
      · refine List.nodup_cons.2 ⟨fun hm => ?_, hh.nodup⟩
        have := (hh.held _ hm).1
        rw [hcell] at this; cases this
      · rcases List.mem_cons.1 hj with rfl | hj
        · exact .inr (.inr (by rw [hcell]; exact Option.some_ne_none _))
        · exact .inl hj
    · rw [if_neg hr]
      have key := PhaseOk.copy (s := s) (vs := vs) (c := c) (l := l) (gs := gs) (rest := rest) (cur := ⟨p, v, .arc id⟩) (t := ⟨p, v, ks⟩) (N := N)
        (id := id) (cs := []) (b := b - 1) ha hk rfl (by simp) hN (by
          have := length_le_nodesL ks
          rw [nodes_eq] at hN
          simp only [List.length_nil] at hN ⊢
          omega)
      exact good_mut (s := s) (h' := s.heap) (by simpa using hi) key (hh.fresh_same (fun _ h => h) (Nat.le_refl _)) (.refl s) rfl (by omega) rfl

theorem mutStep_eq {c : Call K V} {fs rest cur} (h : rest = [] → c.isKid = true) : mutStep s c fs rest cur = makeMut s c fs rest cur := by
  cases rest with
  | cons i is => rfl
  | nil => have := h rfl; cases c <;> simp [Call.isKid] at this <;> rfl

theorem step_mut {c l gs rest cur t N b} (hh : Held s (gs.map GFrame.id)) (hi : Inv s ((cur, t) :: gs.flatMap GFrame.held ++ R) ts)
    (ha : At s vs c l gs rest t) (hN : nodes t ≤ N) (hb : (rest.length + 1) * (2 * N + 3) + 1 ≤ b) (hag : ∀ x ∈ c.excl, l.reg ≠ x → ts[x]? = vs[x]?) :
    Good s R ts vs c (.mut c (gs.map GFrame.frame) rest cur) (gs.map GFrame.id) b (mutStep s c (gs.map GFrame.frame) rest cur) := by
  by_cases hk : rest = [] → c.isKid = true
  · rw [mutStep_eq hk]; exact step_makeMut hh hi ha hk hN hb
  · have h1 : rest = [] := Classical.byContradiction fun h => hk fun h' => absurd h' h
    subst h1
    have h2 : c.isKid = false := by
      cases hc : c.isKid
      · rfl
      · exact absurd (fun _ => hc) hk
    have hr := isFull_false.1 ha.empty
    have hloc := ha.loc
    have hat : vs.at l = some t := ha.atLoc
    have hd := hi.held (cur, t) (by simp)
    have hi' : Inv s ((cur, t) :: (gs.flatMap GFrame.held ++ R)) ts := by simpa using hi
    have hedit : ∀ (m : Node K V) (u : Tree K V), m.kids = cur.kids → m.pre = u.pre → m.val = u.val → u.kids = t.kids →
        Inv s ((m, u) :: (gs.flatMap GFrame.held ++ R)) ts := by
      intro m u e1 e2 e3 e4
      refine hi'.reheld (fun j => ?_) (fun x hx => ?_)
      · simp only [List.map_cons]
        rw [refs_cons, refs_cons j cur]
        have : refs j [m] = refs j [cur] := by
          have : m.isArc j = cur.isArc j := by unfold Node.isArc; rw [e1]
          simp only [refs, List.countP_cons, this]
        rw [this]
      · rcases List.mem_cons.1 hx with rfl | hx
        · obtain ⟨p, v, k⟩ := m
          obtain ⟨p', v', k'⟩ := u
          simp only at e1 e2 e3 e4
          subst e1 e2 e3 e4
          simp only at hd
          cases hd with
          | raw => exact .raw ..
          | arc _ _ hc hds => exact .arc _ _ hc hds
        · exact hi'.held x (List.mem_cons_of_mem _ hx)
    cases c <;> simp [Call.isKid] at h2 <;> simp only [Call.mutLoc, Option.some.injEq, reduceCtorEq] at hloc <;> subst hloc
    case setVal l v =>
      simp only [mutStep]
      have hcl := closeIn_ok (r := l.reg) (hedit { cur with val := v } { t with val := v } rfl hd.pre rfl rfl) hh.held hh.nodup hr
      have hon : (Call.setVal l v : Call K V).on vs = (vs.set l.reg (some (plug { t with val := v } gs)), .ok) := by simp only [Call.on, hat, ha.put]
      refine good_close (regs1 := s.regs) (ts1 := ts) hcl (by simp [Call.excl]) (fun _ _ => ⟨rfl, rfl⟩) (by rw [hon]) (fun x hx => ?_)
      rw [hon]
      simp only [Call.excl, List.mem_singleton] at hx
      subst hx
      rw [getElem?_set_same (hi.none hr), getElem?_set_same ha.tree]
    case setPre l p =>
      simp only [mutStep]
      have hcl := closeIn_ok (r := l.reg) (hedit { cur with pre := p } { t with pre := p } rfl rfl hd.val rfl) hh.held hh.nodup hr
      have hon : (Call.setPre l p : Call K V).on vs = (vs.set l.reg (some (plug { t with pre := p } gs)), .ok) := by simp only [Call.on, hat, ha.put]
      refine good_close (regs1 := s.regs) (ts1 := ts) hcl (by simp [Call.excl]) (fun _ _ => ⟨rfl, rfl⟩) (by rw [hon]) (fun x hx => ?_)
      rw [hon]
      simp only [Call.excl, List.mem_singleton] at hx
      subst hx
      rw [getElem?_set_same (hi.none hr), getElem?_set_same ha.tree]
    case swap l r =>
      have hne : l.reg ≠ r := by have := ha.ready.nodup; simpa [Call.full] using this
      obtain ⟨m, hm⟩ := isFull_true.1 (ha.ready.full r (by simp [Call.full]) (by simpa using hne))
      obtain ⟨u, hu, hi2⟩ := hi'.takeReg hm
      have hvr : vs[r]? = some (some u) := by rw [← hag r (by simp [Call.excl]) hne]; exact hu
      simp only [mutStep, hm]
      have hi3 := (hi2.perm (List.Perm.swap (m, u) (cur, t) _)).putReg (r := r) (getElem?_set_same hm _)
      simp only [List.set_set] at hi3
      have hcl := closeIn_ok (r := l.reg) hi3 hh.held hh.nodup (by rw [List.getElem?_set_ne (Ne.symm hne)]; exact hr)
      have hon : (Call.swap l r : Call K V).on vs = ((vs.set l.reg (some (plug u gs))).set r (some t), .ok) := by simp only [Call.on, hat, hvr, ha.put]
      refine good_close hcl (by simp [Call.excl]) (fun x hx => ?_) (by rw [hon]) (fun x hx => ?_)
      · have : r ≠ x := by rintro rfl; exact hx (by simp [Call.excl])
        rw [List.getElem?_set_ne this, List.getElem?_set_ne this]; exact ⟨rfl, rfl⟩
      · rw [hon]
        simp only [Call.excl, List.mem_cons, List.not_mem_nil, or_false] at hx
        rcases hx with rfl | rfl
        · rw [List.getElem?_set_self (by rw [List.length_set]; exact lt_of_getElem? (hi.none hr)), List.getElem?_set_ne (Ne.symm hne), getElem?_set_same ha.tree]
        · rw [List.getElem?_set_ne hne, getElem?_set_same hu, List.getElem?_set_self (by rw [List.length_set]; exact lt_of_getElem? hvr)]

/-- a step that leaves memory as it is -/
theorem good_quiet {c ph b ph' b'} (hi : Inv s R ts) (hp : PhaseOk s vs ph' [] [] b') (hc : ph'.call = some c) (hb : b' < b) (ho : out ph = none) :
    Good s R ts vs c ph [] b (goOn s ph') :=
  ⟨ts, [], [], b', hi, hp, Held.fresh_same ⟨by simp, .nil⟩ (fun _ h => h) (Nat.le_refl _), .refl s, fun x _ => ⟨.refl s x, rfl, rfl⟩, hc, hb, fun x _ => ⟨by rw [ho]; simp, rfl⟩⟩

/-- a call that only reads is complete -/
theorem good_seen {c ph b o} (hi : Inv s R ts) (hon : c.on vs = (vs, o)) (hag : ∀ x ∈ c.excl, ts[x]? = vs[x]?) : Good s R ts vs c ph [] b (complete s o) :=
  ⟨ts, [], [], 0, hi, .idle, Held.fresh_same ⟨by simp, .nil⟩ (fun _ h => h) (Nat.le_refl _), .refl s, fun x _ => ⟨.refl s x, rfl, rfl⟩, rfl, by rw [hon],
    fun x hx => by rw [hon]; exact hag x hx⟩

theorem on_bad_read {c : Call K V} {l} (h : c.readLoc = some l) (hb : vs.at l = none) : c.on vs = (vs, .bad) := by
  cases c <;> simp [Call.readLoc] at h <;> subst h <;> simp [Call.on, hb]

theorem full_of_readLoc {c : Call K V} {l} (h : c.readLoc = some l) : l.reg ∈ c.full ∧ l.reg ∈ c.shared := by
  cases c <;> simp [Call.readLoc] at h <;> subst h <;> simp [Call.full, Call.shared]

theorem Ready.regs {regs regs' : List (Option (Node K V))} {c : Call K V} {o} (h : Ready regs c o) (hx : ∀ x, isFull regs' x = isFull regs x) : Ready regs' c o where
  full x hm hn := (hx x).trans (h.full x hm hn)
  empty x hm := (hx x).trans (h.empty x hm)
  nodup := h.nodup
  disj := h.disj

theorem Den.mk_kids {h : Heap K V} {n : Node K V} {t : Tree K V} (hd : Den h n t) {id} (hk : n.kids = .arc id) :
    ∃ r ns, h.cell id = some (r, ns) ∧ Dens h ns t.kids := by
  cases hd with
  | raw => cases hk
  | arc _ _ hc hds => cases hk; exact ⟨_, _, hc, hds⟩

theorem treeAt_append : ∀ {p : List Nat} {T t : Tree K V}, treeAt p T = some t → ∀ rest, treeAt (p ++ rest) T = treeAt rest t
  | [], T, t, h, rest => by cases h; rfl
  | i :: p, T, t, h, rest => by
    simp only [List.cons_append, treeAt] at h ⊢
    cases hi : T.kids[i]? with
    | none => rw [hi] at h; cases h
    | some u => rw [hi] at h; exact treeAt_append h rest

theorem step_read {c : Call K V} {l p σ rest b} (hi : Inv s R ts) (hl : c.readLoc = some l) (hr : Ready s.regs c none) (hp : l.path = p ++ rest) (hσ : SiteAt s l.reg p σ)
    (hb : 2 * rest.length + 1 ≤ b) (hb2 : b = 2 * rest.length + 1 → ∀ n, s.node σ = some n → ∃ id, n.kids = .arc id)
    (hag : ∀ x ∈ c.excl, ts[x]? = vs[x]?) (hag2 : ∀ x ∈ c.shared, ts[x]? = vs[x]?) :
    Good s R ts vs c (.read c σ rest) [] b (readStep s c σ rest) := by
  obtain ⟨n0, hn0⟩ := isFull_true.1 (hr.full l.reg (full_of_readLoc hl).1 (by simp))
  obtain ⟨T, hT, -⟩ := hi.regs.some hn0
  obtain ⟨n, t, hn, hd, ht⟩ := hσ.den hi hT
  have hv : vs[l.reg]? = some (some T) := by rw [← hag2 _ (full_of_readLoc hl).2]; exact hT
  have hat : vs.at l = treeAt rest t := by
    simp only [Vars.at, hv, hp]
    exact treeAt_append ht rest
  -- loading
  have hforce : ∀ us, n.kids = .raw us → Good s R ts vs c (.read c σ rest) [] b (goOn (s.force σ) (.read c σ rest)) := by
    intro us hus
    obtain ⟨f1, f2, f3, f4, -, f5, f6, m, f7, id, f8⟩ := hi.force hn hd
    have hb' : 2 * rest.length + 1 < b := by
      rcases Nat.lt_or_eq_of_le hb with h | h
      · exact h
      · obtain ⟨id, hid⟩ := hb2 h.symm n hn
        rw [hus] at hid; cases hid
    refine ⟨ts, [], [], 2 * rest.length + 1, f1, ?_, ⟨⟨by simp [goOn], .nil⟩, by simp, fun j hj _ hc => f6 j hj hc, f5⟩, f2, fun x _ => ⟨f3 x, f4 x, rfl⟩, rfl, hb', fun x _ => ⟨by simp [out], rfl⟩⟩
    refine .read hl (hr.regs f4) hp (hσ.mono f2 (f3 _)).1 (Nat.le_refl _) (fun _ k hk => ?_)
    simp only [goOn] at hk
    rw [f7] at hk; cases hk; exact ⟨id, f8⟩
  simp only [readStep, hn]
  cases rest with
  | cons i is =>
    cases hk : n.kids with
    | raw us => exact hforce us hk
    | arc id =>
      obtain ⟨r, ns, hc, hds⟩ := Den.mk_kids hd hk
      simp only [hc]
      by_cases hlt : i < ns.length
      · rw [if_pos hlt]
        simp only [List.length_cons] at hb
        exact good_quiet (b' := 2 * is.length + 2) hi (.read hl hr (p := p ++ [i]) (by simp [hp]) (.child hσ hn hk hc hlt) (by omega) (fun h => by omega)) rfl (by omega) rfl
      · rw [if_neg hlt]
        refine good_seen hi (on_bad_read hl ?_) hag
        rw [hat, treeAt, List.getElem?_eq_none (by rw [← hds.length]; omega)]
  | nil =>
    have hat' : vs.at l = some t := hat
    cases c <;> simp [Call.readLoc] at hl <;> subst hl
    case clone l dst =>
      obtain ⟨h, q1, q2, q3, q4, q5⟩ := hi.clone hd
      have hdst := isFull_false.1 (hr.empty dst (by simp [Call.empty]))
      simp only [q1]
      have hon : (Call.clone l dst : Call K V).on vs = (vs.set dst (some t), .ok) := by simp only [Call.on, hat']
      refine ⟨ts.set dst (some t), [], [], 0, q2.putReg hdst, .idle, Held.fresh_same ⟨by simp, .nil⟩ q5 (Nat.le_of_eq q4.symm), .of_sameVecs q3, fun x hx => ?_, rfl, by rw [hon], fun x hx => ?_⟩
      · have : dst ≠ x := by rintro rfl; exact hx (by simp [Call.excl])
        refine ⟨.of_eq ?_, ?_, List.getElem?_set_ne this⟩
        · exact List.getElem?_set_ne this
        · exact isFull_set_ne (Ne.symm this)
      · simp only [Call.excl, List.mem_singleton] at hx
        subst hx
        have := hi.none hdst
        rw [hon, getElem?_set_same this, getElem?_set_same (by rw [← hag x (by simp [Call.excl])]; exact this)]
    case look l =>
      simp only
      cases hk : n.kids with
      | raw us => exact hforce us hk
      | arc id =>
        obtain ⟨r, ns, hc, hds⟩ := Den.mk_kids hd hk
        simp only [hc]
        refine good_seen hi ?_ hag
        simp only [Call.on, hat', hd.pre, hd.val, hds.length]

/-! ### the first step -/
theorem takeRegs_some : ∀ (rs : List Nat) (regs : List (Option (Node K V))), rs.Nodup → (∀ x ∈ rs, isFull regs x = some true) →
    ∃ ns regs', takeRegs regs rs = some (ns, regs') ∧ ∀ x, x ∉ rs → regs'[x]? = regs[x]?
  | [], regs, _, _ => ⟨[], regs, rfl, fun _ _ => rfl⟩
  | r :: rs, regs, hn, hf => by
    rw [List.nodup_cons] at hn
    obtain ⟨n, hr⟩ := isFull_true.1 (hf r (by simp))
    obtain ⟨ns, regs', h1, h2⟩ := takeRegs_some rs (regs.set r none) hn.2 (fun x hx => by
      rw [isFull_set_ne (by rintro rfl; exact hn.1 hx)]; exact hf x (List.mem_cons_of_mem _ hx))
    refine ⟨n :: ns, regs', by simp [takeRegs, hr, h1], fun x hx => ?_⟩
    rw [List.mem_cons, not_or] at hx
    rw [h2 x hx.2, List.getElem?_set_ne (Ne.symm hx.1)]

theorem takeVars_spec : ∀ (rs : List Nat) (ts : Vars K V) {us ts'}, takeVars ts rs = some (us, ts') →
    (∀ x, x ∉ rs → ts'[x]? = ts[x]?) ∧ ∀ x ∈ rs, ts'[x]? = some none
  | [], ts, us, ts', h => by cases h; exact ⟨fun _ _ => rfl, by simp⟩
  | r :: rs, ts, us, ts', h => by
    simp only [takeVars] at h
    split at h
    · rename_i t ht
      split at h
      · rename_i us2 ts2 h2
        cases h
        obtain ⟨k1, k2⟩ := takeVars_spec rs _ h2
        refine ⟨fun x hx => ?_, fun x hx => ?_⟩
        · rw [List.mem_cons, not_or] at hx
          rw [k1 x hx.2, List.getElem?_set_ne (Ne.symm hx.1)]
        · by_cases hm : x ∈ rs
          · exact k2 x hm
          · rcases List.mem_cons.1 hx with rfl | hx
            · rw [k1 x hm, getElem?_set_same ht]
            · exact absurd hx hm
      · cases h
    · cases h

theorem takeVars_congr : ∀ (rs : List Nat) {ts vs : Vars K V} {us ts'}, takeVars ts rs = some (us, ts') → (∀ x ∈ rs, ts[x]? = vs[x]?) →
    ∃ vs', takeVars vs rs = some (us, vs')
  | [], ts, vs, us, ts', h, _ => by cases h; exact ⟨vs, rfl⟩
  | r :: rs, ts, vs, us, ts', h, ha => by
    simp only [takeVars] at h ⊢
    split at h
    · rename_i t ht
      have hv : vs[r]? = some (some t) := by rw [← ha r (by simp)]; exact ht
      split at h
      · rename_i us2 ts2 h2
        cases h
        obtain ⟨vs', k⟩ := takeVars_congr rs (vs := vs.set r none) h2 (fun x hx => by
          by_cases e : r = x
          · subst e; rw [getElem?_set_same ht, getElem?_set_same hv]
          · rw [List.getElem?_set_ne e, List.getElem?_set_ne e]; exact ha x (List.mem_cons_of_mem _ hx))
        simp only [hv, k]
        exact ⟨vs', rfl⟩
      · cases h
    · cases h

/-- a new node goes into a variable, and the call is complete -/
theorem good_new {c ph b} {h' : Heap K V} {n t dst} (hi : Inv { s with heap := h' } ((n, t) :: R) ts) (hs : SameVecs s.heap h')
    (hc : ∀ j, j < s.heap.next → s.heap.cell j = none → h'.cell j = none) (hnx : s.heap.next ≤ h'.next)
    (hd : s.regs[dst]? = some none) (hv : vs[dst]? = some none) (hex : c.excl = [dst]) (hon : c.on vs = (vs.set dst (some t), .ok)) :
    Good s R ts vs c ph [] b (complete { s with heap := h', regs := s.regs.set dst (some n) } .ok) := by
  refine ⟨ts.set dst (some t), [], [], 0, hi.putReg hd, .idle, ⟨⟨by simp, .nil⟩, by simp, fun j hj _ => hc j hj, hnx⟩, .of_sameVecs hs, fun x hx => ?_, rfl, by rw [hon], fun x hx => ?_⟩
  · have : dst ≠ x := by rintro rfl; exact hx (by simp [hex])
    refine ⟨.of_eq ?_, ?_, List.getElem?_set_ne this⟩
    · exact List.getElem?_set_ne this
    · exact isFull_set_ne (Ne.symm this)
  · rw [hex, List.mem_singleton] at hx
    subst hx
    rw [hon, getElem?_set_same (hi.none hd), getElem?_set_same hv]

theorem inv_raw (hi : Inv s R ts) (t : Tree K V) : Inv s ((rawNode t, t) :: R) ts := by
  refine hi.reheld (fun j => ?_) (fun x hx => ?_)
  · rw [List.map_cons, refs_cons]
    have : refs j [rawNode t] = 0 := refs_rawNodes j [t]
    simp [this]
  · rcases List.mem_cons.1 hx with rfl | hx
    · exact den_rawNode _ _
    · exact hi.held x hx

theorem wrap_heap (st : Option Nat) (h : Heap K V) (ns : List (Node K V)) :
    (∀ j, j < h.next → h.cell j = none → (wrap st h ns).1.cell j = none) ∧ h.next ≤ (wrap st h ns).1.next := by
  unfold wrap
  split
  · exact ⟨fun j _ hj => inc_none hj, by simp⟩
  · refine ⟨fun j hlt hj => ?_, Nat.le_succ _⟩
    simp only [Heap.alloc]; rw [if_neg (by omega)]; exact hj

theorem step_start {c : Call K V} {b} (hi : Inv s R ts) (hr : Ready s.regs c none) (hb : c.cost vs ≤ b)
    (hag : ∀ x ∈ c.excl, ts[x]? = vs[x]?) (hag2 : ∀ x ∈ c.shared, ts[x]? = vs[x]?) :
    Good s R ts vs c (.start c) [] b (startStep s c) := by
  have hempty : ∀ {x}, x ∈ c.empty → x ∈ c.excl → s.regs[x]? = some none ∧ vs[x]? = some none := fun {x} h1 h2 => by
    have := isFull_false.1 (hr.empty x h1)
    exact ⟨this, by rw [← hag x h2]; exact hi.none this⟩
  have hmut : ∀ l, c.mutLoc = some l → Good s R ts vs c (.start c) [] b (match s.regs[l.reg]? with
      | some (some n) => goOn { s with regs := s.regs.set l.reg none } (.mut c [] l.path n)
      | _ => faulty s) := by
    intro l hl
    have hfull : l.reg ∈ c.full := by cases c <;> simp [Call.mutLoc] at hl <;> subst hl <;> simp [Call.full]
    have hne := excl_of_mutLoc hl
    obtain ⟨n, hn⟩ := isFull_true.1 (hr.full l.reg hfull (by simp))
    obtain ⟨t, ht, hi2⟩ := hi.takeReg hn
    have hv : vs[l.reg]? = some (some t) := by rw [← hag _ hne]; exact ht
    have hcost : c.cost vs = (l.path.length + 1) * (2 * nodes t + 3) + 2 := by simp only [Call.cost, loc_of_mutLoc hl, hv]
    simp only [hn]
    have key := PhaseOk.mut (s := { s with regs := s.regs.set l.reg none }) (vs := vs) (c := c) (l := l) (gs := []) (rest := l.path) (cur := n) (t := t) (N := nodes t) (b := b - 1)
      ⟨hl, ⟨fun x hx hxn => ?_, fun x hx => ?_, hr.nodup, hr.disj⟩, isFull_false.2 (getElem?_set_same hn _), rfl, hv⟩ (Nat.le_refl _) (by omega)
    · refine ⟨ts.set l.reg none, [(n, t)], [], b - 1, hi2, key, Held.fresh_same ⟨by simp, .nil⟩ (fun _ h => h) (Nat.le_refl _),
        .of_sameVecs (.refl _), fun x hx => ?_, rfl, by omega, fun x hx => ?_⟩
      · have : l.reg ≠ x := by rintro rfl; exact hx hne
        refine ⟨.of_eq ?_, ?_, List.getElem?_set_ne this⟩
        · exact List.getElem?_set_ne this
        · exact isFull_set_ne (Ne.symm this)
      · simp only [goOn, out, loc_of_mutLoc hl, Option.map_some, ne_eq, Option.some.injEq] at hx
        exact ⟨by simp [out], List.getElem?_set_ne hx⟩
    · rw [isFull_set_ne (by rintro rfl; exact hxn rfl)]; exact hr.full x hx (by simp)
    · rw [isFull_set_ne (by rintro rfl; exact hr.disj _ hx hfull)]; exact hr.empty x hx
  have hread : ∀ l, c.readLoc = some l → Good s R ts vs c (.start c) [] b (goOn s (.read c (.reg l.reg) l.path)) := by
    intro l hl
    obtain ⟨n, hn⟩ := isFull_true.1 (hr.full l.reg (full_of_readLoc hl).1 (by simp))
    obtain ⟨t, ht, -⟩ := hi.regs.some hn
    have hv : vs[l.reg]? = some (some t) := by rw [← hag2 _ (full_of_readLoc hl).2]; exact ht
    have hloc : c.loc = some l := by cases c <;> simp [Call.readLoc] at hl <;> subst hl <;> rfl
    have hcost : c.cost vs = (l.path.length + 1) * (2 * nodes t + 3) + 2 := by simp only [Call.cost, hloc, hv]
    have : (l.path.length + 1) * 3 ≤ (l.path.length + 1) * (2 * nodes t + 3) := Nat.mul_le_mul_left _ (by omega)
    exact good_quiet (b' := 2 * l.path.length + 2) hi (.read hl hr (p := []) rfl (.root hn) (by omega) (fun h => by omega)) rfl (by omega) rfl
  cases c with
  | default dst =>
    obtain ⟨h1, h2⟩ := hempty (x := dst) (by simp [Call.empty]) (by simp [Call.excl])
    simp only [startStep]
    rcases hs : s.static with _ | e
    · have := good_new (c := .default dst) (ph := .start (.default dst)) (b := b) (h' := s.heap) (n := rawNode ⟨[], none, []⟩) (inv_raw hi _) (.refl _) (fun _ _ h => h) (Nat.le_refl _) h1 h2 rfl rfl
      rw [hs] at this; exact this
    · obtain ⟨h, q1, q2, q3, q4, q5⟩ := hi.clone (hi.stat e hs)
      have : h = s.heap.inc e := by
        simp only [cloneStep] at q1
        split at q1
        · exact (Option.some.inj q1).symm
        · cases q1
      subst this
      have := good_new (c := .default dst) (ph := .start (.default dst)) (b := b) q2 q3 (fun j _ => q5 j) (Nat.le_of_eq q4.symm) h1 h2 rfl rfl
      rw [hs] at this; exact this
  | load t dst =>
    obtain ⟨h1, h2⟩ := hempty (x := dst) (by simp [Call.empty]) (by simp [Call.excl])
    exact good_new (h' := s.heap) (inv_raw hi t) (.refl _) (fun _ _ h => h) (Nat.le_refl _) h1 h2 rfl rfl
  | new p v children dst =>
    obtain ⟨h1, h2⟩ := hempty (x := dst) (by simp [Call.empty]) (by simp [Call.excl])
    obtain ⟨ns, regs', k1, k2⟩ := takeRegs_some children s.regs hr.nodup (fun x hx => hr.full x hx (by simp))
    have hdc : dst ∉ children := hr.disj dst (by simp [Call.empty])
    rcases takeRegs_ok children hi.ok.core with ⟨e1, -⟩ | ⟨ns', regs'', us, ts', e1, e2, e3, e4⟩
    · rw [k1] at e1; cases e1
    · rw [k1] at e1; cases e1
      obtain ⟨vs', e5⟩ := takeVars_congr children e2 (fun x hx => hag x (by simp [Call.excl, hx]))
      obtain ⟨t1, t2⟩ := takeVars_spec _ _ e2
      obtain ⟨v1, v2⟩ := takeVars_spec _ _ e5
      simp only [startStep, k1]
      obtain ⟨w1, w2, w3⟩ := wrap_ok (st := s.static) (R := regs'.filterMap id ++ (others s R).map Prod.fst) (by simpa using e4.wf) e3 (fun e he => hi.stat e he) p v
      obtain ⟨w4, w5⟩ := wrap_heap s.static s.heap ns
      have hcore : Core (wrap s.static s.heap ns).1 regs' ts' (others s R) [⟨p, v, (wrap s.static s.heap ns).2⟩] :=
        ⟨by simpa using w1, e4.regs.heap fun m _ u h => h.mono w3, fun x hx => (e4.frame x hx).mono w3⟩
      have hdst : regs'[dst]? = some none := by rw [k2 dst hdc]; exact h1
      have hok := Inv.of_ok (s := { s with heap := (wrap s.static s.heap ns).1, regs := regs'.set dst (some ⟨p, v, (wrap s.static s.heap ns).2⟩) }) (F := R)
        (Core.ok (st := s.static) (hcore.put w2 hdst))
      have hon : (Call.new p v children dst).on vs = (vs'.set dst (some ⟨p, v, us⟩), .ok) := by simp only [Call.on, e5]
      refine ⟨ts'.set dst (some ⟨p, v, us⟩), [], [], 0, hok, .idle, ⟨⟨by simp, .nil⟩, by simp, fun j hj _ => w4 j hj, w5⟩, .of_sameVecs w3, fun x hx => ?_, rfl, by rw [hon], fun x hx => ?_⟩
      · simp only [Call.excl, List.mem_cons, not_or] at hx
        have hx1 := Ne.symm hx.1
        have e6 : (regs'.set dst (some ⟨p, v, (wrap s.static s.heap ns).2⟩))[x]? = s.regs[x]? := by rw [List.getElem?_set_ne hx1, k2 x hx.2]
        exact ⟨.of_eq e6, by simp only [complete, isFull, e6], by rw [List.getElem?_set_ne hx1, t1 x hx.2]⟩
      · rw [hon]
        have hd1 : ts'[dst]? = some none := by rw [t1 dst hdc]; exact hi.none h1
        have hd2 : vs'[dst]? = some none := by rw [v1 dst hdc]; exact h2
        by_cases e : dst = x
        · subst e; rw [getElem?_set_same hd1, getElem?_set_same hd2]
        · simp only [Call.excl, List.mem_cons] at hx
          have hx := hx.resolve_left (Ne.symm e)
          rw [List.getElem?_set_ne e, List.getElem?_set_ne e, t2 x hx, v2 x hx]
  | clone l dst => exact hread l rfl
  | look l => exact hread l rfl
  | setVal l v => exact hmut l rfl
  | setPre l p => exact hmut l rfl
  | swap l r => exact hmut l rfl
  | insertKid l i r => exact hmut l rfl
  | removeKid l i dst => exact hmut l rfl
  | drop r =>
    obtain ⟨n, hn⟩ := isFull_true.1 (hr.full r (by simp [Call.full]) (by simp))
    obtain ⟨t, ht, hi2⟩ := hi.takeReg hn
    have hv : vs[r]? = some (some t) := by rw [← hag r (by simp [Call.excl])]; exact ht
    have hcost : (Call.drop r : Call K V).cost vs = (0 + 1) * (2 * nodes t + 3) + 2 := by simp only [Call.cost, Call.loc, hv, List.length_nil]
    simp only [startStep, hn]
    refine ⟨ts.set r none, [(n, t)], [], nodes t + 1, hi2, .drop (ws := [(n, t)]) (isFull_false.2 (getElem?_set_same hn _)) hv (by simp [nodes.nodesL]),
      Held.fresh_same ⟨by simp, .nil⟩ (fun _ h => h) (Nat.le_refl _), .of_sameVecs (.refl _), fun x hx => ?_, rfl, by omega, fun x hx => ?_⟩
    · have : r ≠ x := by rintro rfl; exact hx (by simp [Call.excl])
      refine ⟨.of_eq ?_, ?_, List.getElem?_set_ne this⟩
      · exact List.getElem?_set_ne this
      · exact isFull_set_ne (Ne.symm this)
    · simp only [goOn, out, Call.loc, Option.map_some, ne_eq, Option.some.injEq] at hx
      exact ⟨by simp [out], List.getElem?_set_ne hx⟩

end

/-- **one step of a thread** -/
theorem microStep_ok {s : St K V} {R ts} {vs : Vars K V} {ph F ids b c} (hp : PhaseOk s vs ph F ids b) (hc : ph.call = some c) (hh : Held s ids) (hi : Inv s (F ++ R) ts)
    (hag : ∀ x, x ∈ c.excl ∨ x ∈ c.shared → out ph ≠ some x → ts[x]? = vs[x]?) : Good s R ts vs c ph ids b (microStep s ph) := by
  cases hp with
  | idle => cases hc
  | start hr hb => cases hc; exact step_start hi hr hb (fun x hx => hag x (.inl hx) (by simp [out])) (fun x hx => hag x (.inr hx) (by simp [out]))
  | read hl hr hp hσ hb hb2 =>
    cases hc; exact step_read hi hl hr hp hσ hb hb2 (fun x hx => hag x (.inl hx) (by simp [out])) (fun x hx => hag x (.inr hx) (by simp [out]))
  | «mut» ha hN hb =>
    cases hc
    exact step_mut hh hi ha hN hb (fun x hx hne => hag x (.inl hx) (by simpa [out, loc_of_mutLoc ha.loc] using hne))
  | copy ha hk hc' hcs hN hb => cases hc; exact step_copy hh hi ha hk hc' hcs hN hb
  | @own c' l gs rest p v id cs ws N b ha hk hN hb =>
    simp only [Phase.call, Option.some.injEq] at hc
    subst hc
    have hag' : ∀ x ∈ c'.excl, l.reg ≠ x → ts[x]? = vs[x]? := fun x hx hne => hag x (.inl hx) (by simpa [out, loc_of_mutLoc ha.loc] using hne)
    cases ws with
    | cons w ws => exact step_own_work hh hi ha hk hN hb
    | nil =>
      simp only [List.map_nil, nodes.nodesL, List.nil_append] at *
      cases rest with
      | cons i is => exact step_own_down hh hi ha hN (by simpa using hb) hag'
      | nil => exact step_own_here hh hi ha (hk rfl) hag'
  | drop hr ho hb => cases hc; exact step_drop hi hr ho hb

end Verif.Threads
