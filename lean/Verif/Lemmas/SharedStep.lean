import Verif.Lemmas.SharedMachine
namespace Verif.Shared
variable {K V : Type _}

/-! ## state with some nodes moved out -/
structure Core (h : Heap K V) (regs : List (Option (Node K V))) (ts : Vars K V) (S : List (Node K V × Tree K V)) (ins : List (Node K V)) : Prop where
  wf : WF h (ins ++ (regs.filterMap id ++ S.map Prod.fst))
  regs : RegDen h regs ts
  frame : ∀ x ∈ S, Den h x.1 x.2

theorem Ok.core {s : St K V} {F ts} (ho : Ok s F ts) : Core s.heap s.regs ts (others s F) [] := ⟨ho.wf, ho.regs, ho.frame⟩

theorem Core.ok {h : Heap K V} {regs F ts st} (hc : Core h regs ts (others ⟨h, regs, st⟩ F) []) : Ok ⟨h, regs, st⟩ F ts := ⟨hc.wf, hc.regs, hc.frame⟩

theorem Core.heap {h h' : Heap K V} {regs ts S ins ins'} (hc : Core h regs ts S ins)
    (hw : WF h' (ins' ++ (regs.filterMap id ++ S.map Prod.fst))) (hx : Ext h h' (regs.filterMap id ++ S.map Prod.fst)) : Core h' regs ts S ins' :=
  ⟨hw, hc.regs.heap fun m hm u => hx.den m (List.mem_append_left _ hm) u, fun x hm => hx.den _ (List.mem_append_right _ (List.mem_map_of_mem hm)) _ (hc.frame x hm)⟩

theorem Core.take {h : Heap K V} {regs ts S ins} (hc : Core h regs ts S ins) {i : Nat} {n : Node K V} (hi : regs[i]? = some (some n)) :
    Core h (regs.set i none) (ts.set i none) S (n :: ins) := by
  refine ⟨hc.wf.perm ?_, hc.regs.set trivial, hc.frame⟩
  have := (perm_self hi).append_right (S.map Prod.fst)
  simp only [Option.toList_some, List.singleton_append] at this
  have h2 := this.append_left ins
  refine .trans ?_ h2.symm
  simp only [List.cons_append]
  exact List.perm_middle.symm

theorem Core.put {h : Heap K V} {regs ts S ins} {n : Node K V} {t : Tree K V} (hc : Core h regs ts S (n :: ins)) (hd : Den h n t) {i : Nat}
    (hi : regs[i]? = some none) : Core h (regs.set i (some n)) (ts.set i (some t)) S ins := by
  refine ⟨hc.wf.perm ?_, hc.regs.set hd, hc.frame⟩
  have := (perm_set hi (some n)).append_right (S.map Prod.fst)
  rw [set_same hi] at this
  simp only [Option.toList_some, List.singleton_append] at this
  refine (this.append_left ins).trans ?_
  simp only [List.cons_append]
  exact List.perm_middle

theorem Core.push {h : Heap K V} {regs ts S ins} {n : Node K V} {t : Tree K V} (hc : Core h regs ts S (n :: ins)) (hd : Den h n t) :
    Core h (regs ++ [some n]) (ts ++ [some t]) S ins := by
  refine ⟨hc.wf.perm ?_, hc.regs.push hd, hc.frame⟩
  simp only [List.filterMap_append, List.filterMap_cons, List.filterMap_nil, id, List.append_assoc, List.cons_append, List.nil_append]
  exact (List.perm_middle.append_left ins).trans List.perm_middle

theorem takeRegs_ok : ∀ (rs : List Nat) {h : Heap K V} {regs ts S ins}, Core h regs ts S ins →
    (takeRegs regs rs = none ∧ takeVars ts rs = none) ∨
    ∃ ns regs' us ts', takeRegs regs rs = some (ns, regs') ∧ takeVars ts rs = some (us, ts') ∧ Dens h ns us ∧ Core h regs' ts' S (ns ++ ins)
  | [], h, regs, ts, S, ins, hc => .inr ⟨[], regs, [], ts, rfl, rfl, .nil, hc⟩
  | r :: rs, h, regs, ts, S, ins, hc => by
    by_cases hr : ∃ n, regs[r]? = some (some n)
    · obtain ⟨n, hr⟩ := hr
      obtain ⟨t, ht, hd⟩ := hc.regs.some hr
      rcases takeRegs_ok rs (hc.take hr) with ⟨e1, e2⟩ | ⟨ns, regs', us, ts', e1, e2, e3, e4⟩
      · exact .inl ⟨by simp [takeRegs, hr, e1], by simp [takeVars, ht, e2]⟩
      · refine .inr ⟨n :: ns, regs', t :: us, ts', by simp [takeRegs, hr, e1], by simp [takeVars, ht, e2], .cons hd e3, ?_⟩
        exact ⟨e4.wf.perm (by simpa using List.perm_middle.symm), e4.regs, e4.frame⟩
    · have h1 : ∀ n, regs[r]? ≠ some (some n) := fun n hn => hr ⟨n, hn⟩
      have h2 := hc.regs.not_some h1
      refine .inl ⟨?_, ?_⟩
      · simp only [takeRegs]
      · simp only [takeVars]

theorem exec_ok {h : Heap K V} {regs ts S ins tis} (hc : Core h regs ts S ins) (hi : Dens h ins tis) {r0 : Nat} {n : Node K V} {t : Tree K V}
    (hr : regs[r0]? = some (some n)) (ht : ts[r0]? = some (some t)) (hd : Den h n t)
    {act : Heap K V → Node K V → Heap K V × Node K V × Option (List (Node K V))} {pact : Tree K V → Option (Tree K V × List (Tree K V))}
    (ha : ActOk act pact ins tis) (path : List Nat) :
    match pmodAt pact path t with
    | some (t', us) => ∃ outs, (modAt act path h n).2.2 = some outs ∧ Dens (modAt act path h n).1 outs us ∧
        Core (modAt act path h n).1 (regs.set r0 (some (modAt act path h n).2.1)) (ts.set r0 (some t')) S outs
    | none => (modAt act path h n).2.2 = none ∧ Dens (modAt act path h n).1 ins tis ∧
        Core (modAt act path h n).1 (regs.set r0 (some (modAt act path h n).2.1)) ts S ins := by
  have hct := hc.take hr
  have hres := modAt_ok ha path h n t _ hct.wf hd hi
  have hnone : (regs.set r0 none)[r0]? = some none := by
    have : r0 < regs.length := by
      rcases Nat.lt_or_ge r0 regs.length with h1 | h1
      · exact h1
      · rw [List.getElem?_eq_none h1] at hr; cases hr
    simp [this]
  cases hp : pmodAt pact path t with
  | some x =>
    obtain ⟨t', us⟩ := x
    rw [hp] at hres
    obtain ⟨outs, e1, e2, e3, e4, e5⟩ := hres
    refine ⟨outs, e1, e4, ?_⟩
    have := (hct.heap (ins' := (modAt act path h n).2.1 :: outs) e2 e5).put e3 hnone
    simpa only [List.set_set] using this
  | none =>
    rw [hp] at hres
    obtain ⟨e1, e2, e3, e4⟩ := hres
    refine ⟨e1, hi.map_heap (fun m hm u => e4.den m (List.mem_append_left _ hm) u), ?_⟩
    have := (hct.heap (ins' := (modAt act path h n).2.1 :: ins) e2 (e4.sub fun m hm => List.mem_append_right _ hm)).put e3 hnone
    simp only [List.set_set] at this
    rwa [set_same ht] at this

/-! ## the actions -/
theorem actOk_edit (f : Node K V → Node K V) (g : Tree K V → Tree K V)
    (hk : ∀ n, (f n).kids = n.kids) (hg : ∀ t, (g t).kids = t.kids)
    (hp : ∀ n t, n.pre = t.pre → n.val = t.val → (f n).pre = (g t).pre ∧ (f n).val = (g t).val) :
    ActOk (fun h m => (h, f m, some [])) (fun t => some (g t, [])) [] [] := by
  intro h n t R hw hd _
  refine ⟨[], rfl, ?_, ?_, .nil, .refl h R⟩
  · refine hw.congr fun id => ?_
    rw [refs_cons, refs_cons id n]
    have : refs id [f n] = refs id [n] := by
      have : (f n).isArc id = n.isArc id := by unfold Node.isArc; rw [hk]
      simp only [refs, List.countP_cons, this]
    rw [this]
  · show Den h (f n) (g t)
    have h1 := hp n t hd.pre hd.val
    have h2 := hk n
    have h3 := hg t
    generalize f n = m at *
    generalize g t = u at *
    obtain ⟨p, v, k⟩ := m
    obtain ⟨p', v', k'⟩ := u
    obtain ⟨rfl, rfl⟩ := h1
    simp only at h2 h3
    subst h2 h3
    cases hd with
    | raw => exact .raw ..
    | arc _ _ hc hds => exact .arc _ _ hc hds

theorem actOk_swap {m : Node K V} {u : Tree K V} :
    ActOk (fun h x => (h, m, some [x])) (fun t => some (u, [t])) [m] [u] := by
  intro h n t R hw hd hi
  cases hi with
  | cons d1 _ => exact ⟨[n], rfl, hw.perm (by simpa using List.Perm.swap ..), d1, .cons hd .nil, .refl h R⟩

theorem actOk_insert {m : Node K V} {u : Tree K V} (i : Nat) :
    ActOk (fun h x =>
          match childrenMut h x with
          | (h1, id, ns) =>
            if i ≤ ns.length then
              match putBack h1 x id (ns.take i ++ m :: ns.drop i) with | (h2, x') => (h2, x', some [])
            else match putBack h1 x id ns with | (h2, x') => (h2, x', none))
      (fun t => if i ≤ t.kids.length then some (⟨t.pre, t.val, t.kids.take i ++ u :: t.kids.drop i⟩, []) else none) [m] [u] := by
  intro h n t R hw hd hi
  have hmut := childrenMut_ok hw hd
  rcases hcm : childrenMut h n with ⟨h1, id, ns⟩
  rw [hcm] at hmut
  simp only at hmut
  simp only [hcm]
  have hl := hmut.dens.length
  by_cases hle : i ≤ ns.length
  · rw [if_pos hle, if_pos (by rw [← hl]; exact hle)]
    have d1 : Den h m u := by cases hi with | cons d1 _ => exact d1
    have hds : Dens h1 (ns.take i ++ m :: ns.drop i) (t.kids.take i ++ u :: t.kids.drop i) :=
      (hmut.dens.take i).append (.cons (hmut.ext.den m (by simp) u d1) (hmut.dens.drop i))
    have hw1 : WF h1 ((ns.take i ++ m :: ns.drop i) ++ R) := by
      refine hmut.wf.perm ?_
      have e1 : ((ns.take i ++ m :: ns.drop i) ++ R).Perm (m :: (ns ++ R)) := by
        have := (List.perm_middle (a := m) (l₁ := ns.take i) (l₂ := ns.drop i)).append_right R
        rwa [List.take_append_drop] at this
      exact e1.trans List.perm_middle.symm
    obtain ⟨k1, k2, k3, k4⟩ := BorrowOk.close (n := n) (R := R) ⟨hmut.res, hmut.lt, hmut.ext.sub (fun m hm => List.mem_append_right _ hm), hmut.fresh⟩
      (Ext.refl h1 R) hw1 hds
    rw [hd.pre, hd.val] at k2
    exact ⟨[], rfl, k1, k2, .nil, k3⟩
  · rw [if_neg hle, if_neg (by rw [← hl]; exact hle)]
    obtain ⟨k1, k2, k3, k4⟩ := hmut.toBorrowOk.close (Ext.refl h1 _) hmut.wf hmut.dens
    have het : (⟨n.pre, n.val, t.kids⟩ : Tree K V) = t := by rw [hd.pre, hd.val]; cases t; rfl
    rw [het] at k2
    exact ⟨rfl, k1, k2, k3⟩

theorem actOk_remove (i : Nat) :
    ActOk (K := K) (V := V) (fun h x =>
        match childrenMut h x with
        | (h1, id, ns) =>
          match ns[i]? with
          | some m => match putBack h1 x id (ns.take i ++ ns.drop (i + 1)) with | (h2, x') => (h2, x', some [m])
          | none => match putBack h1 x id ns with | (h2, x') => (h2, x', none))
      (fun t => match t.kids[i]? with | some u => some (⟨t.pre, t.val, t.kids.take i ++ t.kids.drop (i + 1)⟩, [u]) | none => none) [] [] := by
  intro h n t R hw hd hi
  have hmut := childrenMut_ok hw hd
  rcases hcm : childrenMut h n with ⟨h1, id, ns⟩
  rw [hcm] at hmut
  simp only at hmut
  simp only [hcm]
  rcases hmut.dens.get i with ⟨g1, g2⟩ | ⟨c, tc, g1, g2, g3⟩
  · rw [g1, g2]
    obtain ⟨k1, k2, k3, k4⟩ := hmut.toBorrowOk.close (Ext.refl h1 _) hmut.wf hmut.dens
    have het : (⟨n.pre, n.val, t.kids⟩ : Tree K V) = t := by rw [hd.pre, hd.val]; cases t; rfl
    rw [het] at k2
    exact ⟨rfl, k1, k2, k3⟩
  · rw [g1, g2]
    have hds : Dens h1 (ns.take i ++ ns.drop (i + 1)) (t.kids.take i ++ t.kids.drop (i + 1)) := (hmut.dens.take i).append (hmut.dens.drop _)
    have hw1 : WF h1 ((ns.take i ++ ns.drop (i + 1)) ++ (c :: R)) := by
      refine hmut.wf.perm ?_
      rw [List.nil_append]
      refine List.perm_middle.trans ?_
      rw [← List.cons_append]
      refine List.Perm.append_right R ?_
      have := perm_pull g1 c
      rw [set_same g1, List.eraseIdx_eq_take_drop_succ] at this
      exact this.symm
    obtain ⟨k1, k2, k3, k4⟩ := BorrowOk.close (n := n) (R := R) ⟨hmut.res, hmut.lt, hmut.ext, hmut.fresh⟩
      (Ext.refl h1 R) hw1 hds
    rw [hd.pre, hd.val] at k2
    exact ⟨[c], rfl, k1, k2, .cons (k4 _ _ g3) .nil, k3⟩

/-! ## construction -/
theorem wrap_ok {st : Option Nat} {h : Heap K V} {ns R ts} (hw : WF h (ns ++ R)) (hds : Dens h ns ts)
    (hst : ∀ e, st = some e → Den h ⟨[], none, .arc e⟩ ⟨[], none, []⟩) (p v) :
    WF (wrap st h ns).1 (⟨p, v, (wrap st h ns).2⟩ :: R) ∧ Den (wrap st h ns).1 ⟨p, v, (wrap st h ns).2⟩ ⟨p, v, ts⟩ ∧ SameVecs h (wrap st h ns).1 := by
  have halloc : WF (h.alloc ns) (⟨p, v, .arc h.next⟩ :: R) ∧ Den (h.alloc ns) ⟨p, v, .arc h.next⟩ ⟨p, v, ts⟩ ∧ SameVecs h (h.alloc ns) := by
    have hs := sameVecs_alloc hw ns
    exact ⟨hw.alloc p v hds, .arc p v (r := 1) (ns := ns) (by simp [Heap.alloc]) (hds.mono hs), hs⟩
  cases st with
  | none => exact halloc
  | some e =>
    cases ns with
    | cons n ns => exact halloc
    | nil =>
      cases hds
      cases hst e rfl with
      | arc _ _ hc hds =>
        have hs := sameVecs_inc h e
        obtain ⟨r', hc'⟩ := hs _ _ _ hc
        exact ⟨hw.inc hc p v, .arc p v hc' (hds.mono hs), hs⟩

mutual
theorem convert_ok {st : Option Nat} : ∀ (t : Tree K V) {h : Heap K V} {R}, WF h R →
    (∀ e, st = some e → Den h ⟨[], none, .arc e⟩ ⟨[], none, []⟩) →
    WF (convert st h t).1 ((convert st h t).2 :: R) ∧ Den (convert st h t).1 (convert st h t).2 t ∧ SameVecs h (convert st h t).1
  | ⟨p, v, ks⟩, h, R, hw, hst => by
    obtain ⟨h1, h2, h3⟩ := convertAll_ok ks hw hst
    obtain ⟨k1, k2, k3⟩ := wrap_ok h1 h2 (fun e he => (hst e he).mono h3) p v
    simp only [convert]
    exact ⟨k1, k2, h3.trans k3⟩
theorem convertAll_ok {st : Option Nat} : ∀ (ts : List (Tree K V)) {h : Heap K V} {R}, WF h R →
    (∀ e, st = some e → Den h ⟨[], none, .arc e⟩ ⟨[], none, []⟩) →
    WF (convertAll st h ts).1 ((convertAll st h ts).2 ++ R) ∧ Dens (convertAll st h ts).1 (convertAll st h ts).2 ts ∧ SameVecs h (convertAll st h ts).1
  | [], h, R, hw, hst => ⟨hw, .nil, .refl h⟩
  | t :: ts, h, R, hw, hst => by
    obtain ⟨h1, h2, h3⟩ := convert_ok t hw hst
    obtain ⟨k1, k2, k3⟩ := convertAll_ok ts h1 (fun e he => (hst e he).mono h3)
    simp only [convertAll]
    exact ⟨k1.perm (by simpa using List.perm_middle.symm), .cons (h2.mono k3) k2, h3.trans k3⟩
end

/-! ## one command -/
theorem Vars.at_some {ts : Vars K V} {l : Loc} {t : Tree K V} (ht : ts[l.reg]? = some (some t)) : ts.at l = treeAt l.path t := by
  simp only [Vars.at, ht]
theorem Vars.at_none {ts : Vars K V} {l : Loc} (ht : ∀ t, ts[l.reg]? ≠ some (some t)) : ts.at l = none := by
  simp only [Vars.at]
theorem Vars.put_some {ts : Vars K V} {l : Loc} {t u : Tree K V} (ht : ts[l.reg]? = some (some t)) :
    ts.put l u = ts.set l.reg (some (putAt u l.path t)) := by
  simp only [Vars.put, ht]

/-- what one step has to establish -/
def Sim (F : List (Node K V × Tree K V)) (s : St K V) (res : St K V × Obs K V) (p : Vars K V × Obs K V) : Prop :=
  Ok res.1 F p.1 ∧ res.2 = p.2 ∧ res.1.static = s.static

theorem Sim.of_core {s : St K V} {h : Heap K V} {regs F ts o} (hc : Core h regs ts (others s F) []) : Sim F s ({ s with heap := h, regs := regs }, o) (ts, o) :=
  ⟨hc.ok, rfl, rfl⟩

theorem edit_ok {s : St K V} {F ts} (ho : Ok s F ts) (dst : Loc) (f : Node K V → Node K V) (g : Tree K V → Tree K V)
    (ha : ActOk (fun h m => (h, f m, some [])) (fun t => some (g t, [])) [] []) :
    Sim F s (s.edit dst f) (match ts.at dst with | some t => (ts.put dst (g t), .ok) | none => (ts, .bad)) := by
  by_cases hr : ∃ n, s.regs[dst.reg]? = some (some n)
  · obtain ⟨n, hr⟩ := hr
    obtain ⟨t, ht, hd⟩ := ho.regs.some hr
    have hx := exec_ok ho.core .nil hr ht hd ha dst.path
    rw [Vars.at_some ht]
    simp only [St.edit, hr]
    rcases hm : modAt (fun h m => (h, f m, some [])) dst.path s.heap n with ⟨h', n', out⟩
    rw [hm] at hx
    simp only [pmodAt] at hx
    cases htr : treeAt dst.path t with
    | none =>
      rw [htr] at hx
      obtain ⟨e1, -, e2⟩ := hx
      subst e1
      exact .of_core e2
    | some u =>
      rw [htr] at hx
      obtain ⟨outs, e1, e3, e2⟩ := hx
      subst e1
      cases e3
      simp only [Vars.put_some ht]
      exact .of_core e2
  · have h1 : ∀ n, s.regs[dst.reg]? ≠ some (some n) := fun n hn => hr ⟨n, hn⟩
    rw [Vars.at_none (ho.regs.not_some h1)]
    simp only [St.edit]
    exact ⟨ho, rfl, rfl⟩

theorem lt_of_getElem? {α : Type _} {l : List α} {i : Nat} {a : α} (h : l[i]? = some a) : i < l.length := by
  rcases Nat.lt_or_ge i l.length with h1 | h1
  · exact h1
  · rw [List.getElem?_eq_none h1] at h; cases h

theorem step_ok {s : St K V} {F ts} (ho : Ok s F ts) (c : Cmd K V) : Sim F s (s.step c) (ts.step c) := by
  cases c with
  | new p v children =>
    rcases takeRegs_ok children ho.core with ⟨e1, e2⟩ | ⟨ns, regs', us, ts', e1, e2, e3, e4⟩
    · simp only [St.step, Vars.step, e1, e2]; exact ⟨ho, rfl, rfl⟩
    · simp only [St.step, Vars.step, e1, e2]
      rw [List.append_nil] at e4
      obtain ⟨k1, k2, k3⟩ := wrap_ok (st := s.static) e4.wf e3 (fun e he => ho.frame (⟨[], none, .arc e⟩, ⟨[], none, []⟩) (by simp [others, he])) p v
      have hc : Core (wrap s.static s.heap ns).1 regs' ts' (others s F) [⟨p, v, (wrap s.static s.heap ns).2⟩] :=
        ⟨k1, e4.regs.heap fun m _ u hd => hd.mono k3, fun m hm => (e4.frame m hm).mono k3⟩
      exact .of_core (hc.push k2)
  | default =>
    have e4 := ho.core
    cases hst : s.static with
    | none =>
      simp only [St.step, Vars.step, hst]
      rw [← hst]
      have hcore : Core s.heap s.regs ts (others s F) [⟨[], none, .raw []⟩] := by
        refine ⟨e4.wf.congr fun id => ?_, e4.regs, e4.frame⟩
        rw [List.singleton_append, refs_cons, refs_raw]; simp
      exact .of_core (hcore.push (.raw ..))
    | some e =>
      simp only [St.step, Vars.step, hst]
      rw [← hst]
      have hd := ho.frame (⟨[], none, .arc e⟩, ⟨[], none, []⟩) (by simp [others, hst])
      cases hd with
      | arc _ _ hc hds =>
        have hs := sameVecs_inc s.heap e
        obtain ⟨r', hc'⟩ := hs _ _ _ hc
        have hcore : Core (s.heap.inc e) s.regs ts (others s F) [⟨[], none, .arc e⟩] :=
          ⟨e4.wf.inc hc [] none, e4.regs.heap fun m _ u hd => hd.mono hs, fun m hm => (e4.frame m hm).mono hs⟩
        exact .of_core (hcore.push (.arc _ _ hc' (hds.mono hs)))
  | lazyRoot t =>
    have e4 := ho.core
    simp only [St.step, Vars.step]
    have hcore : Core s.heap s.regs ts (others s F) [rawNode t] := by
      refine ⟨e4.wf.congr fun id => ?_, e4.regs, e4.frame⟩
      rw [List.singleton_append, refs_cons, rawNode, refs_raw]; simp
    exact .of_core (hcore.push (den_rawNode _ t))
  | eager archived t =>
    have e4 := ho.core
    simp only [St.step, Vars.step]
    obtain ⟨k1, k2, k3⟩ := convert_ok (st := if archived then none else s.static) t e4.wf (fun e he => by
      cases archived with
      | true => simp at he
      | false => exact ho.frame (⟨[], none, .arc e⟩, ⟨[], none, []⟩) (by simp [others, show s.static = some e by simpa using he]))
    have hc : Core (convert (if archived then none else s.static) s.heap t).1 s.regs ts (others s F) [(convert (if archived then none else s.static) s.heap t).2] :=
      ⟨k1, e4.regs.heap fun m _ u hd => hd.mono k3, fun m hm => (e4.frame m hm).mono k3⟩
    exact .of_core (hc.push k2)
  | clone src =>
    simp only [St.step, Vars.step]
    cases hn : s.node (.reg src.reg) with
    | none =>
      have h1 : ∀ n, s.regs[src.reg]? ≠ some (some n) := fun n hr => by rw [St.node_reg.2 hr] at hn; cases hn
      rw [Vars.at_none (ho.regs.not_some h1)]
      exact ⟨ho, rfl, rfl⟩
    | some n =>
      obtain ⟨t, ht, hd⟩ := ho.regs.some (St.node_reg.1 hn)
      rw [Vars.at_some ht]
      obtain ⟨w1, w2, w3⟩ := walk_ok src.path ho hn hd
      rcases hw : s.walk src.path (.reg src.reg) with ⟨s', o⟩
      rw [hw] at w1 w2 w3
      simp only at w1 w2 w3 ⊢
      rcases w3 with ⟨e1, e2⟩ | ⟨σ, n', t', e1, e2, e3, e4⟩
      · subst e1; rw [e2]; exact ⟨w1, rfl, w2⟩
      · subst e1
        simp only [e2, e3]
        have hs := sameVecs_cloned s'.heap n'
        have hcore : Core (s'.heap.cloned n') s'.regs ts (others s' F) [n'] :=
          ⟨w1.wf.cloned e4.hasArc, w1.regs.heap fun m _ u hd => hd.mono hs, fun m hm => (w1.core.frame m hm).mono hs⟩
        have := Sim.of_core (o := .ok) (hcore.push (e4.mono hs))
        exact ⟨this.1, rfl, w2⟩
  | drop r =>
    simp only [St.step, Vars.step]
    by_cases hr : ∃ n, s.regs[r]? = some (some n)
    · obtain ⟨n, hr⟩ := hr
      obtain ⟨t, ht, hd⟩ := ho.regs.some hr
      simp only [hr, ht]
      have hc := ho.core.take hr
      obtain ⟨k1, k2⟩ := drop_ok hc.wf
      exact .of_core (hc.heap (ins' := []) k1 k2)
    · have h1 : ∀ n, s.regs[r]? ≠ some (some n) := fun n hn => hr ⟨n, hn⟩
      have h2 := ho.regs.not_some h1
      split
      · rename_i hn; exact absurd hn (h1 _)
      · split
        · rename_i hn; exact absurd hn (h2 _)
        · exact ⟨ho, rfl, rfl⟩
  | setVal dst v =>
    exact edit_ok ho dst _ (fun t => { t with val := v }) (actOk_edit _ _ (fun _ => rfl) (fun _ => rfl) (fun _ _ h _ => ⟨h, rfl⟩))
  | setPre dst p =>
    exact edit_ok ho dst _ (fun t => { t with pre := p }) (actOk_edit _ _ (fun _ => rfl) (fun _ => rfl) (fun _ _ _ h => ⟨rfl, h⟩))
  | swap dst r =>
    simp only [St.step, Vars.step]
    by_cases hne : dst.reg = r
    · rw [if_pos hne, if_pos hne]; exact ⟨ho, rfl, rfl⟩
    · rw [if_neg hne, if_neg hne]
      by_cases hr : (∃ n, s.regs[dst.reg]? = some (some n)) ∧ ∃ m, s.regs[r]? = some (some m)
      · obtain ⟨⟨n, hr⟩, m, hm⟩ := hr
        obtain ⟨t, ht, hd⟩ := ho.regs.some hr
        obtain ⟨u, hu, hdu⟩ := ho.regs.some hm
        have hct := ho.core.take hm
        have hr' : (s.regs.set r none)[dst.reg]? = some (some n) := by rw [List.getElem?_set_ne (Ne.symm hne)]; exact hr
        have ht' : (ts.set r none)[dst.reg]? = some (some t) := by rw [List.getElem?_set_ne (Ne.symm hne)]; exact ht
        have hx := exec_ok hct (.cons hdu .nil) hr' ht' hd actOk_swap dst.path
        rw [Vars.at_some ht]
        simp only [hr, hm, hu]
        rcases hmo : modAt (fun h x => (h, m, some [x])) dst.path s.heap n with ⟨h', n', out⟩
        rw [hmo] at hx
        simp only [pmodAt] at hx
        have hnone : ∀ x, ((s.regs.set r none).set dst.reg x)[r]? = some none := fun x => by
          rw [List.getElem?_set_ne hne]; simp [lt_of_getElem? hm]
        cases htr : treeAt dst.path t with
        | none =>
          rw [htr] at hx
          obtain ⟨e1, e3, e2⟩ := hx
          subst e1
          cases e3 with
          | cons d1 _ =>
            have := e2.put d1 (hnone _)
            rw [List.set_comm _ _ hne, List.set_set, set_same hm, List.set_set, set_same hu] at this
            exact .of_core this
        | some w =>
          rw [htr] at hx
          obtain ⟨outs, e1, e3, e2⟩ := hx
          subst e1
          cases e3 with
          | @cons x _ _ _ d1 d2 =>
            cases d2
            simp only [Vars.put_some ht]
            have := e2.put d1 (hnone _)
            rw [List.set_comm _ _ hne, List.set_set, List.set_comm _ _ (Ne.symm hne)] at this
            rw [List.set_comm (l := ts) _ _ (Ne.symm hne), List.set_set] at this
            exact .of_core this
      · have hbad : ∀ n m, s.regs[dst.reg]? = some (some n) → s.regs[r]? = some (some m) → False := fun n m h1 h2 => hr ⟨⟨n, h1⟩, m, h2⟩
        have hbad' : ∀ t u, ts.at dst = some t → ts[r]? = some (some u) → False := by
          intro t u h1 h2
          by_cases h3 : ∃ m, s.regs[r]? = some (some m)
          · obtain ⟨m, h3⟩ := h3
            have := ho.regs.not_some (i := dst.reg) (fun n hn => hbad n m hn h3)
            rw [Vars.at_none this] at h1; cases h1
          · exact ho.regs.not_some (fun m hm => h3 ⟨m, hm⟩) u h2
        split
        · rename_i h1 h2; exact (hbad _ _ h1 h2).elim
        · split
          · rename_i h1 h2; exact (hbad' _ _ h1 h2).elim
          · exact ⟨ho, rfl, rfl⟩
  | insertKid dst i r =>
    simp only [St.step, Vars.step]
    by_cases hne : dst.reg = r
    · rw [if_pos hne, if_pos hne]; exact ⟨ho, rfl, rfl⟩
    · rw [if_neg hne, if_neg hne]
      by_cases hr : (∃ n, s.regs[dst.reg]? = some (some n)) ∧ ∃ m, s.regs[r]? = some (some m)
      · obtain ⟨⟨n, hr⟩, m, hm⟩ := hr
        obtain ⟨t, ht, hd⟩ := ho.regs.some hr
        obtain ⟨u, hu, hdu⟩ := ho.regs.some hm
        have hct := ho.core.take hm
        have hr' : (s.regs.set r none)[dst.reg]? = some (some n) := by rw [List.getElem?_set_ne (Ne.symm hne)]; exact hr
        have ht' : (ts.set r none)[dst.reg]? = some (some t) := by rw [List.getElem?_set_ne (Ne.symm hne)]; exact ht
        have hx := exec_ok hct (.cons hdu .nil) hr' ht' hd (actOk_insert (m := m) (u := u) i) dst.path
        rw [Vars.at_some ht]
        simp only [hr, hm, hu]
        generalize (modAt _ dst.path s.heap n) = res at hx ⊢
        obtain ⟨h', n', out⟩ := res
        simp only [pmodAt] at hx
        have hnone : ∀ x, ((s.regs.set r none).set dst.reg x)[r]? = some none := fun x => by
          rw [List.getElem?_set_ne hne]; simp [lt_of_getElem? hm]
        have hback : ∀ n', Core h' ((s.regs.set r none).set dst.reg (some n')) (ts.set r none) (others s F) [m] → Den h' m u →
            Sim F s ({ s with heap := h', regs := s.regs.set dst.reg (some n') }, .bad) (ts, .bad) := by
          intro n' e2 d1
          have := e2.put d1 (hnone _)
          rw [List.set_comm _ _ hne, List.set_set, set_same hm, List.set_set, set_same hu] at this
          exact .of_core this
        cases htr : treeAt dst.path t with
        | none =>
          rw [htr] at hx
          obtain ⟨e1, e3, e2⟩ := hx
          subst e1
          cases e3 with
          | cons d1 _ => exact hback _ e2 d1
        | some w =>
          rw [htr] at hx
          simp only at hx ⊢
          by_cases hle : i ≤ w.kids.length
          · rw [if_pos hle] at hx ⊢
            obtain ⟨outs, e1, e3, e2⟩ := hx
            subst e1
            cases e3
            simp only [Vars.put_some ht]
            rw [List.set_comm _ _ (Ne.symm hne), List.set_comm (l := ts) _ _ (Ne.symm hne)] at e2
            exact .of_core e2
          · rw [if_neg hle] at hx ⊢
            obtain ⟨e1, e3, e2⟩ := hx
            subst e1
            cases e3 with
            | cons d1 _ => exact hback _ e2 d1
      · have hbad : ∀ n m, s.regs[dst.reg]? = some (some n) → s.regs[r]? = some (some m) → False := fun n m h1 h2 => hr ⟨⟨n, h1⟩, m, h2⟩
        have hbad' : ∀ t u, ts.at dst = some t → ts[r]? = some (some u) → False := by
          intro t u h1 h2
          by_cases h3 : ∃ m, s.regs[r]? = some (some m)
          · obtain ⟨m, h3⟩ := h3
            have := ho.regs.not_some (i := dst.reg) (fun n hn => hbad n m hn h3)
            rw [Vars.at_none this] at h1; cases h1
          · exact ho.regs.not_some (fun m hm => h3 ⟨m, hm⟩) u h2
        split
        · rename_i h1 h2; exact (hbad _ _ h1 h2).elim
        · split
          · rename_i h1 h2; exact (hbad' _ _ h1 h2).elim
          · exact ⟨ho, rfl, rfl⟩
  | removeKid dst i =>
    simp only [St.step, Vars.step]
    by_cases hr : ∃ n, s.regs[dst.reg]? = some (some n)
    · obtain ⟨n, hr⟩ := hr
      obtain ⟨t, ht, hd⟩ := ho.regs.some hr
      have hx := exec_ok ho.core .nil hr ht hd (actOk_remove i) dst.path
      rw [Vars.at_some ht]
      simp only [hr]
      generalize (modAt _ dst.path s.heap n) = res at hx ⊢
      obtain ⟨h', n', out⟩ := res
      simp only [pmodAt] at hx
      cases htr : treeAt dst.path t with
      | none =>
        rw [htr] at hx
        obtain ⟨e1, -, e2⟩ := hx
        subst e1
        exact .of_core e2
      | some w =>
        rw [htr] at hx
        simp only at hx ⊢
        cases hw : w.kids[i]? with
        | none =>
          rw [hw] at hx
          obtain ⟨e1, -, e2⟩ := hx
          subst e1
          exact .of_core e2
        | some u =>
          rw [hw] at hx
          obtain ⟨outs, e1, e3, e2⟩ := hx
          subst e1
          cases e3 with
          | cons d1 d2 =>
            cases d2
            simp only [Vars.put_some ht]
            exact .of_core (e2.push d1)
    · have h1 : ∀ n, s.regs[dst.reg]? ≠ some (some n) := fun n hn => hr ⟨n, hn⟩
      rw [Vars.at_none (ho.regs.not_some h1)]
      split
      · rename_i hn; exact absurd hn (h1 _)
      · exact ⟨ho, rfl, rfl⟩
  | look src =>
    simp only [St.step, Vars.step]
    cases hn : s.node (.reg src.reg) with
    | none =>
      have h1 : ∀ n, s.regs[src.reg]? ≠ some (some n) := fun n hr => by rw [St.node_reg.2 hr] at hn; cases hn
      rw [Vars.at_none (ho.regs.not_some h1)]
      exact ⟨ho, rfl, rfl⟩
    | some n =>
      obtain ⟨t, ht, hd⟩ := ho.regs.some (St.node_reg.1 hn)
      rw [Vars.at_some ht]
      obtain ⟨w1, w2, w3⟩ := walk_ok src.path ho hn hd
      rcases hw : s.walk src.path (.reg src.reg) with ⟨s', o⟩
      rw [hw] at w1 w2 w3
      simp only at w1 w2 w3 ⊢
      rcases w3 with ⟨e1, e2⟩ | ⟨σ, n', t', e1, e2, e3, e4⟩
      · subst e1; rw [e2]; exact ⟨w1, rfl, w2⟩
      · subst e1
        obtain ⟨f1, f2, p, v, id, r, ns, f3, f4, f5, f6, f7⟩ := force_ok w1 e3 e4
        simp only [e2, f3, f4]
        exact ⟨f1, by rw [f6, f7, f5.length], f2.trans w2⟩

theorem run_ok : ∀ (p : Prog K V) {s : St K V} {F ts}, Ok s F ts →
    Ok (s.run p).1 F (ts.run p).1 ∧ (s.run p).2 = (ts.run p).2 ∧ (s.run p).1.static = s.static
  | .done, s, F, ts, ho => ⟨ho, rfl, rfl⟩
  | .cmd c k, s, F, ts, ho => by
    obtain ⟨h1, h2, h3⟩ := step_ok ho c
    obtain ⟨k1, k2, k3⟩ := run_ok (k (s.step c).2) h1
    simp only [St.run, Vars.run]
    rw [h2] at k1 k2 k3 ⊢
    exact ⟨k1, by rw [k2], k3.trans h3⟩

theorem ok_start (arc : Bool) : Ok (St.start arc : St K V) [] [] := by
  cases arc with
  | false =>
    refine ⟨⟨fun _ _ => rfl, fun i r ns h => by simp [St.start] at h, fun id => rfl, fun i r ns h => by simp [St.start] at h⟩, ⟨rfl, ?_⟩, ?_⟩
    · intro i o h; simp [St.start] at h
    · intro x h; simp [others, St.start] at h
  | true =>
    refine ⟨⟨?_, ?_, ?_, ?_⟩, ⟨rfl, ?_⟩, ?_⟩
    · intro i hi
      have hi : 1 ≤ i := hi
      show (if i = 0 then _ else _) = _
      rw [if_neg (by omega)]
    · intro i r ns h
      simp only [St.start, if_true] at h
      split at h
      · cases h; omega
      · cases h
    · intro id
      by_cases e : id = 0
      · subst e; rfl
      · have h1 : (St.start true : St K V).heap.rc id = 0 := by simp [Heap.rc, St.start, e]
        have h2 : (St.start true : St K V).roots [] = [⟨[], none, .arc 0⟩] := rfl
        have h3 : (St.start true : St K V).heap.total id = 0 := by simp [Heap.total, St.start, sumTo, Heap.vec]
        rw [h1, h2, h3, refs_arc, if_neg (fun h => e h.symm)]
    · intro i r ns h
      simp only [St.start, if_true] at h
      split at h
      · cases h; exact ⟨[], .nil⟩
      · cases h
    · intro i o h; simp [St.start] at h
    · intro x h
      simp [others, St.start] at h
      subst h
      exact .arc _ _ (r := 1) (ns := []) rfl .nil

/-! ## what a node stands for is unique -/
mutual
theorem Den.det {h : Heap K V} : ∀ {n : Node K V} {t t' : Tree K V}, Den h n t → Den h n t' → t = t'
  | _, _, _, .raw .., .raw .. => rfl
  | _, _, _, .arc _ _ h1 d1, .arc _ _ h2 d2 => by
    rw [h1] at h2; cases h2
    rw [Dens.det d1 d2]
theorem Dens.det {h : Heap K V} : ∀ {n : List (Node K V)} {t t' : List (Tree K V)}, Dens h n t → Dens h n t' → t = t'
  | _, _, _, .nil, .nil => rfl
  | _, _, _, .cons a b, .cons c d => by rw [Den.det a c, Dens.det b d]
end

/-! ## variables that are not written -/
theorem takeVars_ne {j : Nat} : ∀ (rs : List Nat) {ts us ts'} , j ∉ rs → takeVars (K := K) (V := V) ts rs = some (us, ts') → ts'[j]? = ts[j]?
  | [], ts, us, ts', _, h => by simp [takeVars] at h; rw [h.2]
  | r :: rs, ts, us, ts', hj, h => by
    simp only [takeVars] at h
    split at h
    · split at h
      · rename_i us' ts'' h2
        cases h
        have := takeVars_ne rs (fun hm => hj (List.mem_cons_of_mem _ hm)) h2
        rw [this, List.getElem?_set_ne]
        rintro rfl; exact hj (List.mem_cons_self ..)
      · cases h
    · cases h

theorem put_ne {ts : Vars K V} {l : Loc} {u : Tree K V} {j : Nat} (h : j ≠ l.reg) : (ts.put l u)[j]? = ts[j]? := by
  simp only [Vars.put]
  split
  · rw [List.getElem?_set_ne (Ne.symm h)]
  · rfl

theorem step_ne {ts : Vars K V} {c : Cmd K V} {j : Nat} (hlt : j < ts.length) (hj : j ∉ c.writes) :
    (ts.step c).1[j]? = ts[j]? := by
  have hpush : ∀ (l : Vars K V) (x), l[j]? = ts[j]? → (l ++ [x])[j]? = ts[j]? := by
    intro l x h
    have : j < l.length := by
      rcases Nat.lt_or_ge j l.length with h1 | h1
      · exact h1
      · rw [List.getElem?_eq_none h1, List.getElem?_eq_getElem hlt] at h; cases h
    rw [List.getElem?_append_left this]; exact h
  cases c with
  | new p v children =>
    simp only [Vars.step]
    split
    · rfl
    · rename_i us ts' h; exact hpush _ _ (takeVars_ne _ hj h)
  | default => exact hpush _ _ rfl
  | lazyRoot t => exact hpush _ _ rfl
  | eager a t => exact hpush _ _ rfl
  | clone src => simp only [Vars.step]; split <;> first | exact hpush _ _ rfl | rfl
  | drop r =>
    simp only [Vars.step]; split
    · simp [Cmd.writes] at hj; rw [List.getElem?_set_ne (Ne.symm hj)]
    · rfl
  | setVal dst v => simp only [Vars.step]; simp [Cmd.writes] at hj; split <;> first | exact put_ne hj | rfl
  | setPre dst v => simp only [Vars.step]; simp [Cmd.writes] at hj; split <;> first | exact put_ne hj | rfl
  | swap dst r =>
    simp [Cmd.writes] at hj
    simp only [Vars.step]; split
    · rfl
    · split
      · rw [List.getElem?_set_ne (Ne.symm hj.2)]; exact put_ne hj.1
      · rfl
  | insertKid dst i r =>
    simp [Cmd.writes] at hj
    simp only [Vars.step]; split
    · rfl
    · split
      · split
        · rw [List.getElem?_set_ne (Ne.symm hj.2)]; exact put_ne hj.1
        · rfl
      · rfl
  | removeKid dst i =>
    simp [Cmd.writes] at hj
    simp only [Vars.step]; split
    · split
      · exact hpush _ _ (put_ne hj)
      · rfl
    · rfl
  | look src => simp only [Vars.step]; split <;> rfl

theorem run_ne {j : Nat} : ∀ (p : Prog K V) {ts : Vars K V}, j < ts.length → (∀ c ∈ p.executed (ts.run p).2, j ∉ c.writes) →
    (ts.run p).1[j]? = ts[j]?
  | .done, ts, _, _ => rfl
  | .cmd c k, ts, hlt, h => by
    simp only [Vars.run, Prog.executed] at h ⊢
    have h1 := step_ne hlt (h c (List.mem_cons_self ..))
    have hlt' : j < (ts.step c).1.length := by
      rw [List.getElem?_eq_getElem hlt] at h1
      exact lt_of_getElem? h1
    rw [run_ne (k (ts.step c).2) hlt' (fun c' hc => h c' (List.mem_cons_of_mem _ hc)), h1]

/-! ## no leaks -/
mutual
def Tree.count : Tree K V → Nat
  | ⟨_, _, ks⟩ => 1 + Tree.counts ks
def Tree.counts : List (Tree K V) → Nat
  | [] => 0
  | t :: ts => Tree.count t + Tree.counts ts
end

theorem count_le {n : Node K V} {h : Heap K V} : ∀ {ns : List (Node K V)} {ts : List (Tree K V)}, Dens h ns ts → n ∈ ns →
    ∃ t, Den h n t ∧ Tree.count t ≤ Tree.counts ts
  | _, _, .cons d1 d2, hm => by
    rcases List.mem_cons.1 hm with rfl | hm
    · exact ⟨_, d1, by simp [Tree.counts]⟩
    · obtain ⟨t, h1, h2⟩ := count_le d2 hm
      exact ⟨t, h1, by simp only [Tree.counts]; omega⟩

theorem exists_bound {h : Heap K V} : ∀ n, ∃ B, ∀ id, id < n → ∀ r ns ts, h.cell id = some (r, ns) → Dens h ns ts → Tree.counts ts ≤ B
  | 0 => ⟨0, fun id h => absurd h (Nat.not_lt_zero _)⟩
  | n + 1 => by
    obtain ⟨B, hB⟩ := exists_bound (h := h) n
    by_cases hn : ∃ r ns ts, h.cell n = some (r, ns) ∧ Dens h ns ts
    · obtain ⟨r, ns, ts, h1, h2⟩ := hn
      refine ⟨B + Tree.counts ts, fun id hid r' ns' ts' h1' h2' => ?_⟩
      by_cases e : id = n
      · subst e; rw [h1] at h1'; cases h1'; rw [h2.det h2']; omega
      · have := hB id (by omega) r' ns' ts' h1' h2'; omega
    · refine ⟨B, fun id hid r' ns' ts' h1' h2' => ?_⟩
      by_cases e : id = n
      · subst e; exact absurd ⟨r', ns', ts', h1', h2'⟩ hn
      · exact hB id (by omega) r' ns' ts' h1' h2'

theorem sumTo_pos : ∀ {n : Nat} {f : Nat → Nat}, 0 < sumTo n f → ∃ i, i < n ∧ 0 < f i
  | 0, f, h => absurd h (Nat.lt_irrefl 0)
  | n + 1, f, h => by
    simp only [sumTo] at h
    rcases Nat.eq_zero_or_pos (f n) with e | e
    · obtain ⟨i, h1, h2⟩ := sumTo_pos (n := n) (f := f) (by omega); exact ⟨i, by omega, h2⟩
    · exact ⟨n, by omega, e⟩

theorem refs_pos {id : Nat} {ns : List (Node K V)} (h : 0 < refs id ns) : ∃ n ∈ ns, n.kids = .arc id := by
  obtain ⟨n, h1, h2⟩ := List.countP_pos_iff.1 h
  refine ⟨n, h1, ?_⟩
  simp only [Node.isArc] at h2
  split at h2
  · rename_i j hj; rw [hj]; simp at h2; rw [h2]
  · cases h2

theorem no_leak {s : St K V} {F ts} (ho : Ok s F ts) {id c} (hc : s.heap.cell id = some c) : Reach s F id := by
  obtain ⟨B, hB⟩ := exists_bound (h := s.heap) s.heap.next
  suffices ∀ k id r ns us, s.heap.cell id = some (r, ns) → Dens s.heap ns us → B - Tree.counts us ≤ k → Reach s F id by
    obtain ⟨r, ns⟩ := c
    obtain ⟨us, hd⟩ := ho.wf.full _ _ _ hc
    exact this _ id r ns us hc hd (Nat.le_refl _)
  intro k
  induction k with
  | zero =>
    intro id r ns us hc hd hk
    have h1 := ho.wf.exact id
    have h2 := ho.wf.pos _ _ _ hc
    have h3 : s.heap.rc id = r := by simp [Heap.rc, hc]
    rcases Nat.eq_zero_or_pos (refs id (s.roots F)) with e | e
    · have : 0 < s.heap.total id := by omega
      obtain ⟨j, hj, hp⟩ := sumTo_pos this
      obtain ⟨n, hn, hk'⟩ := refs_pos hp
      simp only [Heap.vec] at hn
      cases hcj : s.heap.cell j with
      | none => rw [hcj] at hn; simp at hn
      | some c =>
        obtain ⟨r', ns'⟩ := c
        rw [hcj] at hn
        obtain ⟨us', hd'⟩ := ho.wf.full _ _ _ hcj
        obtain ⟨t, ht, hle⟩ := count_le hd' hn
        obtain ⟨p, v, kk⟩ := n
        simp only at hk'; subst hk'
        cases ht with
        | arc _ _ hc2 hd2 =>
          rw [hc] at hc2; cases hc2
          have := hd.det hd2; subst this
          have hb := hB j hj _ _ _ hcj hd'
          simp only [Tree.count] at hle
          omega
    · obtain ⟨n, hn, hk'⟩ := refs_pos e
      exact .root hn hk'
  | succ k ih =>
    intro id r ns us hc hd hk
    have h1 := ho.wf.exact id
    have h2 := ho.wf.pos _ _ _ hc
    have h3 : s.heap.rc id = r := by simp [Heap.rc, hc]
    rcases Nat.eq_zero_or_pos (refs id (s.roots F)) with e | e
    · have : 0 < s.heap.total id := by omega
      obtain ⟨j, hj, hp⟩ := sumTo_pos this
      obtain ⟨n, hn, hk'⟩ := refs_pos hp
      simp only [Heap.vec] at hn
      cases hcj : s.heap.cell j with
      | none => rw [hcj] at hn; simp at hn
      | some c =>
        obtain ⟨r', ns'⟩ := c
        rw [hcj] at hn
        obtain ⟨us', hd'⟩ := ho.wf.full _ _ _ hcj
        obtain ⟨t, ht, hle⟩ := count_le hd' hn
        obtain ⟨p, v, kk⟩ := n
        simp only at hk'; subst hk'
        cases ht with
        | arc _ _ hc2 hd2 =>
          rw [hc] at hc2; cases hc2
          have := hd.det hd2; subst this
          have hb := hB j hj _ _ _ hcj hd'
          simp only [Tree.count] at hle
          exact .step (ih j r' ns' us' hcj hd' (by omega)) hcj hn rfl
    · obtain ⟨n, hn, hk'⟩ := refs_pos e
      exact .root hn hk'

/-- whatever is reached is allocated -/
theorem no_dangling {s : St K V} {F ts} (ho : Ok s F ts) {id} (hr : Reach s F id) : ∃ r ns us, s.heap.cell id = some (r, ns) ∧ Dens s.heap ns us := by
  have key : ∀ id, (∃ c, s.heap.cell id = some c) → ∃ r ns us, s.heap.cell id = some (r, ns) ∧ Dens s.heap ns us := by
    rintro id ⟨⟨r, ns⟩, hc⟩
    obtain ⟨us, hd⟩ := ho.wf.full _ _ _ hc
    exact ⟨r, ns, us, hc, hd⟩
  cases hr with
  | @root n _ hn hk =>
    refine key _ ?_
    obtain ⟨p, v, k⟩ := n
    simp only at hk; subst hk
    exact ho.wf.alive hn
  | @step j r ns n _ _ hc hn hk =>
    refine key _ ?_
    obtain ⟨us, hd⟩ := ho.wf.full _ _ _ hc
    obtain ⟨t, ht, _⟩ := count_le hd hn
    exact ht.hasArc _ hk
end Verif.Shared
