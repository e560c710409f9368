import Verif.Lemmas.SharedHeap
namespace Verif.Shared
variable {K V : Type _}

/-! ## drop -/
theorem stored_eq (h : Heap K V) : ∀ n, h.stored n = sumTo n (fun i => (h.vec i).length)
  | 0 => rfl
  | n + 1 => by
    simp only [Heap.stored, sumTo, stored_eq h n, Heap.vec]
    cases h.cell n with
    | none => rfl
    | some c => rfl

theorem stored_free {h : Heap K V} {id r ms} (hc : h.cell id = some (r, ms)) (hlt : id < h.next) :
    (h.set id none).stored h.next + ms.length = h.stored h.next := by
  rw [stored_eq, stored_eq]
  have h1 := sumTo_upd (fun i => (h.vec i).length) 0 hlt
  have h2 : h.vec id = ms := by simp [Heap.vec, hc]
  rw [h2] at h1
  have : sumTo h.next (fun i => ((h.set id none).vec i).length) = sumTo h.next (fun i => if i = id then 0 else (h.vec i).length) := by
    refine sumTo_congr fun i _ => ?_
    simp only [Heap.vec, Heap.set]
    by_cases e : i = id
    · simp [if_pos e]
    · simp only [if_neg e]
  rw [this]; omega

theorem stored_dec (h : Heap K V) (id n : Nat) : (h.dec id).stored n = h.stored n := by
  rw [stored_eq, stored_eq]
  refine sumTo_congr fun i _ => ?_
  simp only [Heap.dec]
  cases hc : h.cell id with
  | none => rfl
  | some c =>
    simp only [Heap.vec, Heap.set]
    by_cases e : i = id
    · subst e; simp [hc]
    · simp only [if_neg e]

theorem WF.alive {h : Heap K V} {R} (hw : WF h R) {p v id} (hm : (⟨p, v, .arc id⟩ : Node K V) ∈ R) : ∃ c, h.cell id = some c := by
  cases hc : h.cell id with
  | some c => exact ⟨c, rfl⟩
  | none =>
    have := (hw.none_refs hc).1 _ hm
    simp [Node.isArc] at this

theorem dropAll_ok : ∀ (fuel : Nat) (h : Heap K V) (ws R), WF h (ws ++ R) → ws.length + h.stored h.next ≤ fuel →
    WF (Heap.dropAll fuel h ws) R ∧ Ext h (Heap.dropAll fuel h ws) R
  | fuel, h, [], R, hw, _ => by
    have : Heap.dropAll fuel h [] = h := by cases fuel <;> rfl
    rw [this]; exact ⟨hw, .refl h R⟩
  | 0, h, n :: ns, R, hw, hf => by simp at hf
  | fuel + 1, h, n :: ns, R, hw, hf => by
    obtain ⟨p, v, k⟩ := n
    simp only [List.length_cons] at hf
    cases k with
    | raw ts =>
      simp only [Heap.dropAll]
      refine dropAll_ok fuel h ns R (hw.congr fun id => ?_) (by omega)
      rw [List.cons_append, refs_cons id _ (ns ++ R), refs_raw]; simp
    | arc id =>
      obtain ⟨⟨r, ms⟩, hc⟩ := hw.alive (id := id) (p := p) (v := v) (by simp)
      simp only [Heap.dropAll, hc]
      split
      · rename_i hr; subst hr
        obtain ⟨h1, h2⟩ := hw.free hc
        have h3 := stored_free hc (hw.lt hc)
        obtain ⟨h4, h5⟩ := dropAll_ok fuel (h.set id none) (ms ++ ns) R (h1.perm (by simp)) (by
          simp only [List.length_append]
          have : (h.set id none).next = h.next := rfl
          rw [this]; omega)
        exact ⟨h4, (h2.sub (fun m hm => by simp [hm])).trans h5 (fun _ h => h)⟩
      · rename_i hr
        have h1 := hw.dec hc hr
        obtain ⟨h4, h5⟩ := dropAll_ok fuel (h.dec id) ns R h1 (by rw [dec_next, stored_dec]; omega)
        exact ⟨h4, (((sameVecs_dec h id).ext (fun j _ hj => dec_none hj) (by simp) R)).trans h5 (fun _ h => h)⟩

theorem drop_ok {h : Heap K V} {ws R} (hw : WF h (ws ++ R)) : WF (h.drop ws) R ∧ Ext h (h.drop ws) R :=
  dropAll_ok _ h ws R hw (Nat.le_refl _)

/-! ## variables -/
theorem RegDen.some {h : Heap K V} {regs : List (Option (Node K V))} {ts : Vars K V} (hr : RegDen h regs ts) {i : Nat} {n : Node K V} (hi : regs[i]? = Option.some (Option.some n)) :
    ∃ t, ts[i]? = Option.some (Option.some t) ∧ Den h n t := by
  obtain ⟨o', h1, h2⟩ := hr.den i _ hi
  cases o' with
  | none => exact h2.elim
  | some t => exact ⟨t, h1, h2⟩

theorem RegDen.not_some {h : Heap K V} {regs : List (Option (Node K V))} {ts : Vars K V} (hr : RegDen h regs ts) {i : Nat} (hi : ∀ n, regs[i]? ≠ Option.some (Option.some n)) :
    ∀ t, ts[i]? ≠ Option.some (Option.some t) := by
  intro t ht
  have hlt : i < ts.length := by
    rcases Nat.lt_or_ge i ts.length with h1 | h1
    · exact h1
    · rw [List.getElem?_eq_none h1] at ht; cases ht
  have h1 : regs[i]? = Option.some (regs[i]'(by rw [hr.len]; exact hlt)) := List.getElem?_eq_getElem _
  obtain ⟨o', h2, h3⟩ := hr.den i _ h1
  rw [ht] at h2; cases h2
  cases hx : regs[i]'(by rw [hr.len]; exact hlt) with
  | none => rw [hx] at h3; exact h3
  | some n => rw [hx] at h1; exact hi n h1

theorem RegDen.set {h : Heap K V} {regs : List (Option (Node K V))} {ts : Vars K V} (hr : RegDen h regs ts) {i : Nat} {o : Option (Node K V)} {o' : Option (Tree K V)} (ho : OptDen h o o') :
    RegDen h (regs.set i o) (ts.set i o') := by
  refine ⟨by simp [hr.len], ?_⟩
  intro j x hx
  rw [List.getElem?_set] at hx
  rw [List.getElem?_set]
  split at hx
  · rename_i e
    subst e
    split at hx
    · rename_i hl; cases hx; exact ⟨o', by rw [if_pos rfl, if_pos (by rw [← hr.len]; exact hl)], ho⟩
    · cases hx
  · rename_i e; rw [if_neg e]; exact hr.den j x hx

theorem RegDen.push {h : Heap K V} {regs : List (Option (Node K V))} {ts : Vars K V} (hr : RegDen h regs ts) {o : Option (Node K V)} {o' : Option (Tree K V)} (ho : OptDen h o o') :
    RegDen h (regs ++ [o]) (ts ++ [o']) := by
  refine ⟨by simp [hr.len], ?_⟩
  intro j x hx
  rcases Nat.lt_or_ge j regs.length with h1 | h1
  · rw [List.getElem?_append_left h1] at hx
    rw [List.getElem?_append_left (by rw [← hr.len]; exact h1)]
    exact hr.den j x hx
  · rw [List.getElem?_append_right h1] at hx
    rw [List.getElem?_append_right (by rw [← hr.len]; exact h1), ← hr.len]
    cases hj : j - regs.length with
    | zero => rw [hj] at hx; simp at hx; subst hx; exact ⟨o', rfl, ho⟩
    | succ k => rw [hj] at hx; simp at hx

theorem mem_regs {regs : List (Option (Node K V))} {i : Nat} {n : Node K V} (h : regs[i]? = some (some n)) : n ∈ regs.filterMap id := by
  rw [List.mem_filterMap]; exact ⟨some n, List.mem_of_getElem? h, rfl⟩

theorem RegDen.heap {h h' : Heap K V} {regs : List (Option (Node K V))} {ts : Vars K V} (hr : RegDen h regs ts) (hx : ∀ m ∈ regs.filterMap id, ∀ u, Den h m u → Den h' m u) :
    RegDen h' regs ts := by
  refine ⟨hr.len, fun i o hi => ?_⟩
  obtain ⟨o', h1, h2⟩ := hr.den i o hi
  refine ⟨o', h1, ?_⟩
  cases o with
  | none => cases o' with | none => trivial | some _ => exact h2.elim
  | some n =>
    cases o' with
    | none => exact h2.elim
    | some t => exact hx n (mem_regs hi) t h2

theorem perm_set {regs : List (Option (Node K V))} {i : Nat} {o : Option (Node K V)} (hi : regs[i]? = some o) (o' : Option (Node K V)) :
    ((regs.set i o').filterMap id).Perm (o'.toList ++ (regs.set i none).filterMap id) := by
  induction regs generalizing i with
  | nil => simp at hi
  | cons x xs ih =>
    cases i with
    | zero =>
      cases o' <;> simp
    | succ i =>
      simp only [List.set_cons_succ]
      have := ih (i := i) (by simpa using hi)
      cases x with
      | none => simpa using this
      | some n =>
        simp only [List.filterMap_cons, id]
        refine (this.cons n).trans ?_
        exact List.perm_middle.symm

theorem perm_self {regs : List (Option (Node K V))} {i : Nat} {o : Option (Node K V)} (hi : regs[i]? = some o) :
    (regs.filterMap id).Perm (o.toList ++ (regs.set i none).filterMap id) := by
  have := perm_set hi o
  rwa [set_same hi] at this

theorem Ok.set_heap {s : St K V} {F ts} (ho : Ok s F ts) {h' : Heap K V} (hx : ∀ m ∈ s.roots F, ∀ u, Den s.heap m u → Den h' m u) :
    RegDen h' s.regs ts ∧ ∀ x ∈ others s F, Den h' x.1 x.2 :=
  ⟨ho.regs.heap fun m hm => hx m (List.mem_append_left _ hm), fun x hm => hx _ (List.mem_append_right _ (List.mem_map_of_mem hm)) _ (ho.frame x hm)⟩

/-! ## shared access -/
theorem St.node_reg {s : St K V} {r n} : s.node (.reg r) = some n ↔ s.regs[r]? = some (some n) := by
  simp only [St.node]
  cases s.regs[r]? with
  | none => simp
  | some o => cases o <;> simp

theorem St.node_elem {s : St K V} {id i n} : s.node (.elem id i) = some n ↔ ∃ r ns, s.heap.cell id = some (r, ns) ∧ ns[i]? = some n := by
  simp only [St.node]
  cases s.heap.cell id with
  | none => simp
  | some c =>
    obtain ⟨r, ns⟩ := c
    constructor
    · intro h; exact ⟨r, ns, rfl, h⟩
    · rintro ⟨r', ns', h1, h2⟩; cases h1; exact h2

mutual
theorem Den.forced {h h' : Heap K V} {id i c ns p v ts r'}
    (hc : h.cell id = some (c, ns)) (hi : ns[i]? = some ⟨p, v, .raw ts⟩)
    (h1 : ∀ j, j ≠ id → ∀ x, h.cell j = some x → h'.cell j = some x)
    (h2 : h'.cell id = some (c, ns.set i ⟨p, v, .arc r'⟩)) (h3 : h'.cell r' = some (1, ts.map rawNode)) :
    ∀ {n t}, Den h n t → Den h' n t
  | _, _, .raw p v ts => .raw p v ts
  | _, _, .arc (id := j) p' v' hcj hd => by
    have ih := Dens.forced hc hi h1 h2 h3 hd
    by_cases e : j = id
    · subst e
      rw [hc] at hcj; cases hcj
      refine .arc p' v' h2 ?_
      rcases hd.get i with ⟨g1, _⟩ | ⟨n, t, g1, g2, g3⟩
      · rw [hi] at g1; cases g1
      · rw [hi] at g1; cases g1
        cases g3 with
        | raw => 
          have := ih.set (n := ⟨p, v, .arc r'⟩) (t := ⟨p, v, ts⟩) (.arc p v h3 (dens_rawNodes _ ts)) i
          rwa [set_same g2] at this
    · exact .arc p' v' (h1 j e _ hcj) ih
theorem Dens.forced {h h' : Heap K V} {id i c ns p v ts r'}
    (hc : h.cell id = some (c, ns)) (hi : ns[i]? = some ⟨p, v, .raw ts⟩)
    (h1 : ∀ j, j ≠ id → ∀ x, h.cell j = some x → h'.cell j = some x)
    (h2 : h'.cell id = some (c, ns.set i ⟨p, v, .arc r'⟩)) (h3 : h'.cell r' = some (1, ts.map rawNode)) :
    ∀ {ns' ts'}, Dens h ns' ts' → Dens h' ns' ts'
  | _, _, .nil => .nil
  | _, _, .cons d1 d2 => .cons (Den.forced hc hi h1 h2 h3 d1) (Dens.forced hc hi h1 h2 h3 d2)
end

theorem refs_set {ns : List (Node K V)} {i : Nat} {n : Node K V} (hi : ns[i]? = some n) (n' : Node K V) (k : Nat) :
    refs k (ns.set i n') + refs k [n] = refs k ns + refs k [n'] := by
  have h1 := refs_perm (perm_pull hi n') k
  have h2 := perm_pull hi n
  rw [set_same hi] at h2
  have h2 := refs_perm h2 k
  rw [refs_cons] at h1 h2
  omega

theorem total_alloc' (h : Heap K V) (ns : List (Node K V)) (k : Nat) : (h.alloc ns).total k = h.total k + refs k ns := by
  have h1 : (h.alloc ns).vec h.next = ns := by simp [Heap.vec, Heap.alloc]
  have h2 : ∀ j, j < h.next → (h.alloc ns).vec j = h.vec j := by
    intro j hj
    have : (h.alloc ns).cell j = h.cell j := if_neg (Nat.ne_of_lt hj)
    simp only [Heap.vec, this]
  show sumTo h.next (fun i => refs k ((h.alloc ns).vec i)) + refs k ((h.alloc ns).vec h.next) = _
  rw [h1]
  congr 1
  exact sumTo_congr fun i hi => by rw [h2 i hi]

theorem force_ok {s : St K V} {F ts} (ho : Ok s F ts) {σ n t} (hn : s.node σ = some n) (hd : Den s.heap n t) :
    Ok (s.force σ) F ts ∧ (s.force σ).static = s.static ∧
    ∃ p v id r ns, (s.force σ).node σ = some ⟨p, v, .arc id⟩ ∧ (s.force σ).heap.cell id = some (r, ns) ∧
      Dens (s.force σ).heap ns t.kids ∧ p = t.pre ∧ v = t.val := by
  cases hd with
  | arc p v hc hds =>
    have : s.force σ = s := by simp [St.force, hn]
    rw [this]
    exact ⟨ho, rfl, p, v, _, _, _, hn, hc, hds, rfl, rfl⟩
  | raw p v us =>
    cases σ with
    | reg r =>
      have hr := St.node_reg.1 hn
      have hf : s.force (.reg r) = { s with heap := s.heap.alloc (us.map rawNode), regs := s.regs.set r (some ⟨p, v, .arc s.heap.next⟩) } := by
        simp [St.force, hn, St.setNode]
      have hlt : r < s.regs.length := by
        rcases Nat.lt_or_ge r s.regs.length with h1 | h1
        · exact h1
        · rw [List.getElem?_eq_none h1] at hr; cases hr
      have hw0 : WF s.heap (us.map rawNode ++ ((s.regs.set r none).filterMap id ++ (others s F).map Prod.fst)) := by
        refine ho.wf.congr fun k => ?_
        have := refs_perm ((perm_self hr).append_right ((others s F).map Prod.fst)) k
        rw [St.roots, this, refs_append, refs_rawNodes]
        simp only [Option.toList_some, List.singleton_append, List.cons_append]
        rw [refs_cons k ⟨p, v, .raw us⟩, refs_raw]; rfl
      have hw1 := hw0.alloc p v (dens_rawNodes _ us)
      have hs := sameVecs_alloc hw0 (us.map rawNode)
      obtain ⟨q1, q2⟩ := ho.set_heap (h' := s.heap.alloc (us.map rawNode)) (fun m _ u hd => hd.mono hs)
      obtain ⟨t0, ht0, hd0⟩ := ho.regs.some hr
      cases hd0
      have hcell : (s.heap.alloc (us.map rawNode)).cell s.heap.next = some (1, us.map rawNode) := by simp [Heap.alloc]
      rw [hf]
      refine ⟨⟨?_, ?_, q2⟩, rfl, p, v, s.heap.next, 1, us.map rawNode, ?_, hcell, dens_rawNodes _ us, rfl, rfl⟩
      · refine hw1.perm ?_
        exact (perm_set hr _).append_right _
      · have := q1.set (i := r) (o := some ⟨p, v, .arc s.heap.next⟩) (o' := some ⟨p, v, us⟩) (.arc p v hcell (dens_rawNodes _ us))
        rwa [set_same ht0] at this
      · rw [St.node_reg]; simp [hlt]
    | elem id i =>
      obtain ⟨c, ns, hc, hi⟩ := St.node_elem.1 hn
      have hidlt := ho.wf.lt hc
      have hf : s.force (.elem id i) = { s with heap := (s.heap.set id (some (c, ns.set i ⟨p, v, .arc s.heap.next⟩))).alloc (us.map rawNode) } := by
        simp [St.force, hn, St.setNode, hc]
      have hilt : i < ns.length := by
        rcases Nat.lt_or_ge i ns.length with h1 | h1
        · exact h1
        · rw [List.getElem?_eq_none h1] at hi; cases hi
      have hce : ∀ j, ((s.heap.set id (some (c, ns.set i ⟨p, v, .arc s.heap.next⟩))).alloc (us.map rawNode)).cell j =
          if j = s.heap.next then some (1, us.map rawNode) else if j = id then some (c, ns.set i ⟨p, v, .arc s.heap.next⟩) else s.heap.cell j := by
        intro j; rfl
      have k1 : ∀ j, j ≠ id → ∀ x, s.heap.cell j = some x → ((s.heap.set id (some (c, ns.set i ⟨p, v, .arc s.heap.next⟩))).alloc (us.map rawNode)).cell j = some x := by
        intro j hj x hx
        rw [hce, if_neg (Nat.ne_of_lt (ho.wf.lt hx)), if_neg hj]; exact hx
      have k2 : ((s.heap.set id (some (c, ns.set i ⟨p, v, .arc s.heap.next⟩))).alloc (us.map rawNode)).cell id = some (c, ns.set i ⟨p, v, .arc s.heap.next⟩) := by
        rw [hce, if_neg (Nat.ne_of_lt hidlt), if_pos rfl]
      have k3 : ((s.heap.set id (some (c, ns.set i ⟨p, v, .arc s.heap.next⟩))).alloc (us.map rawNode)).cell s.heap.next = some (1, us.map rawNode) := by
        rw [hce, if_pos rfl]
      obtain ⟨q1, q2⟩ := ho.set_heap (fun m _ u hd => hd.forced hc hi k1 k2 k3)
      rw [hf]
      refine ⟨⟨?_, q1, q2⟩, rfl, p, v, s.heap.next, 1, us.map rawNode, ?_, k3, dens_rawNodes _ us, rfl, rfl⟩
      · refine ⟨?_, ?_, ?_, ?_⟩
        · intro j hj
          have hj : s.heap.next + 1 ≤ j := hj
          show ((s.heap.set id (some (c, ns.set i ⟨p, v, .arc s.heap.next⟩))).alloc (us.map rawNode)).cell j = none
          rw [hce, if_neg (by omega), if_neg (by omega)]; exact ho.wf.bound j (by omega)
        · intro j r ms hj
          simp only [hce] at hj
          split at hj
          · cases hj; omega
          · split at hj
            · cases hj; exact ho.wf.pos _ _ _ hc
            · exact ho.wf.pos _ _ _ hj
        · intro k
          have e1 := ho.wf.exact k
          have e2 := total_set s.heap (some (c, ns.set i ⟨p, v, .arc s.heap.next⟩)) hidlt k
          have e3 := refs_set hi ⟨p, v, .arc s.heap.next⟩ k
          have e4 : s.heap.vec id = ns := by simp [Heap.vec, hc]
          have e5 : ((s.heap.set id (some (c, ns.set i ⟨p, v, .arc s.heap.next⟩))).alloc (us.map rawNode)).total k =
              (s.heap.set id (some (c, ns.set i ⟨p, v, .arc s.heap.next⟩))).total k + refs k (us.map rawNode) := by
            exact total_alloc' _ _ k
          have e6 : Heap.rc ((s.heap.set id (some (c, ns.set i ⟨p, v, .arc s.heap.next⟩))).alloc (us.map rawNode)) k =
              if k = s.heap.next then 1 else s.heap.rc k := by
            simp only [Heap.rc, hce]
            by_cases x1 : k = s.heap.next
            · simp [x1]
            · rw [if_neg x1, if_neg x1]
              by_cases x2 : k = id
              · subst x2; simp [hc]
              · rw [if_neg x2]
          have e7 : (St.mk ((s.heap.set id (some (c, ns.set i ⟨p, v, .arc s.heap.next⟩))).alloc (us.map rawNode)) s.regs s.static).roots F = s.roots F := rfl
          simp only [e7]
          rw [e5, e6, refs_rawNodes]
          rw [e4] at e2
          rw [refs_arc, refs_raw] at e3
          simp only at e2
          have e8 : s.heap.rc s.heap.next = 0 := by simp [Heap.rc, ho.wf.bound _ (Nat.le_refl _)]
          by_cases x1 : k = s.heap.next
          · subst x1
            simp only [if_true] at e3 ⊢; omega
          · rw [if_neg (fun e => x1 e.symm)] at e3
            rw [if_neg x1]; omega
        · intro j r ms hj
          simp only [hce] at hj
          split at hj
          · cases hj; exact ⟨us, dens_rawNodes _ us⟩
          · split at hj
            · cases hj
              obtain ⟨ws, hw⟩ := ho.wf.full _ _ _ hc
              have := (hw.forced hc hi k1 k2 k3).set (n := ⟨p, v, .arc s.heap.next⟩) (t := ⟨p, v, us⟩) (.arc p v k3 (dens_rawNodes _ us)) i
              exact ⟨_, this⟩
            · obtain ⟨ws, hw⟩ := ho.wf.full _ _ _ hj
              exact ⟨ws, hw.forced hc hi k1 k2 k3⟩
      · rw [St.node_elem]
        exact ⟨c, _, k2, by simp [hilt]⟩

theorem walk_ok : ∀ (path : List Nat) {s : St K V} {F ts} {σ n t}, Ok s F ts → s.node σ = some n → Den s.heap n t →
    Ok (s.walk path σ).1 F ts ∧ (s.walk path σ).1.static = s.static ∧
    (((s.walk path σ).2 = none ∧ treeAt path t = none) ∨
      ∃ σ' n' t', (s.walk path σ).2 = some σ' ∧ treeAt path t = some t' ∧ (s.walk path σ).1.node σ' = some n' ∧ Den (s.walk path σ).1.heap n' t')
  | [], s, F, ts, σ, n, t, ho, hn, hd => ⟨ho, rfl, .inr ⟨σ, n, t, rfl, rfl, hn, hd⟩⟩
  | i :: is, s, F, ts, σ, n, t, ho, hn, hd => by
    obtain ⟨h1, h2, p, v, id, r, ns, h3, h4, h5, -, -⟩ := force_ok ho hn hd
    rw [show s.walk (i :: is) σ = (match (s.force σ).node (.elem id i) with
      | some _ => St.walk is (s.force σ) (.elem id i)
      | none => (s.force σ, none)) by simp only [St.walk, h3] <;> rfl]
    rcases h5.get i with ⟨g1, g2⟩ | ⟨c, tc, g1, g2, g3⟩
    · have : (s.force σ).node (.elem id i) = none := by simp [St.node, h4, g1]
      rw [this]
      exact ⟨h1, h2, .inl ⟨rfl, by simp [treeAt, g2]⟩⟩
    · have : (s.force σ).node (.elem id i) = some c := by simp [St.node, h4, g1]
      obtain ⟨w1, w2, w3⟩ := walk_ok is h1 this g3
      rw [this]
      refine ⟨w1, w2.trans h2, ?_⟩
      have e : treeAt (i :: is) t = treeAt is tc := by simp [treeAt, g2]
      rw [e]; exact w3
end Verif.Shared
