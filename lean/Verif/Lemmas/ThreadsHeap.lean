import Verif.Model.Threads
import Verif.Lemmas.SharedStep
/-! Single accesses to the shared heap (for C74). -/
namespace Verif.Threads
open Verif.Shared
variable {K V : Type _}

/-- the nodes in variables and the static -/
def base (s : St K V) : List (Node K V) := s.regs.filterMap id ++ (others s []).map Prod.fst

/-- consistent memory: variables stand for `ts`, the nodes held by threads for their trees -/
structure Inv (s : St K V) (F : List (Node K V × Tree K V)) (ts : Vars K V) : Prop where
  wf : WF s.heap (F.map Prod.fst ++ base s)
  regs : RegDen s.heap s.regs ts
  stat : ∀ e, s.static = some e → Den s.heap ⟨[], none, .arc e⟩ ⟨[], none, []⟩
  held : ∀ x ∈ F, Den s.heap x.1 x.2

theorem others_nil (s : St K V) (F) : others s F = others s [] ++ F := by simp [others]

theorem roots_perm (s : St K V) (F) : (s.roots F).Perm (F.map Prod.fst ++ base s) := by
  rw [St.roots, others_nil, List.map_append, ← List.append_assoc]
  exact List.perm_append_comm

theorem mem_others {s : St K V} {x} (h : x ∈ others s []) : ∃ e, s.static = some e ∧ x = (⟨[], none, .arc e⟩, ⟨[], none, []⟩) := by
  simp only [others, List.append_nil] at h
  cases hs : s.static with
  | none => rw [hs] at h; simp at h
  | some e => rw [hs] at h; exact ⟨e, rfl, by simpa using h⟩

theorem Inv.ok {s : St K V} {F ts} (hi : Inv s F ts) : Ok s F ts := by
  refine ⟨hi.wf.perm (roots_perm s F), hi.regs, fun x hx => ?_⟩
  rw [others_nil] at hx
  rcases List.mem_append.1 hx with h | h
  · obtain ⟨e, he, rfl⟩ := mem_others h
    exact hi.stat e he
  · exact hi.held x h

theorem Inv.of_ok {s : St K V} {F ts} (ho : Ok s F ts) : Inv s F ts := by
  refine ⟨ho.wf.perm (roots_perm s F).symm, ho.regs, fun e he => ?_, fun x hx => ho.frame x ?_⟩
  · exact ho.frame (⟨[], none, .arc e⟩, ⟨[], none, []⟩) (by simp [others, he])
  · rw [others_nil]; exact List.mem_append_right _ hx

theorem Inv.perm {s : St K V} {F F' ts} (hi : Inv s F ts) (hp : F'.Perm F) : Inv s F' ts :=
  ⟨hi.wf.perm ((hp.map _).append_right _), hi.regs, hi.stat, fun x hx => hi.held x (hp.mem_iff.1 hx)⟩

/-- the heap changes; what other nodes stand for does not -/
theorem Inv.change {s : St K V} {F ts} (hi : Inv s F ts) {h' : Heap K V} {F'} (hw : WF h' (F'.map Prod.fst ++ base s))
    (hx : ∀ m ∈ base s, ∀ u, Den s.heap m u → Den h' m u) (hF : ∀ x ∈ F', Den h' x.1 x.2) : Inv { s with heap := h' } F' ts := by
  refine ⟨hw, hi.regs.heap fun m hm => hx m (List.mem_append_left _ hm), fun e he => ?_, hF⟩
  refine hx _ (List.mem_append_right _ ?_) _ (hi.stat e he)
  have he : s.static = some e := he
  simp [others, he]

/-! ## sites -/

/-- an `Arc` stays the same `Arc` -/
def KidsLe (n n' : Node K V) : Prop := ∀ id, n.kids = .arc id → n'.kids = .arc id
theorem KidsLe.refl (n : Node K V) : KidsLe n n := fun _ h => h

/-- a node that is stored in a variable or in a vector -/
def Stored (s : St K V) (n : Node K V) : Prop := ∃ σ, s.node σ = some n

/-- the site `σ` is what one gets to from variable `r` along the path -/
inductive SiteAt (s : St K V) (r : Nat) : List Nat → Site → Prop
  | root {n} : s.regs[r]? = some (some n) → SiteAt s r [] (.reg r)
  | child {p σ n id c ns i} : SiteAt s r p σ → s.node σ = some n → n.kids = .arc id → s.heap.cell id = some (c, ns) → i < ns.length →
      SiteAt s r (p ++ [i]) (.elem id i)

/-- vectors that a stored node refers to stay where they are -/
def Stays (s s' : St K V) : Prop :=
  ∀ n id c ns, Stored s n → n.kids = .arc id → s.heap.cell id = some (c, ns) →
    ∃ c' ns', s'.heap.cell id = some (c', ns') ∧ ns'.length = ns.length ∧ ∀ (i : Nat) m, ns[i]? = some m → ∃ m', ns'[i]? = some m' ∧ KidsLe m m'

/-- a variable stays as it is, except that it may be loaded -/
def RegStays (s s' : St K V) (r : Nat) : Prop := ∀ n, s.regs[r]? = some (some n) → ∃ n', s'.regs[r]? = some (some n') ∧ KidsLe n n'

theorem SiteAt.node {s : St K V} {r p σ} (h : SiteAt s r p σ) : ∃ n, s.node σ = some n := by
  cases h with
  | root h => exact ⟨_, St.node_reg.2 h⟩
  | child _ _ _ hc hi => exact ⟨_, St.node_elem.2 ⟨_, _, hc, List.getElem?_eq_getElem hi⟩⟩

theorem SiteAt.mono {s s' : St K V} {r p σ} (hs : Stays s s') (hr : RegStays s s' r) (h : SiteAt s r p σ) :
    SiteAt s' r p σ ∧ ∀ n, s.node σ = some n → ∃ n', s'.node σ = some n' ∧ KidsLe n n' := by
  induction h with
  | @root n h =>
    obtain ⟨n', h1, h2⟩ := hr n h
    refine ⟨.root h1, fun m hm => ⟨n', St.node_reg.2 h1, ?_⟩⟩
    rw [St.node_reg, h] at hm; cases hm; exact h2
  | @child p σ n id c ns i _ hn hk hc hi ih =>
    obtain ⟨ih1, ih2⟩ := ih
    obtain ⟨n', h1, h2⟩ := ih2 n hn
    obtain ⟨c', ns', h3, h4, h5⟩ := hs n id c ns ⟨σ, hn⟩ hk hc
    refine ⟨.child ih1 h1 (h2 id hk) h3 (by omega), fun m hm => ?_⟩
    obtain ⟨c2, ns2, h6, h7⟩ := St.node_elem.1 hm
    rw [hc] at h6; cases h6
    obtain ⟨m', h8, h9⟩ := h5 i m h7
    exact ⟨m', St.node_elem.2 ⟨c', ns', h3, h8⟩, h9⟩

theorem treeAt_snoc {i : Nat} : ∀ {p : List Nat} {t u : Tree K V}, treeAt p t = some u → treeAt (p ++ [i]) t = u.kids[i]?
  | [], t, u, h => by cases h; simp only [List.nil_append, treeAt]; cases t.kids[i]? <;> rfl
  | j :: p, t, u, h => by
    simp only [List.cons_append, treeAt] at h ⊢
    cases hj : t.kids[j]? with
    | none => rw [hj] at h; cases h
    | some c => rw [hj] at h; exact treeAt_snoc h

theorem SiteAt.den {s : St K V} {F ts} (hi : Inv s F ts) {r p σ} (h : SiteAt s r p σ) {T : Tree K V} (hT : ts[r]? = some (some T)) :
    ∃ n t, s.node σ = some n ∧ Den s.heap n t ∧ treeAt p T = some t := by
  induction h with
  | @root n h =>
    obtain ⟨t, h1, h2⟩ := hi.regs.some h
    rw [hT] at h1; cases h1
    exact ⟨n, T, St.node_reg.2 h, h2, rfl⟩
  | @child p σ n id c ns i _ hn hk hc hlt ih =>
    obtain ⟨n', t, h1, h2, h3⟩ := ih
    rw [hn] at h1; cases h1
    cases h2 with
    | raw => cases hk
    | arc _ _ hc' hds =>
      cases hk
      rw [hc] at hc'; cases hc'
      rcases hds.get i with ⟨g1, -⟩ | ⟨m, u, g1, g2, g3⟩
      · rw [List.getElem?_eq_getElem hlt] at g1; cases g1
      · exact ⟨m, u, St.node_elem.2 ⟨c, ns, hc, g1⟩, g3, by rw [treeAt_snoc h3]; exact g2⟩

theorem Stays.refl (s : St K V) : Stays s s := fun _ _ c ns _ _ hc => ⟨c, ns, hc, rfl, fun _ m hm => ⟨m, hm, .refl m⟩⟩
theorem RegStays.refl (s : St K V) (r : Nat) : RegStays s s r := fun n h => ⟨n, h, .refl n⟩
theorem RegStays.of_eq {s s' : St K V} {r : Nat} (h : s'.regs[r]? = s.regs[r]?) : RegStays s s' r := fun n hn => ⟨n, h.trans hn, .refl n⟩
theorem RegStays.trans {s s' s'' : St K V} {r} (h1 : RegStays s s' r) (h2 : RegStays s' s'' r) : RegStays s s'' r := by
  intro n hn
  obtain ⟨n', h3, h4⟩ := h1 n hn
  obtain ⟨n'', h5, h6⟩ := h2 n' h3
  exact ⟨n'', h5, fun id h => h6 id (h4 id h)⟩
theorem Stays.of_sameVecs {s s' : St K V} (h : SameVecs s.heap s'.heap) : Stays s s' := by
  intro n id c ns _ _ hc
  obtain ⟨c', hc'⟩ := h id c ns hc
  exact ⟨c', ns, hc', rfl, fun _ m hm => ⟨m, hm, .refl m⟩⟩
/-- a vector that no stored node refers to goes away -/
theorem Stays.of_erase {s s' : St K V} {id : Nat} (hn : ∀ n, Stored s n → n.isArc id = false)
    (h : ∀ j c, j ≠ id → s.heap.cell j = some c → s'.heap.cell j = some c) : Stays s s' := by
  intro n j c ns hs hk hc
  have hne : j ≠ id := by
    rintro rfl
    have := hn n hs
    simp [Node.isArc, hk] at this
  exact ⟨c, ns, h j _ hne hc, rfl, fun _ m hm => ⟨m, hm, .refl m⟩⟩

/-! ## the single accesses -/

theorem Inv.clone {s : St K V} {F ts} (hi : Inv s F ts) {n : Node K V} {t : Tree K V} (hd : Den s.heap n t) :
    ∃ h, cloneStep s.heap n = some h ∧ Inv { s with heap := h } ((n, t) :: F) ts ∧ SameVecs s.heap h ∧ h.next = s.heap.next ∧
      ∀ j, s.heap.cell j = none → h.cell j = none := by
  have key : cloneStep s.heap n = some (s.heap.cloned n) := by
    simp only [cloneStep, Heap.cloned]
    cases hd with
    | raw => rfl
    | arc _ _ hc _ => simp only [hc]
  have hs := sameVecs_cloned s.heap n
  have hnext : (s.heap.cloned n).next = s.heap.next := by
    simp only [Heap.cloned]
    cases n.kids with
    | raw => rfl
    | arc id =>
      simp only [Heap.inc]
      cases s.heap.cell id <;> rfl
  refine ⟨_, key, hi.change (F' := (n, t) :: F) (hi.wf.cloned hd.hasArc) (fun m _ u h => h.mono hs) (fun x hx => ?_), hs, hnext, fun j => cloned_none⟩
  rcases List.mem_cons.1 hx with rfl | hx
  · exact hd.mono hs
  · exact (hi.held x hx).mono hs

/-- pairs of nodes and trees -/
theorem dens_zip {h : Heap K V} : ∀ {ns : List (Node K V)} {ts : List (Tree K V)}, Dens h ns ts → (∀ x ∈ ns.zip ts, Den h x.1 x.2) ∧ (ns.zip ts).map Prod.fst = ns
  | _, _, .nil => ⟨by simp, rfl⟩
  | _, _, .cons h1 h2 => by
    obtain ⟨k1, k2⟩ := dens_zip h2
    refine ⟨fun x hx => ?_, by simp [k2]⟩
    rcases List.mem_cons.1 hx with rfl | hx
    · exact h1
    · exact k1 x hx

theorem zip_dens {h : Heap K V} : ∀ {ns : List (Node K V)} {ts : List (Tree K V)}, ns.length = ts.length → (∀ x ∈ ns.zip ts, Den h x.1 x.2) → Dens h ns ts
  | [], [], _, _ => .nil
  | [], _ :: _, hl, _ => by simp at hl
  | _ :: _, [], hl, _ => by simp at hl
  | n :: ns, t :: ts, hl, hx => .cons (hx (n, t) (by simp)) (zip_dens (by simpa using hl) fun x hm => hx x (by simp [hm]))

theorem map_fst_zip {α β : Type _} : ∀ {l : List α} {l' : List β}, l.length = l'.length → (l.zip l').map Prod.fst = l
  | [], [], _ => rfl
  | [], _ :: _, h => by simp at h
  | _ :: _, [], h => by simp at h
  | _ :: l, _ :: l', h => by simp [map_fst_zip (l := l) (l' := l') (by simpa using h)]

/-- nodes that are stored are counted -/
theorem stored_refs {s : St K V} {R : List (Node K V)} {id : Nat} (hb : ∀ m ∈ R, m.isArc id = false) (hR : ∀ m ∈ s.regs.filterMap _root_.id, m ∈ R)
    (hc : ∀ j r ns, s.heap.cell j = some (r, ns) → ∀ m ∈ ns, m.isArc id = false) : ∀ n, Stored s n → n.isArc id = false := by
  rintro n ⟨σ, hσ⟩
  cases σ with
  | reg r => exact hb n (hR n (mem_regs (St.node_reg.1 hσ)))
  | elem j i =>
    obtain ⟨r, ns, h1, h2⟩ := St.node_elem.1 hσ
    exact hc j r ns h1 n (List.mem_of_getElem? h2)

/-- the last reference to a vector is held by a thread: the elements become its own, no stored node refers to the vector -/
theorem Inv.free {s : St K V} {F ts} {p v id ks ns} (hi : Inv s ((⟨p, v, .arc id⟩, ⟨p, v, ks⟩) :: F) ts) (hc : s.heap.cell id = some (1, ns)) :
    Inv { s with heap := s.heap.set id none } (ns.zip ks ++ F) ts ∧ ns.length = ks.length ∧ (∀ n, Stored s n → n.isArc id = false) ∧
      (∀ n ∈ ns, n.isArc id = false) ∧ ∀ x ∈ F, x.1.isArc id = false := by
  have hd := hi.held _ (List.mem_cons_self ..)
  cases hd with
  | arc _ _ hc' hds =>
    rw [hc] at hc'; cases hc'
    have hw := hi.wf
    simp only [List.map_cons, List.cons_append] at hw
    obtain ⟨w1, w2⟩ := hw.free hc
    have hn := w1.none_refs (id := id) (by simp [Heap.set])
    have hself : ∀ m ∈ ns, m.isArc id = false := fun m hm => hn.1 m (List.mem_append_left _ hm)
    obtain ⟨z1, z2⟩ := dens_zip hds
    refine ⟨hi.change (F' := ns.zip ks ++ F) ?_ (fun m hm u h => w2.den m ?_ u h) (fun x hx => ?_), hds.length, ?_, hself, fun x hx => ?_⟩
    · rw [List.map_append, z2, List.append_assoc]; exact w1
    · exact List.mem_append_right _ (List.mem_append_right _ hm)
    · rcases List.mem_append.1 hx with hx | hx
      · exact w2.den _ (List.mem_append_left _ (by rw [← z2]; exact List.mem_map_of_mem hx)) _ (z1 x hx)
      · exact w2.den _ (List.mem_append_right _ (List.mem_append_left _ (List.mem_map_of_mem hx))) _ (hi.held x (List.mem_cons_of_mem _ hx))
    · refine stored_refs hn.1 (fun m hm => List.mem_append_right _ (List.mem_append_right _ (List.mem_append_left _ hm))) ?_
      intro j r ms hj m hm
      by_cases e : j = id
      · subst e; rw [hc] at hj; cases hj; exact hself m hm
      · exact hn.2 j r ms (by simp [Heap.set, e, hj]) m hm
    · exact hn.1 _ (List.mem_append_right _ (List.mem_append_left _ (List.mem_map_of_mem hx)))

theorem dec_sameVecs' (h : Heap K V) (id : Nat) : (h.dec id).next = h.next := by
  simp only [Heap.dec]; cases h.cell id <;> rfl

/-- dropping one node -/
theorem Inv.dropStep {s : St K V} {F ts} {n : Node K V} {t : Tree K V} (hi : Inv s ((n, t) :: F) ts) :
    ∃ h more, Threads.dropStep s.heap n = some (h, more) ∧ ∃ ks, more.length = ks.length ∧ Inv { s with heap := h } (more.zip ks ++ F) ts ∧
      Stays s { s with heap := h } ∧ (ks = [] ∨ ks = t.kids) ∧ h.next = s.heap.next ∧ ∀ j, s.heap.cell j = none → h.cell j = none := by
  have hd := hi.held _ (List.mem_cons_self ..)
  cases hd with
  | raw p v us =>
    refine ⟨s.heap, [], rfl, [], rfl, ?_, .refl _, .inl rfl, rfl, fun _ h => h⟩
    refine ⟨hi.wf.congr fun id => ?_, hi.regs, hi.stat, fun x hx => hi.held x (List.mem_cons_of_mem _ hx)⟩
    simp only [List.map_cons, List.cons_append, List.zip_nil_left, List.nil_append]
    rw [refs_cons id ⟨p, v, .raw us⟩, refs_raw]; simp
  | @arc p v id r ns ks hc hds =>
    by_cases hr : r = 1
    · subst hr
      obtain ⟨k1, k2, k3, -, -⟩ := hi.free hc
      refine ⟨s.heap.set id none, ns, by simp [Threads.dropStep, hc], ks, k2, k1, .of_erase k3 ?_, .inr rfl, rfl, ?_⟩
      · intro j c hj hcj; simp [Heap.set, hj, hcj]
      · intro j hj; simp only [Heap.set]; split
        · rfl
        · exact hj
    · have hs := sameVecs_dec s.heap id
      refine ⟨s.heap.dec id, [], by simp [Threads.dropStep, hc, hr], [], rfl, ?_, .of_sameVecs hs, .inl rfl, dec_sameVecs' _ _, fun j => dec_none⟩
      have hw := hi.wf
      simp only [List.map_cons, List.cons_append] at hw
      exact hi.change (F' := F) (hw.dec hc hr) (fun m _ u h => h.mono hs) (fun x hx => (hi.held x (List.mem_cons_of_mem _ hx)).mono hs)

/-- putting a vector back into the heap -/
theorem Inv.put {s : St K V} {F ts} {ns : List (Node K V)} {ks : List (Tree K V)} {id : Nat} (p v) (hi : Inv s (ns.zip ks ++ F) ts) (hl : ns.length = ks.length)
    (hc : s.heap.cell id = none) (hlt : id < s.heap.next) :
    Inv { s with heap := s.heap.set id (some (1, ns)) } ((⟨p, v, .arc id⟩, ⟨p, v, ks⟩) :: F) ts ∧ SameVecs s.heap (s.heap.set id (some (1, ns))) := by
  have hds : Dens s.heap ns ks := zip_dens hl fun x hx => hi.held x (List.mem_append_left _ hx)
  have hs : SameVecs s.heap (s.heap.set id (some (1, ns))) := sameVecs_put hc
  have hw := hi.wf
  rw [List.map_append, map_fst_zip hl, List.append_assoc] at hw
  refine ⟨hi.change (F' := (⟨p, v, .arc id⟩, ⟨p, v, ks⟩) :: F) (hw.put p v hds hc hlt) (fun m _ u h => h.mono hs) (fun x hx => ?_), hs⟩
  rcases List.mem_cons.1 hx with rfl | hx
  · exact .arc p v (r := 1) (ns := ns) (by simp [Heap.set]) (hds.mono hs)
  · exact (hi.held x (List.mem_append_right _ hx)).mono hs

/-- an unused address is taken -/
theorem Inv.bump {s : St K V} {F ts} (hi : Inv s F ts) : Inv { s with heap := { s.heap with next := s.heap.next + 1 } } F ts := by
  have hs : SameVecs s.heap { s.heap with next := s.heap.next + 1 } := fun _ r _ h => ⟨r, h⟩
  exact hi.change hi.wf.bump (fun m _ u h => h.mono hs) (fun x hx => (hi.held x hx).mono hs)

/-- what is held can be seen differently -/
theorem Inv.reheld {s : St K V} {F F' ts} (hi : Inv s F ts) (hr : ∀ id, refs id (F'.map Prod.fst) = refs id (F.map Prod.fst)) (hd : ∀ x ∈ F', Den s.heap x.1 x.2) :
    Inv s F' ts :=
  ⟨hi.wf.congr fun id => by rw [refs_append, refs_append, hr], hi.regs, hi.stat, hd⟩

theorem Inv.takeReg {s : St K V} {F ts} (hi : Inv s F ts) {r : Nat} {n : Node K V} (hr : s.regs[r]? = some (some n)) :
    ∃ t, ts[r]? = some (some t) ∧ Inv { s with regs := s.regs.set r none } ((n, t) :: F) (ts.set r none) := by
  obtain ⟨t, ht, hd⟩ := hi.regs.some hr
  refine ⟨t, ht, ?_, hi.regs.set trivial, hi.stat, fun x hx => ?_⟩
  · refine hi.wf.perm ?_
    simp only [base, List.map_cons, List.cons_append]
    have := (perm_self hr).append_right ((others s []).map Prod.fst)
    simp only [Option.toList_some, List.singleton_append] at this
    refine .trans ?_ (this.append_left (F.map Prod.fst)).symm
    simp only [List.cons_append]
    exact List.perm_middle.symm
  · rcases List.mem_cons.1 hx with rfl | hx
    · exact hd
    · exact hi.held x hx

theorem Inv.putReg {s : St K V} {F ts} {n : Node K V} {t : Tree K V} (hi : Inv s ((n, t) :: F) ts) {r : Nat} (hr : s.regs[r]? = some none) :
    Inv { s with regs := s.regs.set r (some n) } F (ts.set r (some t)) := by
  refine ⟨?_, hi.regs.set (hi.held _ (List.mem_cons_self ..)), hi.stat, fun x hx => hi.held x (List.mem_cons_of_mem _ hx)⟩
  refine hi.wf.perm ?_
  have := (perm_set hr (some n)).append_right ((others s []).map Prod.fst)
  rw [set_same hr] at this
  simp only [Option.toList_some, List.singleton_append] at this
  simp only [base, List.map_cons, List.cons_append]
  refine (this.append_left _).trans ?_
  simp only [List.cons_append]
  exact List.perm_middle

/-- loading -/
theorem Inv.force {s : St K V} {F ts} (hi : Inv s F ts) {σ n t} (hn : s.node σ = some n) (hd : Den s.heap n t) :
    Inv (s.force σ) F ts ∧ Stays s (s.force σ) ∧ (∀ r, RegStays s (s.force σ) r) ∧ (∀ x, isFull (s.force σ).regs x = isFull s.regs x) ∧
      (s.force σ).static = s.static ∧ s.heap.next ≤ (s.force σ).heap.next ∧ (∀ j, j < s.heap.next → s.heap.cell j = none → (s.force σ).heap.cell j = none) ∧
      ∃ m, (s.force σ).node σ = some m ∧ ∃ id, m.kids = .arc id := by
  obtain ⟨h1, h2, p, v, id, r, ns, h3, -, -, -, -⟩ := force_ok hi.ok hn hd
  refine ⟨.of_ok h1, ?_⟩
  refine and_assoc.1 (and_assoc.1 (and_assoc.1 (and_assoc.1 (and_assoc.1 ⟨?_, ⟨_, h3, id, rfl⟩⟩))))
  cases hd with
  | arc p v hc hds =>
    have : s.force σ = s := by simp [St.force, hn]
    rw [this]
    exact ⟨⟨⟨⟨⟨.refl s, fun r => .refl s r⟩, fun _ => rfl⟩, rfl⟩, Nat.le_refl _⟩, fun _ _ h => h⟩
  | raw p v us =>
    cases σ with
    | reg r =>
      have hr := St.node_reg.1 hn
      have hf : s.force (.reg r) = { s with heap := s.heap.alloc (us.map rawNode), regs := s.regs.set r (some ⟨p, v, .arc s.heap.next⟩) } := by
        simp [St.force, hn, St.setNode]
      rw [hf]
      refine ⟨⟨⟨⟨⟨.of_sameVecs (sameVecs_alloc hi.wf _), fun x n' hn' => ?_⟩, fun x => ?_⟩, rfl⟩, Nat.le_succ _⟩, fun j hj hc => ?_⟩
      · by_cases e : r = x
        · subst e
          rw [hr] at hn'; cases hn'
          exact ⟨⟨p, v, .arc s.heap.next⟩, by simp [lt_of_getElem? hr], fun id h => by cases h⟩
        · exact ⟨n', by simp only; rw [List.getElem?_set_ne e]; exact hn', .refl _⟩
      · by_cases e : r = x
        · subst e; simp only [isFull, hr, List.getElem?_set_self (lt_of_getElem? hr)]
        · simp only [isFull]; rw [List.getElem?_set_ne e]
      · simp only [Heap.alloc]; rw [if_neg (by omega)]; exact hc
    | elem j i =>
      obtain ⟨c, ms, hc, hj⟩ := St.node_elem.1 hn
      have hjlt := hi.wf.lt hc
      have hf : s.force (.elem j i) = { s with heap := (s.heap.set j (some (c, ms.set i ⟨p, v, .arc s.heap.next⟩))).alloc (us.map rawNode) } := by
        simp [St.force, hn, St.setNode, hc]
      have hce : ∀ x, ((s.heap.set j (some (c, ms.set i ⟨p, v, .arc s.heap.next⟩))).alloc (us.map rawNode)).cell x =
          if x = s.heap.next then some (1, us.map rawNode) else if x = j then some (c, ms.set i ⟨p, v, .arc s.heap.next⟩) else s.heap.cell x := fun _ => rfl
      rw [hf]
      refine ⟨⟨⟨⟨⟨?_, fun x => .of_eq rfl⟩, fun x => rfl⟩, rfl⟩, Nat.le_succ _⟩, fun x hx hcx => ?_⟩
      · intro m id' c' ns' _ _ hc'
        have hlt := hi.wf.lt hc'
        by_cases e : id' = j
        · subst e
          rw [hc] at hc'; cases hc'
          refine ⟨c, ms.set i ⟨p, v, .arc s.heap.next⟩, ?_, by simp, fun q m' hm' => ?_⟩
          · rw [hce, if_neg (by omega), if_pos rfl]
          · by_cases e : i = q
            · subst e
              rw [hj] at hm'; cases hm'
              exact ⟨⟨p, v, .arc s.heap.next⟩, by simp [lt_of_getElem? hj], fun id h => by cases h⟩
            · exact ⟨m', by rw [List.getElem?_set_ne e]; exact hm', .refl _⟩
        · exact ⟨c', ns', by rw [hce, if_neg (by omega), if_neg e]; exact hc', rfl, fun _ m hm => ⟨m, hm, .refl m⟩⟩
      · rw [hce, if_neg (by omega), if_neg (by rintro rfl; rw [hc] at hcx; cases hcx)]; exact hcx

end Verif.Threads
