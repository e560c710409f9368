import Verif.Lemmas.SharedStep
import Verif.Spec.RadixDb
namespace Verif.Shared
variable {K V : Type _}

/-- the children of the node are loaded -/
def Node.loaded (n : Node K V) : Prop := ∃ id, n.kids = .arc id
/-- everything in the heap is loaded -/
def Heap.loaded (h : Heap K V) : Prop := ∀ id r ns, h.cell id = some (r, ns) → ∀ m ∈ ns, m.loaded

theorem loaded_set {h : Heap K V} (hl : h.loaded) {id : Nat} {c : Option (Nat × List (Node K V))} (hc : ∀ r ns, c = some (r, ns) → ∀ m ∈ ns, m.loaded) : (h.set id c).loaded := by
  intro j r ns hj
  simp only [Heap.set] at hj
  split at hj
  · exact hc r ns hj
  · exact hl j r ns hj

theorem loaded_inc {h : Heap K V} (hl : h.loaded) (id : Nat) : (h.inc id).loaded := by
  simp only [Heap.inc]
  cases hc : h.cell id with
  | none => exact hl
  | some c => exact loaded_set hl (fun r ns e => by cases e; exact hl id _ _ hc)

theorem loaded_dec {h : Heap K V} (hl : h.loaded) (id : Nat) : (h.dec id).loaded := by
  simp only [Heap.dec]
  cases hc : h.cell id with
  | none => exact hl
  | some c => exact loaded_set hl (fun r ns e => by cases e; exact hl id _ _ hc)

theorem loaded_alloc {h : Heap K V} (hl : h.loaded) {ns : List (Node K V)} (hn : ∀ m ∈ ns, m.loaded) : (h.alloc ns).loaded := by
  intro j r ms hj
  simp only [Heap.alloc] at hj
  split at hj
  · cases hj; exact hn
  · exact hl j r ms hj

theorem loaded_cloned {h : Heap K V} (hl : h.loaded) (n : Node K V) : (h.cloned n).loaded := by
  simp only [Heap.cloned]; cases n.kids
  · exact hl
  · exact loaded_inc hl _

theorem loaded_clonedAll : ∀ (ns : List (Node K V)) {h : Heap K V}, h.loaded → (h.clonedAll ns).loaded
  | [], h, hl => hl
  | n :: ns, h, hl => loaded_clonedAll ns (loaded_cloned hl n)

theorem loaded_dropAll : ∀ (fuel : Nat) (h : Heap K V) (ws), h.loaded → (Heap.dropAll fuel h ws).loaded
  | fuel, h, [], hl => by cases fuel <;> exact hl
  | 0, h, n :: ns, hl => hl
  | fuel + 1, h, n :: ns, hl => by
    simp only [Heap.dropAll]
    split
    · exact loaded_dropAll fuel h ns hl
    · split
      · exact loaded_dropAll fuel h ns hl
      · split
        · exact loaded_dropAll fuel _ _ (loaded_set hl (fun r ns e => by cases e))
        · exact loaded_dropAll fuel _ _ (loaded_dec hl _)

theorem loaded_childrenMut {h : Heap K V} (hl : h.loaded) {n : Node K V} (hn : n.loaded) :
    (childrenMut h n).1.loaded ∧ ∀ m ∈ (childrenMut h n).2.2, m.loaded := by
  obtain ⟨id, hk⟩ := hn
  simp only [childrenMut, hk]
  cases hc : h.cell id with
  | none => exact ⟨hl, by simp⟩
  | some c =>
    obtain ⟨r, ns⟩ := c
    simp only []
    split
    · exact ⟨loaded_set hl (fun r ns e => by cases e), hl _ _ _ hc⟩
    · refine ⟨?_, hl _ _ _ hc⟩
      exact fun j => loaded_clonedAll ns (loaded_dec hl id) j

theorem loaded_putBack {h : Heap K V} (hl : h.loaded) (n : Node K V) (id : Nat) {ns : List (Node K V)} (hn : ∀ m ∈ ns, m.loaded) :
    (putBack h n id ns).1.loaded ∧ (putBack h n id ns).2.loaded :=
  ⟨loaded_set hl (fun r ms e => by cases e; exact hn), ⟨id, rfl⟩⟩

/-- an action that keeps everything loaded -/
def ActLoaded (act : Heap K V → Node K V → Heap K V × Node K V × Option (List (Node K V))) : Prop :=
  ∀ h n, h.loaded → n.loaded → (act h n).1.loaded ∧ (act h n).2.1.loaded ∧ ∀ out, (act h n).2.2 = some out → ∀ m ∈ out, m.loaded

theorem loaded_modAt {act : Heap K V → Node K V → Heap K V × Node K V × Option (List (Node K V))} (ha : ActLoaded act) :
    ∀ (path : List Nat), ActLoaded (modAt act path)
  | [] => fun h n hl hn => by simpa [modAt] using ha h n hl hn
  | i :: is => by
    intro h n hl hn
    obtain ⟨h1, h2⟩ := loaded_childrenMut hl hn
    rcases hcm : childrenMut h n with ⟨h', id, ns⟩
    rw [hcm] at h1 h2
    simp only at h1 h2
    simp only [modAt, hcm]
    cases hi : ns[i]? with
    | none =>
      obtain ⟨k1, k2⟩ := loaded_putBack h1 n id h2
      exact ⟨k1, k2, fun out e => by cases e⟩
    | some c =>
      obtain ⟨k1, k2, k3⟩ := loaded_modAt ha is h' c h1 (h2 c (List.mem_of_getElem? hi))
      obtain ⟨l1, l2⟩ := loaded_putBack k1 n id (ns := ns.set i (modAt act is h' c).2.1) (fun m hm => by
        rcases List.mem_or_eq_of_mem_set hm with hm | rfl
        · exact h2 m hm
        · exact k2)
      exact ⟨l1, l2, k3⟩

theorem loaded_modAt_eq {act : Heap K V → Node K V → Heap K V × Node K V × Option (List (Node K V))} (ha : ActLoaded act) {path : List Nat}
    {h : Heap K V} {n : Node K V} (hl : h.loaded) (hn : n.loaded) {res} (hm : modAt act path h n = res) :
    res.1.loaded ∧ res.2.1.loaded ∧ ∀ out, res.2.2 = some out → ∀ m ∈ out, m.loaded := by
  subst hm; exact loaded_modAt ha path h n hl hn

/-- variables and heap are loaded -/
structure St.loaded (s : St K V) : Prop where
  heap : s.heap.loaded
  regs : ∀ n, some n ∈ s.regs → n.loaded

theorem loaded_reg {s : St K V} (hs : s.loaded) {i : Nat} {n : Node K V} (h : s.regs[i]? = some (some n)) : n.loaded :=
  hs.regs n (List.mem_of_getElem? h)

theorem loaded_node {s : St K V} (hs : s.loaded) {σ : Site} {n : Node K V} (h : s.node σ = some n) : n.loaded := by
  cases σ with
  | reg r => exact loaded_reg hs (St.node_reg.1 h)
  | elem id i =>
    obtain ⟨r, ns, h1, h2⟩ := St.node_elem.1 h
    exact hs.heap id r ns h1 n (List.mem_of_getElem? h2)

theorem force_loaded {s : St K V} (hs : s.loaded) (σ : Site) : s.force σ = s := by
  simp only [St.force]
  split
  · rename_i p v ts h
    obtain ⟨id, hk⟩ := loaded_node hs h
    cases hk
  · rfl

theorem walk_loaded : ∀ (path : List Nat) {s : St K V} (σ : Site), s.loaded → (s.walk path σ).1 = s
  | [], s, σ, _ => rfl
  | i :: is, s, σ, hs => by
    simp only [St.walk, force_loaded hs]
    split
    · split
      · exact walk_loaded is _ hs
      · rfl
    · rfl

theorem loaded_setReg {s : St K V} (hs : s.loaded) {h : Heap K V} (hl : h.loaded) (i : Nat) {o : Option (Node K V)} (ho : ∀ n, o = some n → n.loaded) :
    St.loaded { s with heap := h, regs := s.regs.set i o } :=
  ⟨hl, fun n hn => by
    rcases List.mem_or_eq_of_mem_set hn with hn | e
    · exact hs.regs n hn
    · exact ho n e.symm⟩

theorem loaded_takeRegs : ∀ (rs : List Nat) {regs : List (Option (Node K V))} {ns regs'}, (∀ n, some n ∈ regs → n.loaded) → takeRegs regs rs = some (ns, regs') →
    (∀ n ∈ ns, n.loaded) ∧ ∀ n, some n ∈ regs' → n.loaded
  | [], regs, ns, regs', hr, he => by simp [takeRegs] at he; obtain ⟨rfl, rfl⟩ := he; exact ⟨by simp, hr⟩
  | r :: rs, regs, ns, regs', hr, he => by
    simp only [takeRegs] at he
    split at he
    · rename_i n hn
      split at he
      · rename_i ns1 regs1 h1
        cases he
        obtain ⟨k1, k2⟩ := loaded_takeRegs rs (regs := regs.set r none) (fun n hm => by
          rcases List.mem_or_eq_of_mem_set hm with hm | e
          · exact hr n hm
          · cases e) h1
        refine ⟨fun m hm => ?_, k2⟩
        rcases List.mem_cons.1 hm with rfl | hm
        · exact hr _ (List.mem_of_getElem? hn)
        · exact k1 m hm
      · cases he
    · cases he

theorem loaded_wrap {st : Option Nat} {h : Heap K V} (hl : h.loaded) {ns : List (Node K V)} (hn : ∀ m ∈ ns, m.loaded) :
    (wrap st h ns).1.loaded ∧ ∃ id, (wrap st h ns).2 = .arc id := by
  unfold wrap
  split
  · exact ⟨loaded_inc hl _, _, rfl⟩
  · exact ⟨loaded_alloc hl hn, _, rfl⟩

mutual
theorem loaded_convert {st : Option Nat} : ∀ (t : Tree K V) {h : Heap K V}, h.loaded → (convert st h t).1.loaded ∧ (convert st h t).2.loaded
  | ⟨p, v, ks⟩, h, hl => by
    obtain ⟨h1, h2⟩ := loaded_convertAll (st := st) ks hl
    obtain ⟨k1, k2⟩ := loaded_wrap (st := st) h1 h2
    simp only [convert]
    exact ⟨k1, k2⟩
theorem loaded_convertAll {st : Option Nat} : ∀ (ts : List (Tree K V)) {h : Heap K V}, h.loaded →
    (convertAll st h ts).1.loaded ∧ ∀ m ∈ (convertAll st h ts).2, m.loaded
  | [], h, hl => ⟨hl, by simp [convertAll]⟩
  | t :: ts, h, hl => by
    obtain ⟨h1, h2⟩ := loaded_convert (st := st) t hl
    obtain ⟨k1, k2⟩ := loaded_convertAll (st := st) ts h1
    simp only [convertAll]
    refine ⟨k1, fun m hm => ?_⟩
    rcases List.mem_cons.1 hm with rfl | hm
    · exact h2
    · exact k2 m hm
end

theorem loaded_push {s : St K V} (hs : s.loaded) {h : Heap K V} (hl : h.loaded) {n : Node K V} (hn : n.loaded) {regs : List (Option (Node K V))}
    (hr : ∀ n, some n ∈ regs → n.loaded) : St.loaded { s with heap := h, regs := regs ++ [some n] } :=
  ⟨hl, fun m hm => by
    rcases List.mem_append.1 hm with hm | hm
    · exact hr m hm
    · simp only [List.mem_singleton, Option.some.injEq] at hm; subst hm; exact hn⟩

theorem actLoaded_edit (f : Node K V → Node K V) (hk : ∀ n, (f n).kids = n.kids) : ActLoaded (fun h m => (h, f m, some [])) := by
  intro h n hl hn
  refine ⟨hl, ?_, fun out e => by cases e; simp⟩
  obtain ⟨id, hid⟩ := hn
  exact ⟨id, by simp only [hk, hid]⟩

theorem loaded_edit {s : St K V} (hs : s.loaded) (dst : Loc) (f : Node K V → Node K V) (hk : ∀ n, (f n).kids = n.kids) : (s.edit dst f).1.loaded := by
  simp only [St.edit]
  split
  · rename_i n hn
    have := loaded_modAt (actLoaded_edit f hk) dst.path s.heap n hs.heap (loaded_reg hs hn)
    split
    all_goals
      rename_i h n' _ hm
      rw [hm] at this
      exact loaded_setReg hs this.1 _ (fun m e => by cases e; exact this.2.1)
  · exact hs

theorem step_loaded {s : St K V} (hs : s.loaded) (hst : s.static.isSome) (c : Cmd K V) (hc : ∀ t, c ≠ .lazyRoot t) :
    (s.step c).1.loaded ∧ (s.step c).1.static = s.static := by
  cases c with
  | new p v children =>
    simp only [St.step]
    split
    · exact ⟨hs, rfl⟩
    · rename_i ns regs h
      obtain ⟨h1, h2⟩ := loaded_takeRegs children hs.regs h
      obtain ⟨k1, k2⟩ := loaded_wrap (st := s.static) hs.heap h1
      exact ⟨loaded_push hs k1 (n := ⟨p, v, (wrap s.static s.heap ns).2⟩) k2 h2, rfl⟩
  | default =>
    simp only [St.step]
    split
    · exact ⟨loaded_push hs (loaded_inc hs.heap _) ⟨_, rfl⟩ hs.regs, rfl⟩
    · rename_i h; rw [h] at hst; cases hst
  | lazyRoot t => exact absurd rfl (hc t)
  | eager a t =>
    obtain ⟨h1, h2⟩ := loaded_convert (st := if a then none else s.static) t hs.heap
    exact ⟨loaded_push hs h1 h2 hs.regs, rfl⟩
  | clone src =>
    simp only [St.step]
    split
    · exact ⟨hs, rfl⟩
    · have hw := walk_loaded src.path (.reg src.reg) hs
      split
      · rename_i s' σ h
        rw [h] at hw
        simp only at hw
        subst hw
        split
        · rename_i n hn
          exact ⟨loaded_push hs (loaded_cloned hs.heap n) (loaded_node hs hn) hs.regs, rfl⟩
        · exact ⟨hs, rfl⟩
      · rename_i s' h
        rw [h] at hw
        simp only at hw
        subst hw
        exact ⟨hs, rfl⟩
  | drop r =>
    simp only [St.step]
    split
    · exact ⟨loaded_setReg hs (loaded_dropAll _ _ _ hs.heap) _ (fun n e => by cases e), rfl⟩
    · exact ⟨hs, rfl⟩
  | setVal dst v =>
    refine ⟨loaded_edit hs dst _ (fun _ => rfl), ?_⟩
    simp only [St.step, St.edit]
    repeat' split
    all_goals rfl
  | setPre dst v =>
    refine ⟨loaded_edit hs dst _ (fun _ => rfl), ?_⟩
    simp only [St.step, St.edit]
    repeat' split
    all_goals rfl
  | swap dst r =>
    simp only [St.step]
    split
    · exact ⟨hs, rfl⟩
    · split
      · rename_i n m hn hm
        have ha : ActLoaded (fun h x => (h, m, some [x])) := fun h x hl hx => ⟨hl, loaded_reg hs hm, fun out e y hy => by
          cases e; simp only [List.mem_singleton] at hy; subst hy; exact hx⟩
        have := loaded_modAt ha dst.path s.heap n hs.heap (loaded_reg hs hn)
        split
        · rename_i h n' x hmod
          rw [hmod] at this
          refine ⟨?_, rfl⟩
          have h1 := loaded_setReg hs this.1 dst.reg (o := some n') (fun m e => by cases e; exact this.2.1)
          exact loaded_setReg h1 this.1 r (o := some x) (fun m e => by cases e; exact this.2.2 _ rfl _ (List.mem_singleton.2 rfl))
        · rename_i h n' _ _ hmod
          rw [hmod] at this
          exact ⟨loaded_setReg hs this.1 dst.reg (fun m e => by cases e; exact this.2.1), rfl⟩
      · exact ⟨hs, rfl⟩
  | insertKid dst i r =>
    simp only [St.step]
    split
    · exact ⟨hs, rfl⟩
    · split
      · rename_i n m hn hm
        have hml := loaded_reg hs hm
        have ha : ActLoaded (fun h x =>
          match childrenMut h x with
          | (h1, id, ns) =>
            if i ≤ ns.length then
              match putBack h1 x id (ns.take i ++ m :: ns.drop i) with | (h2, x') => (h2, x', some [])
            else match putBack h1 x id ns with | (h2, x') => (h2, x', none)) := by
          intro h x hl hx
          obtain ⟨h1, h2⟩ := loaded_childrenMut hl hx
          rcases hcm : childrenMut h x with ⟨h', id, ns⟩
          rw [hcm] at h1 h2
          simp only at h1 h2
          simp only [hcm]
          split
          · obtain ⟨k1, k2⟩ := loaded_putBack h1 x id (ns := ns.take i ++ m :: ns.drop i) (fun y hy => by
              rcases List.mem_append.1 hy with hy | hy
              · exact h2 y (List.mem_of_mem_take hy)
              · rcases List.mem_cons.1 hy with rfl | hy
                · exact hml
                · exact h2 y (List.mem_of_mem_drop hy))
            exact ⟨k1, k2, fun out e => by cases e; simp⟩
          · obtain ⟨k1, k2⟩ := loaded_putBack h1 x id h2
            exact ⟨k1, k2, fun out e => by cases e⟩
        have := loaded_modAt ha dst.path s.heap n hs.heap (loaded_reg hs hn)
        split
        · rename_i h n' _ hmod
          rw [hmod] at this
          have h1 := loaded_setReg hs this.1 dst.reg (o := some n') (fun m e => by cases e; exact this.2.1)
          exact ⟨loaded_setReg h1 this.1 r (o := none) (fun m e => by cases e), rfl⟩
        · rename_i h n' hmod
          rw [hmod] at this
          exact ⟨loaded_setReg hs this.1 dst.reg (fun m e => by cases e; exact this.2.1), rfl⟩
      · exact ⟨hs, rfl⟩
  | removeKid dst i =>
    simp only [St.step]
    split
    · rename_i n hn
      have ha : ActLoaded (K := K) (V := V) (fun h x =>
        match childrenMut h x with
        | (h1, id, ns) =>
          match ns[i]? with
          | some m => match putBack h1 x id (ns.take i ++ ns.drop (i + 1)) with | (h2, x') => (h2, x', some [m])
          | none => match putBack h1 x id ns with | (h2, x') => (h2, x', none)) := by
        intro h x hl hx
        obtain ⟨h1, h2⟩ := loaded_childrenMut hl hx
        rcases hcm : childrenMut h x with ⟨h', id, ns⟩
        rw [hcm] at h1 h2
        simp only at h1 h2
        simp only [hcm]
        cases hi : ns[i]? with
        | some m =>
          obtain ⟨k1, k2⟩ := loaded_putBack h1 x id (ns := ns.take i ++ ns.drop (i + 1)) (fun y hy => by
            rcases List.mem_append.1 hy with hy | hy
            · exact h2 y (List.mem_of_mem_take hy)
            · exact h2 y (List.mem_of_mem_drop hy))
          refine ⟨k1, k2, fun out e y hy => ?_⟩
          cases e
          simp only [List.mem_singleton] at hy; subst hy
          exact h2 _ (List.mem_of_getElem? hi)
        | none =>
          obtain ⟨k1, k2⟩ := loaded_putBack h1 x id h2
          exact ⟨k1, k2, fun out e => by cases e⟩
      split
      · rename_i h n' m hmod
        have this := loaded_modAt_eq ha hs.heap (loaded_reg hs hn) hmod
        have h1 := loaded_setReg hs this.1 dst.reg (o := some n') (fun m e => by cases e; exact this.2.1)
        exact ⟨loaded_push h1 this.1 (this.2.2 _ rfl _ (List.mem_singleton.2 rfl)) h1.regs, rfl⟩
      · rename_i h n' _ _ hmod
        have this := loaded_modAt_eq ha hs.heap (loaded_reg hs hn) hmod
        exact ⟨loaded_setReg hs this.1 dst.reg (fun m e => by cases e; exact this.2.1), rfl⟩
    · exact ⟨hs, rfl⟩
  | look src =>
    simp only [St.step]
    split
    · exact ⟨hs, rfl⟩
    · have hw := walk_loaded src.path (.reg src.reg) hs
      split
      · rename_i s' σ h
        rw [h] at hw
        simp only at hw
        subst hw
        simp only [force_loaded hs]
        split
        · split <;> exact ⟨hs, rfl⟩
        · exact ⟨hs, rfl⟩
      · rename_i s' h
        rw [h] at hw
        simp only at hw
        subst hw
        exact ⟨hs, rfl⟩

theorem run_loaded : ∀ (p : Prog K V) {s : St K V}, s.loaded → s.static.isSome → p.arcOnly →
    (s.run p).1.loaded ∧ (s.run p).1.static = s.static
  | .done, s, hs, _, _ => ⟨hs, rfl⟩
  | .cmd c k, s, hs, hst, hp => by
    cases hp with
    | cmd h1 h2 =>
      obtain ⟨k1, k2⟩ := step_loaded hs hst c h1
      obtain ⟨l1, l2⟩ := run_loaded (k (s.step c).2) k1 (by rw [k2]; exact hst) (h2 _)
      exact ⟨l1, l2.trans k2⟩

theorem noRaw_of {s : St K V} (hs : s.loaded) {i : Nat} {n : Node K V} (hn : s.regs[i]? = some (some n)) : NoRaw s.heap n := by
  refine ⟨fun ts e => ?_, fun id _ r ns hc m hm ts e => ?_⟩
  · obtain ⟨j, hj⟩ := loaded_reg hs hn; rw [hj] at e; cases e
  · obtain ⟨j, hj⟩ := hs.heap id r ns hc m hm; rw [hj] at e; cases e
end Verif.Shared
