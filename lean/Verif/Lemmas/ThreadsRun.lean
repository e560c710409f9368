import Verif.Lemmas.ThreadsStep
/-! All threads together (for C74). -/
namespace Verif.Threads
open Verif.Shared
variable {K V : Type _}

/-- what a thread holds: nodes, addresses of vectors that are checked out, and a bound for the number of steps it still needs -/
structure Ghost (K V : Type _) where
  F : List (Node K V × Tree K V)
  ids : List Nat
  b : Nat

structure Global (s : St K V) (threads : List (Phase K V)) (gs : List (Ghost K V)) (ts vs : Vars K V) : Prop where
  len : gs.length = threads.length
  inv : Inv s (gs.flatMap Ghost.F) ts
  phase : ∀ {i : Nat} {ph g}, threads[i]? = some ph → gs[i]? = some g → PhaseOk s vs ph g.F g.ids g.b ∧ Held s g.ids
  apart : ∀ {i j : Nat} {g g'}, i ≠ j → gs[i]? = some g → gs[j]? = some g' → ∀ x ∈ g.ids, x ∉ g'.ids
  compat : ∀ {i j : Nat} {ph ph' c d}, i ≠ j → threads[i]? = some ph → threads[j]? = some ph' → ph.call = some c → ph'.call = some d → c.compatible d
  agree : ∀ x, (∀ (i : Nat) ph, threads[i]? = some ph → out ph ≠ some x) → ts[x]? = vs[x]?

theorem compatible_symm {c d : Call K V} (h : c.compatible d) : d.compatible c := by
  refine ⟨fun x hx => ⟨fun h2 => (h.1 x h2).1 hx, fun h2 => h.2 x h2 hx⟩, fun x hx h2 => (h.1 x h2).2 hx⟩

theorem out_excl {s : St K V} {vs : Vars K V} {ph F ids b x} (hp : PhaseOk s vs ph F ids b) (h : out ph = some x) : ∃ c, ph.call = some c ∧ x ∈ c.excl := by
  cases hp with
  | idle => cases h
  | start => cases h
  | read => cases h
  | «mut» ha => simp only [out, loc_of_mutLoc ha.loc, Option.map_some, Option.some.injEq] at h; subst h; exact ⟨_, rfl, excl_of_mutLoc ha.loc⟩
  | copy ha => simp only [out, loc_of_mutLoc ha.loc, Option.map_some, Option.some.injEq] at h; subst h; exact ⟨_, rfl, excl_of_mutLoc ha.loc⟩
  | own ha => simp only [out, loc_of_mutLoc ha.loc, Option.map_some, Option.some.injEq] at h; subst h; exact ⟨_, rfl, excl_of_mutLoc ha.loc⟩
  | drop => simp only [out, Call.loc, Option.map_some, Option.some.injEq] at h; subst h; exact ⟨_, rfl, by simp [Call.excl]⟩

theorem full_uses {d : Call K V} {x} (h : x ∈ d.full ∨ x ∈ d.empty) : x ∈ d.excl ∨ x ∈ d.shared := by
  rcases h with h | h <;> cases d <;> simp_all [Call.full, Call.empty, Call.excl, Call.shared]
theorem loc_uses {d : Call K V} {l} (h : d.loc = some l) : l.reg ∈ d.excl ∨ l.reg ∈ d.shared := by
  cases d <;> simp [Call.loc] at h <;> subst h <;> simp [Call.excl, Call.shared]

theorem cost_congr {vs vs' : Vars K V} {d : Call K V} (h : ∀ x, x ∈ d.excl ∨ x ∈ d.shared → vs'[x]? = vs[x]?) : d.cost vs' = d.cost vs := by
  simp only [Call.cost]
  cases hl : d.loc with
  | none => rfl
  | some l => simp only [h _ (loc_uses hl)]

/-- the steps of other threads do not disturb -/
theorem PhaseOk.mono {s s' : St K V} {vs vs' : Vars K V} {ph F ids b d} (hp : PhaseOk s vs ph F ids b) (hd : ph.call = some d) (hs : Stays s s')
    (hx : ∀ x, x ∈ d.excl ∨ x ∈ d.shared → RegStays s s' x ∧ isFull s'.regs x = isFull s.regs x ∧ vs'[x]? = vs[x]?) : PhaseOk s' vs' ph F ids b := by
  have hready : ∀ {o}, Ready s.regs d o → Ready s'.regs d o := fun h =>
    ⟨fun x hm hn => (hx x (full_uses (.inl hm))).2.1.trans (h.full x hm hn), fun x hm => (hx x (full_uses (.inr hm))).2.1.trans (h.empty x hm), h.nodup, h.disj⟩
  have hat : ∀ {l gs rest t}, At s vs d l gs rest t → At s' vs' d l gs rest t := fun {l gs rest t} ha => by
    have := hx l.reg (.inl (excl_of_mutLoc ha.loc))
    exact ⟨ha.loc, hready ha.ready, this.2.1.trans ha.empty, ha.path, this.2.2.trans ha.tree⟩
  cases hp with
  | idle => exact .idle
  | start hr hb =>
    cases hd
    exact .start (hready hr) (by rw [cost_congr fun x h => (hx x h).2.2]; exact hb)
  | read hl hr hp hσ hb hb2 =>
    cases hd
    obtain ⟨h1, h2⟩ := hσ.mono hs (hx _ (.inr (full_of_readLoc hl).2)).1
    refine .read hl (hready hr) hp h1 hb (fun h n' hn' => ?_)
    obtain ⟨n, hn⟩ := hσ.node
    obtain ⟨id, hid⟩ := hb2 h n hn
    obtain ⟨m, hm, hle⟩ := h2 n hn
    rw [hn'] at hm; cases hm
    exact ⟨id, hle id hid⟩
  | «mut» ha hN hb => cases hd; exact .mut (hat ha) hN hb
  | copy ha hk hc hcs hN hb => cases hd; exact .copy (hat ha) hk hc hcs hN hb
  | own ha hk hN hb =>
    simp only [Phase.call, Option.some.injEq] at hd
    subst hd
    exact .own (hat ha) hk hN hb
  | @drop r ws o b hr ho hb =>
    cases hd
    have := hx r (.inl (by simp [Call.excl]))
    exact .drop (this.2.1.trans hr) (this.2.2.trans ho) hb

theorem PhaseOk.none {s s' : St K V} {vs vs' : Vars K V} {ph F ids b} (hp : PhaseOk s vs ph F ids b) (hd : ph.call = none) : PhaseOk s' vs' ph F ids b := by
  cases hp <;> first | exact .idle | (simp [Phase.call] at hd)

/-- a call changes only what it has for itself -/
theorem on_frame (vs : Vars K V) (c : Call K V) {x : Nat} (h : x ∉ c.excl) : (c.on vs).1[x]? = vs[x]? := by
  have hput : ∀ (l : Loc) u, x ≠ l.reg → (vs.put l u)[x]? = vs[x]? := fun l u hne => by
    simp only [Vars.put]; split
    · exact List.getElem?_set_ne (Ne.symm hne)
    · rfl
  cases c <;> simp only [Call.excl, List.mem_cons, List.not_mem_nil, or_false, not_or] at h <;> simp only [Call.on]
  case default dst => exact List.getElem?_set_ne (Ne.symm h)
  case load t dst => exact List.getElem?_set_ne (Ne.symm h)
  case drop r => exact List.getElem?_set_ne (Ne.symm h)
  case new p v children dst =>
    split
    · rfl
    · rename_i us ts' ht
      rw [List.getElem?_set_ne (Ne.symm h.1)]
      exact (takeVars_spec _ _ ht).1 x h.2
  case clone l dst => split <;> first | rfl | exact List.getElem?_set_ne (Ne.symm h)
  case look => split <;> rfl
  case setVal => split <;> first | rfl | exact hput _ _ h
  case setPre => split <;> first | rfl | exact hput _ _ h
  case swap =>
    split
    · rw [List.getElem?_set_ne (Ne.symm h.2)]; exact hput _ _ h.1
    · rfl
  case insertKid =>
    split
    · split
      · rw [List.getElem?_set_ne (Ne.symm h.2)]; exact hput _ _ h.1
      · rfl
    · rfl
  case removeKid =>
    split
    · split
      · rw [List.getElem?_set_ne (Ne.symm h.2)]; exact hput _ _ h.1
      · rfl
    · rfl

/-- the logical variables after a step -/
def after (vs : Vars K V) (c : Call K V) : Option (Obs K V) → Vars K V
  | none => vs
  | some _ => (c.on vs).1

theorem flatMap_pull {α β : Type _} {l : List α} {i : Nat} {a : α} (h : l[i]? = some a) (a' : α) (f : α → List β) :
    ((l.set i a').flatMap f).Perm (f a' ++ (l.eraseIdx i).flatMap f) := by
  have := (perm_pull h a').flatMap_right f
  simpa using this

theorem get_set_cases {α : Type _} {l : List α} {i j : Nat} {a x : α} (h : (l.set i a)[j]? = some x) : (j = i ∧ x = a) ∨ (j ≠ i ∧ l[j]? = some x) := by
  rw [List.getElem?_set] at h
  split at h
  · rename_i e
    split at h
    · exact .inl ⟨e.symm, (Option.some.inj h).symm⟩
    · cases h
  · rename_i e
    exact .inr ⟨Ne.symm e, h⟩

/-- **a step of thread `i`** -/
theorem Global.step {s : St K V} {threads gs ts vs} (hg : Global s threads gs ts vs) {i : Nat} {ph c g} (hi : threads[i]? = some ph) (hgi : gs[i]? = some g) (hc : ph.call = some c) :
    ∃ g' ts', Global (microStep s ph).1 (threads.set i (microStep s ph).2.1) (gs.set i g') ts' (after vs c (microStep s ph).2.2) ∧
      (match (microStep s ph).2.2 with
        | none => (microStep s ph).2.1.call = some c ∧ g'.b < g.b
        | some o => (microStep s ph).2.1 = .idle ∧ (c.on vs).2 = o) := by
  obtain ⟨hp, hh⟩ := hg.phase hi hgi
  have hinv : Inv s (g.F ++ (gs.eraseIdx i).flatMap Ghost.F) ts := by
    have := flatMap_pull hgi g Ghost.F
    rw [set_same hgi] at this
    exact hg.inv.perm this.symm
  have hout : ∀ j ph', threads[j]? = some ph' → j ≠ i → ∀ x, x ∈ c.excl ∨ x ∈ c.shared → out ph' ≠ some x := by
    intro j ph' hj hne x hx ho
    obtain ⟨g2, hg2⟩ : ∃ g2, gs[j]? = some g2 := ⟨gs[j]'(by rw [hg.len]; exact lt_of_getElem? hj), List.getElem?_eq_getElem _⟩
    obtain ⟨d, hd, hxd⟩ := out_excl (hg.phase hj hg2).1 ho
    have := hg.compat hne hj hi hd hc
    rcases hx with hx | hx
    · exact (this.1 x hxd).1 hx
    · exact (this.1 x hxd).2 hx
  obtain ⟨ts', F', ids', b', hk⟩ := microStep_ok hp hc hh hinv (fun x hx ho => hg.agree x fun j ph' hj => by
    by_cases e : j = i
    · subst e; rw [hi] at hj; cases hj; exact ho
    · exact hout j ph' hj e x hx)
  revert hk
  generalize microStep s ph = r
  obtain ⟨s', ph', o⟩ := r
  intro hk
  simp only at hk ⊢
  have hvs : ∀ x, x ∉ c.excl → (after vs c o)[x]? = vs[x]? := fun x hx => by
    cases o with
    | none => rfl
    | some o => exact on_frame vs c hx
  have hcall : ∀ d, ph'.call = some d → d = c := fun d hd => by
    have := hk.effect
    cases o with
    | none => rw [this.1] at hd; exact (Option.some.inj hd).symm
    | some o => rw [this.1] at hd; cases hd
  have hphase' : PhaseOk s' (after vs c o) ph' F' ids' b' := by
    have := hk.effect
    cases o with
    | none => exact hk.phase
    | some o =>
      have h1 := hk.phase
      rw [this.1] at h1 ⊢
      cases h1; exact .idle
  refine ⟨⟨F', ids', b'⟩, ts', ⟨by simp [hg.len], ?_, ?_, ?_, ?_, ?_⟩, ?_⟩
  · exact hk.inv.perm (flatMap_pull hgi _ Ghost.F)
  · intro j phj gj hj hgj
    rcases get_set_cases hj with ⟨rfl, rfl⟩ | ⟨hne, hj⟩
    · rcases get_set_cases hgj with ⟨-, rfl⟩ | ⟨h, -⟩
      · exact ⟨hphase', hk.fresh.toHeld⟩
      · exact absurd rfl h
    · rcases get_set_cases hgj with ⟨h, -⟩ | ⟨-, hgj⟩
      · exact absurd h hne
      · obtain ⟨q1, q2⟩ := hg.phase hj hgj
        refine ⟨?_, ⟨fun x hx => ?_, q2.nodup⟩⟩
        · cases hd : phj.call with
          | none => exact q1.none hd
          | some d =>
            have hcmp := hg.compat hne hj hi hd hc
            refine q1.mono hd hk.stays fun x hx => ?_
            have hxc : x ∉ c.excl := fun h => by
              rcases hx with hx | hx
              · exact (hcmp.1 x hx).1 h
              · exact hcmp.2 x hx h
            exact ⟨(hk.regs x hxc).1, (hk.regs x hxc).2.1, hvs x hxc⟩
        · obtain ⟨a1, a2⟩ := q2.held x hx
          exact ⟨hk.fresh.others x a2 (hg.apart hne hgj hgi x hx) a1, Nat.lt_of_lt_of_le a2 hk.fresh.next⟩
  · -- addresses
    have key : ∀ {j : Nat} {gj : Ghost K V}, j ≠ i → gs[j]? = some gj → ∀ x ∈ ids', x ∉ gj.ids := by
      intro j gj hne hgj x hx hxj
      obtain ⟨phj, hj⟩ : ∃ phj, threads[j]? = some phj := ⟨threads[j]'(by rw [← hg.len]; exact lt_of_getElem? hgj), List.getElem?_eq_getElem _⟩
      have h2 := (hg.phase hj hgj).2.held x hxj
      rcases hk.fresh.new x hx with h | h | h
      · exact hg.apart hne hgj hgi x hxj h
      · exact absurd h2.2 (by omega)
      · exact h h2.1
    intro j k gj gk hne hj hk2 x hx
    rcases get_set_cases hj with ⟨rfl, rfl⟩ | ⟨hnj, hj1⟩
    · rcases get_set_cases hk2 with ⟨h, -⟩ | ⟨hnk, hk1⟩
      · exact absurd h.symm hne
      · exact key hnk hk1 x hx
    · rcases get_set_cases hk2 with ⟨rfl, rfl⟩ | ⟨hnk, hk1⟩
      · exact fun h => key hnj hj1 x h hx
      · exact hg.apart hne hj1 hk1 x hx
  · intro j k phj phk cj ck hne hj hk2 hcj hck
    rcases get_set_cases hj with ⟨rfl, rfl⟩ | ⟨hnj, hj1⟩
    · rcases get_set_cases hk2 with ⟨h, -⟩ | ⟨hnk, hk1⟩
      · exact absurd h.symm hne
      · have := hcall _ hcj; subst this
        exact hg.compat hne hi hk1 hc hck
    · rcases get_set_cases hk2 with ⟨rfl, rfl⟩ | ⟨hnk, hk1⟩
      · have := hcall _ hck; subst this
        exact hg.compat hne hj1 hi hcj hc
      · exact hg.compat hne hj1 hk1 hcj hck
  · intro x hx
    have hx' : ∀ j phj, threads[j]? = some phj → j ≠ i → out phj ≠ some x := fun j phj hj hne => hx j phj (by rw [List.getElem?_set_ne (Ne.symm hne)]; exact hj)
    have hxi : out ph' ≠ some x := hx i ph' (getElem?_set_same hi _)
    have heff := hk.effect
    cases o with
    | none =>
      obtain ⟨-, -, h3⟩ := heff
      obtain ⟨h4, h5⟩ := h3 x hxi
      rw [h5]
      refine hg.agree x fun j phj hj => ?_
      by_cases e : j = i
      · subst e; rw [hi] at hj; cases hj; exact h4
      · exact hx' j phj hj e
    | some o =>
      obtain ⟨-, -, h3⟩ := heff
      by_cases hxc : x ∈ c.excl
      · exact h3 x hxc
      · rw [hvs x hxc, (hk.regs x hxc).2.2]
        refine hg.agree x fun j phj hj => ?_
        by_cases e : j = i
        · subst e; rw [hi] at hj; cases hj
          intro ho
          obtain ⟨d, hd, hxd⟩ := out_excl hp ho
          rw [hc] at hd; cases hd; exact hxc hxd
        · exact hx' j phj hj e
  · have heff := hk.effect
    cases o with
    | none => exact ⟨heff.1, heff.2.1⟩
    | some o => exact ⟨heff.1, heff.2.1⟩

/-- **thread `i` begins a call** -/
theorem Global.call {s : St K V} {threads gs ts vs} (hg : Global s threads gs ts vs) {i : Nat} {c} (hi : threads[i]? = some .idle)
    (hr : ready s.regs c) (ha : allowed threads c) : ∃ g', Global s (threads.set i (.start c)) (gs.set i g') ts vs ∧ g'.b = c.cost vs := by
  obtain ⟨g, hgi⟩ : ∃ g, gs[i]? = some g := ⟨gs[i]'(by rw [hg.len]; exact lt_of_getElem? hi), List.getElem?_eq_getElem _⟩
  obtain ⟨hp, hh⟩ := hg.phase hi hgi
  have hF : g.F = [] ∧ g.ids = [] := by
    revert hp; generalize g.F = F; generalize g.ids = ids
    intro hp; cases hp; exact ⟨rfl, rfl⟩
  have hready : Ready s.regs c none := ⟨fun x hx _ => hr.1 x hx, hr.2.1, hr.2.2, fun x hx hxf => by
    have h1 := hr.1 x hxf; rw [hr.2.1 x hx] at h1; cases h1⟩
  refine ⟨⟨[], [], c.cost vs⟩, ⟨by simp [hg.len], ?_, ?_, ?_, ?_, ?_⟩, rfl⟩
  · have h1 := flatMap_pull hgi g Ghost.F
    rw [set_same hgi, hF.1] at h1
    exact hg.inv.perm ((flatMap_pull hgi (⟨[], [], c.cost vs⟩ : Ghost K V) Ghost.F).trans h1.symm)
  · intro j phj gj hj hgj
    rcases get_set_cases hj with ⟨rfl, rfl⟩ | ⟨hne, hj⟩
    · rcases get_set_cases hgj with ⟨-, rfl⟩ | ⟨h, -⟩
      · exact ⟨.start hready (Nat.le_refl _), ⟨by simp, .nil⟩⟩
      · exact absurd rfl h
    · rcases get_set_cases hgj with ⟨h, -⟩ | ⟨-, hgj⟩
      · exact absurd h hne
      · exact hg.phase hj hgj
  · intro j k gj gk hne hj hk x hx
    rcases get_set_cases hj with ⟨rfl, rfl⟩ | ⟨hnj, hj1⟩
    · cases hx
    · rcases get_set_cases hk with ⟨rfl, rfl⟩ | ⟨hnk, hk1⟩
      · simp
      · exact hg.apart hne hj1 hk1 x hx
  · intro j k phj phk cj ck hne hj hk hcj hck
    rcases get_set_cases hj with ⟨rfl, rfl⟩ | ⟨hnj, hj1⟩
    · rcases get_set_cases hk with ⟨h, -⟩ | ⟨hnk, hk1⟩
      · exact absurd h.symm hne
      · cases hcj; exact ha phk (List.mem_of_getElem? hk1) ck hck
    · rcases get_set_cases hk with ⟨rfl, rfl⟩ | ⟨hnk, hk1⟩
      · cases hck; exact compatible_symm (ha phj (List.mem_of_getElem? hj1) cj hcj)
      · exact hg.compat hne hj1 hk1 hcj hck
  · intro x hx
    refine hg.agree x fun j phj hj => ?_
    by_cases e : j = i
    · subst e; rw [hi] at hj; cases hj; simp [out]
    · exact hx j phj (by rw [List.getElem?_set_ne (Ne.symm e)]; exact hj)

end Verif.Threads
