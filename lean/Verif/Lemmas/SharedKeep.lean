import Verif.Lemmas.SharedLoaded
import Verif.Lemmas.SharedStep
/-! # A vector that somebody else holds is never changed in place -/
namespace Verif.Shared
variable {K V : Type _}

/-- the vector at this address is still there, unchanged -/
def KeepAt (id : Nat) (h h' : Heap K V) : Prop := ∀ r ns, h.cell id = some (r, ns) → ∃ r', h'.cell id = some (r', ns)

theorem KeepAt.refl (id : Nat) (h : Heap K V) : KeepAt id h h := fun r _ hc => ⟨r, hc⟩
theorem KeepAt.trans {id : Nat} {h h' h'' : Heap K V} (h1 : KeepAt id h h') (h2 : KeepAt id h' h'') : KeepAt id h h'' := fun r ns hc => by
  obtain ⟨r', hc'⟩ := h1 r ns hc; exact h2 r' ns hc'
theorem SameVecs.keep {h h' : Heap K V} (hs : SameVecs h h') (id : Nat) : KeepAt id h h' := fun r ns hc => hs id r ns hc
theorem keepAt_set {id j : Nat} (h : Heap K V) (c) (hne : id ≠ j) : KeepAt id h (h.set j c) := fun r ns hc =>
  ⟨r, by simp only [Heap.set]; rw [if_neg hne]; exact hc⟩

/-- an address with count 1 that we own is not held by anybody else -/
theorem not_held {h : Heap K V} {R : List (Node K V)} {p v j ns} (hw : WF h (⟨p, v, .arc j⟩ :: R)) (hc : h.cell j = some (1, ns)) {id : Nat}
    (hid : 0 < refs id R) : id ≠ j := by
  rintro rfl
  have := hw.exact id
  rw [refs_cons, refs_arc, if_pos rfl] at this
  have hr : h.rc id = 1 := by simp [Heap.rc, hc]
  omega

theorem not_held_none {h : Heap K V} {R : List (Node K V)} {j : Nat} (hw : WF h R) (hc : h.cell j = none) {id : Nat}
    (hid : 0 < refs id R) : id ≠ j := by
  rintro rfl
  have := hw.exact id
  have hr : h.rc id = 0 := by simp [Heap.rc, hc]
  omega

theorem childrenMut_keep {h : Heap K V} {n : Node K V} {t : Tree K V} {R} (hw : WF h (n :: R)) (hd : Den h n t) {id : Nat} (hid : 0 < refs id R) :
    KeepAt id h (childrenMut h n).1 ∧ id ≠ (childrenMut h n).2.1 := by
  have hm := childrenMut_ok hw hd
  refine ⟨?_, not_held_none hm.wf hm.res (by rw [refs_append]; omega)⟩
  cases hd with
  | raw p v ts => exact fun r ns hc => ⟨r, hc⟩
  | @arc p v j r ns ts hc hds =>
    simp only [childrenMut, hc]
    split
    · rename_i hr; subst hr
      exact keepAt_set h none (not_held hw hc hid)
    · have h1 := sameVecs_dec h j
      have h2 : SameVecs (h.dec j) ((h.dec j).clonedAll ns) := by
        have : ∀ (ns : List (Node K V)) (g : Heap K V), SameVecs g (g.clonedAll ns) := by
          intro ns
          induction ns with
          | nil => intro g; exact .refl g
          | cons n ns ih => intro g; exact (sameVecs_cloned g n).trans (ih _)
        exact this ns _
      intro r' ms hj
      obtain ⟨r'', h3⟩ := (h1.trans h2) id r' ms hj
      exact ⟨r'', h3⟩

def ActKeep (id : Nat) (act : Heap K V → Node K V → Heap K V × Node K V × Option (List (Node K V))) : Prop :=
  ∀ h n t R, WF h (n :: R) → Den h n t → 0 < refs id R → KeepAt id h (act h n).1

theorem modAt_keep {id : Nat} {act : Heap K V → Node K V → Heap K V × Node K V × Option (List (Node K V))} (ha : ActKeep id act) :
    ∀ path, ActKeep id (modAt act path)
  | [] => ha
  | i :: is => by
    intro h n t R hw hd hid
    have hmut := childrenMut_ok hw hd
    obtain ⟨hk, hne⟩ := childrenMut_keep hw hd hid
    simp only [modAt]
    rcases hcm : childrenMut h n with ⟨h1, j, ns⟩
    rw [hcm] at hmut hk hne
    simp only at hmut hk hne ⊢
    rcases hmut.dens.get i with ⟨g1, g2⟩ | ⟨c, tc, g1, g2, g3⟩
    · simp only [g1]
      exact hk.trans (keepAt_set _ _ hne)
    · simp only [g1]
      have hw1 : WF h1 (c :: (ns.eraseIdx i ++ R)) := by
        refine hmut.wf.perm ?_
        have h1 : (c :: ns.eraseIdx i).Perm ns := by
          have := perm_pull g1 c
          rw [set_same g1] at this; exact this.symm
        exact h1.append_right _
      have := modAt_keep ha is h1 c tc _ hw1 g3 (by rw [refs_append]; omega)
      rcases hmo : modAt act is h1 c with ⟨h2, c', out⟩
      rw [hmo] at this
      exact (hk.trans this).trans (keepAt_set _ _ hne)

theorem dropAll_keep {id : Nat} : ∀ (fuel : Nat) (h : Heap K V) (ws R), WF h (ws ++ R) → 0 < refs id R →
    KeepAt id h (Heap.dropAll fuel h ws)
  | fuel, h, [], R, hw, _ => by
    have : Heap.dropAll fuel h [] = h := by cases fuel <;> rfl
    rw [this]; exact .refl id h
  | 0, h, n :: ns, R, hw, hid => .refl id h
  | fuel + 1, h, n :: ns, R, hw, hid => by
    obtain ⟨p, v, k⟩ := n
    cases k with
    | raw ts =>
      simp only [Heap.dropAll]
      refine dropAll_keep fuel h ns R (hw.congr fun id => ?_) hid
      rw [List.cons_append, refs_cons id _ (ns ++ R), refs_raw]; simp
    | arc j =>
      obtain ⟨⟨r, ms⟩, hc⟩ := hw.alive (id := j) (p := p) (v := v) (by simp)
      simp only [Heap.dropAll, hc]
      split
      · rename_i hr; subst hr
        obtain ⟨h1, h2⟩ := hw.free hc
        exact (keepAt_set h none (not_held (R := ns ++ R) hw hc (by rw [refs_append]; omega))).trans
          (dropAll_keep fuel (h.set j none) (ms ++ ns) R (h1.perm (by simp)) hid)
      · rename_i hr
        exact ((sameVecs_dec h j).keep id).trans (dropAll_keep fuel (h.dec j) ns R (hw.dec hc hr) hid)

theorem refs_others {id : Nat} {s : St K V} {F : List (Node K V × Tree K V)} (hid : 0 < refs id (F.map Prod.fst)) :
    0 < refs id ((others s F).map Prod.fst) := by
  simp only [others, List.map_append, refs_append]; omega

/-- one command on a fully loaded heap does not touch a vector that the frame holds -/
theorem step_keep {s : St K V} {F ts} (ho : Ok s F ts) (hs : s.loaded) (c : Cmd K V) {id : Nat} (hid : 0 < refs id (F.map Prod.fst)) :
    KeepAt id s.heap (s.step c).1.heap := by
  have hid' := refs_others (s := s) hid
  have hmod : ∀ {act : Heap K V → Node K V → Heap K V × Node K V × Option (List (Node K V))}, ActKeep id act → ∀ {i : Nat} {n : Node K V} (path : List Nat),
      s.regs[i]? = some (some n) → KeepAt id s.heap (modAt act path s.heap n).1 := by
    intro act ha i n path hi
    obtain ⟨t, -, hd⟩ := ho.regs.some hi
    have hw := (ho.core.take hi).wf
    exact modAt_keep ha path s.heap n t _ hw hd (by
      show 0 < refs id ([] ++ _); rw [List.nil_append, refs_append]; omega)
  cases c with
  | new p v children =>
    rcases takeRegs_ok children ho.core with ⟨e1, e2⟩ | ⟨ns, regs', us, ts', e1, e2, e3, e4⟩
    · simp only [St.step, e1]; exact .refl id _
    · simp only [St.step, e1]
      rw [List.append_nil] at e4
      obtain ⟨k1, k2, k3⟩ := wrap_ok (st := s.static) e4.wf e3 (fun e he => ho.frame (⟨[], none, .arc e⟩, ⟨[], none, []⟩) (by simp [others, he])) p v
      exact k3.keep id
  | default =>
    simp only [St.step]
    split
    · exact (sameVecs_inc _ _).keep id
    · exact .refl id _
  | lazyRoot t => exact .refl id _
  | eager a t =>
    obtain ⟨-, -, k⟩ := convert_ok (st := if a then none else s.static) t ho.wf (fun e he => by
      cases a with
      | true => simp at he
      | false => simp only [Bool.false_eq_true, if_false] at he; exact ho.frame (⟨[], none, .arc e⟩, ⟨[], none, []⟩) (by simp [others, he]))
    exact k.keep id
  | clone src =>
    simp only [St.step]
    split
    · exact .refl id _
    · have hw := walk_loaded src.path (.reg src.reg) hs
      split
      · rename_i s' σ h
        rw [h] at hw
        simp only at hw
        subst hw
        split
        · exact (sameVecs_cloned _ _).keep id
        · exact .refl id _
      · rename_i s' h
        rw [h] at hw
        simp only at hw
        subst hw
        exact .refl id _
  | drop r =>
    simp only [St.step]
    split
    · rename_i n hn
      have hw := (ho.core.take hn).wf
      exact dropAll_keep _ _ [n] _ hw (by rw [refs_append]; omega)
    · exact .refl id _
  | setVal dst v =>
    simp only [St.step, St.edit]
    split
    · rename_i n hn
      have := hmod (act := fun h m => (h, { m with val := v }, some [])) (fun h _ _ _ _ _ _ => .refl id h) dst.path hn
      split <;> (rename_i hm; rw [hm] at this; exact this)
    · exact .refl id _
  | setPre dst v =>
    simp only [St.step, St.edit]
    split
    · rename_i n hn
      have := hmod (act := fun h m => (h, { m with pre := v }, some [])) (fun h _ _ _ _ _ _ => .refl id h) dst.path hn
      split <;> (rename_i hm; rw [hm] at this; exact this)
    · exact .refl id _
  | swap dst r =>
    simp only [St.step]
    split
    · exact .refl id _
    · split
      · rename_i n m hn hm
        have := hmod (act := fun h x => (h, m, some [x])) (fun h _ _ _ _ _ _ => .refl id h) dst.path hn
        split <;> (rename_i hm; rw [hm] at this; exact this)
      · exact .refl id _
  | insertKid dst i r =>
    simp only [St.step]
    split
    · exact .refl id _
    · split
      · rename_i n m hn hm
        have := hmod (act := fun h x =>
          match childrenMut h x with
          | (h1, id, ns) =>
            if i ≤ ns.length then
              match putBack h1 x id (ns.take i ++ m :: ns.drop i) with | (h2, x') => (h2, x', some [])
            else match putBack h1 x id ns with | (h2, x') => (h2, x', none)) (by
          intro h x t R hw hd hid
          obtain ⟨hk, hne⟩ := childrenMut_keep hw hd hid
          rcases hcm : childrenMut h x with ⟨h', j, ns⟩
          rw [hcm] at hk hne
          simp only at hk hne
          simp only [hcm]
          split
          · exact hk.trans (keepAt_set _ _ hne)
          · exact hk.trans (keepAt_set _ _ hne)) dst.path hn
        split <;> (rename_i hm; rw [hm] at this; exact this)
      · exact .refl id _
  | removeKid dst i =>
    simp only [St.step]
    split
    · rename_i n hn
      have := hmod (act := fun h x =>
        match childrenMut h x with
        | (h1, id, ns) =>
          match ns[i]? with
          | some m => match putBack h1 x id (ns.take i ++ ns.drop (i + 1)) with | (h2, x') => (h2, x', some [m])
          | none => match putBack h1 x id ns with | (h2, x') => (h2, x', none)) (by
        intro h x t R hw hd hid
        obtain ⟨hk, hne⟩ := childrenMut_keep hw hd hid
        rcases hcm : childrenMut h x with ⟨h', j, ns⟩
        rw [hcm] at hk hne
        simp only at hk hne
        simp only [hcm]
        split
        · exact hk.trans (keepAt_set _ _ hne)
        · exact hk.trans (keepAt_set _ _ hne)) dst.path hn
      have heq : ∀ res, modAt (fun h x =>
        match childrenMut h x with
        | (h1, id, ns) =>
          match ns[i]? with
          | some m => match putBack h1 x id (ns.take i ++ ns.drop (i + 1)) with | (h2, x') => (h2, x', some [m])
          | none => match putBack h1 x id ns with | (h2, x') => (h2, x', none)) dst.path s.heap n = res → KeepAt id s.heap res.1 := by
        rintro _ rfl; exact this
      split <;> (rename_i hm; exact heq _ hm)
    · exact .refl id _
  | look src =>
    simp only [St.step]
    split
    · exact .refl id _
    · have hw := walk_loaded src.path (.reg src.reg) hs
      split
      · rename_i s' σ h
        rw [h] at hw
        simp only at hw
        subst hw
        simp only [force_loaded hs]
        split
        · split <;> exact .refl id _
        · exact .refl id _
      · rename_i s' h
        rw [h] at hw
        simp only at hw
        subst hw
        exact .refl id _

theorem run_keep : ∀ (p : Prog K V) {s : St K V} {F ts}, Ok s F ts → s.loaded → s.static.isSome → p.arcOnly → ∀ {id : Nat},
    0 < refs id (F.map Prod.fst) → KeepAt id s.heap (s.run p).1.heap
  | .done, s, F, ts, _, _, _, _, id, _ => .refl id _
  | .cmd c k, s, F, ts, ho, hs, hst, hp, id, hid => by
    cases hp with
    | cmd h1 h2 =>
      obtain ⟨k1, k2⟩ := step_loaded hs hst c h1
      exact (step_keep ho hs c hid).trans (run_keep (k (s.step c).2) (step_ok ho c).1 k1 (by rw [k2]; exact hst) (h2 _) hid)
end Verif.Shared
