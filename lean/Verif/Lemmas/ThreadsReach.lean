import Verif.Lemmas.ThreadsRun
import Verif.Props.Shared
/-! All states a schedule can lead to (for C74). -/
namespace Verif.Threads
open Verif.Shared
variable {K V : Type _}

theorem onAll_snoc (c : Call K V) : ∀ (cs : List (Call K V)) (ts : Vars K V),
    Call.onAll ts (cs ++ [c]) = ((c.on (Call.onAll ts cs).1).1, (Call.onAll ts cs).2 ++ [(c.on (Call.onAll ts cs).1).2])
  | [], ts => rfl
  | d :: cs, ts => by simp [Call.onAll, onAll_snoc c cs]

structure Reached (nv : Nat) (w : State K V) (gs : List (Ghost K V)) (ts : Vars K V) : Prop where
  glob : Global w.st w.threads gs ts (Call.onAll (List.replicate nv none) (w.log.map (·.2.1))).1
  obs : (Call.onAll (List.replicate nv none) (w.log.map (·.2.1))).2 = w.log.map (·.2.2)

theorem takeVars_length : ∀ (rs : List Nat) (ts : Vars K V) {us ts'}, takeVars ts rs = some (us, ts') → ts'.length = ts.length
  | [], ts, us, ts', h => by cases h; rfl
  | r :: rs, ts, us, ts', h => by
    simp only [takeVars] at h
    split at h
    · split at h
      · rename_i h2; cases h; rw [takeVars_length rs _ h2, List.length_set]
      · cases h
    · cases h

theorem on_length (vs : Vars K V) (c : Call K V) : (c.on vs).1.length = vs.length := by
  have hput : ∀ (l : Loc) u, (vs.put l u).length = vs.length := fun l u => by
    simp only [Vars.put]; split <;> simp
  cases c <;> simp only [Call.on]
  case new =>
    split
    · rfl
    · rename_i h; rw [List.length_set, takeVars_length _ _ h]
  all_goals (repeat' split)
  all_goals simp [hput]

theorem onAll_length : ∀ (cs : List (Call K V)) (ts : Vars K V), (Call.onAll ts cs).1.length = ts.length
  | [], _ => rfl
  | c :: cs, ts => by simp [Call.onAll, onAll_length cs, on_length]

theorem start_reached (arc : Bool) (nt nv : Nat) : Reached nv (State.start arc nt nv : State K V) (List.replicate nt ⟨[], [], 0⟩) (List.replicate nv none) := by
  have hfm : (List.replicate nv (none : Option (Node K V))).filterMap id = [] := by
    rw [List.filterMap_eq_nil_iff]; intro a ha; exact (List.mem_replicate.1 ha).2
  have h0 := Inv.of_ok (ok_start (K := K) (V := V) arc)
  have hF : (List.replicate nt (⟨[], [], 0⟩ : Ghost K V)).flatMap Ghost.F = [] := by
    rw [List.flatMap_eq_nil_iff]; intro g hg; rw [(List.mem_replicate.1 hg).2]
  have hth : ∀ {i : Nat} {ph}, (State.start arc nt nv : State K V).threads[i]? = some ph → ph = .idle := fun h => (List.mem_replicate.1 (List.mem_of_getElem? h)).2
  have hgh : ∀ {i : Nat} {g}, (List.replicate nt (⟨[], [], 0⟩ : Ghost K V))[i]? = some g → g = ⟨[], [], 0⟩ := fun h => (List.mem_replicate.1 (List.mem_of_getElem? h)).2
  refine ⟨⟨by simp [State.start], ?_, ?_, ?_, ?_, fun _ _ => rfl⟩, rfl⟩
  · rw [hF]
    refine ⟨?_, ⟨by simp [State.start], fun i o hi => ?_⟩, h0.stat, by simp⟩
    · refine h0.wf.congr fun id => ?_
      have : base (State.start arc nt nv : State K V).st = base (St.start arc) := by
        simp only [base, State.start, hfm]
        cases arc <;> rfl
      rw [this]
    · have : o = none := (List.mem_replicate.1 (List.mem_of_getElem? hi)).2
      subst this
      have hlt : i < nv := by have := lt_of_getElem? hi; simpa [State.start] using this
      exact ⟨none, by simp [hlt], trivial⟩
  · intro i ph g hi hg
    rw [hth hi, hgh hg]; exact ⟨.idle, by simp, .nil⟩
  · intro i j g g' _ hg _ x hx
    rw [hgh hg] at hx; cases hx
  · intro i j ph ph' c d _ hi _ hc
    rw [hth hi] at hc; cases hc

theorem Reached.ghost {nv : Nat} {w : State K V} {gs ts} (h : Reached nv w gs ts) {t : Nat} {ph} (ht : w.threads[t]? = some ph) : ∃ g, gs[t]? = some g :=
  ⟨gs[t]'(by rw [h.glob.len]; exact lt_of_getElem? ht), List.getElem?_eq_getElem _⟩

theorem phase_cases {s : St K V} {vs : Vars K V} {ph F ids b} (h : PhaseOk s vs ph F ids b) : ph = .idle ∨ ∃ c, ph.call = some c := by
  cases h <;> first | exact .inl rfl | exact .inr ⟨_, rfl⟩

/-- what a move does to the ghost of thread `t` -/
theorem Reached.move {nv : Nat} {w : State K V} {gs ts} (h : Reached nv w gs ts) (m : Move K V) :
    ∃ gs' ts', Reached nv (w.move m) gs' ts' ∧ ∀ t g c, gs[t]? = some g → w.current t = [c] →
      (m.isStep t = false → (w.move m).current t = [c] ∧ gs'[t]? = some g ∧ ∃ e, (w.move m).log = w.log ++ e) ∧
      (m.isStep t = true → ((w.move m).current t = [c] ∧ (w.move m).log = w.log ∧ ∃ g', gs'[t]? = some g' ∧ g'.b < g.b) ∨ ∃ o, (w.move m).log = w.log ++ [(t, c, o)]) := by
  cases m with
  | call u c0 =>
    by_cases hu : w.threads[u]? = some .idle ∧ ready w.st.regs c0 ∧ allowed w.threads c0
    · obtain ⟨h1, h2, h3⟩ := hu
      have hw : w.move (.call u c0) = { w with threads := w.threads.set u (.start c0) } := by simp [State.move, h1, h2, h3]
      obtain ⟨g', q1, -⟩ := h.glob.call h1 h2 h3
      rw [hw]
      refine ⟨_, ts, ⟨q1, h.obs⟩, fun t g c hg hc => ⟨fun _ => ?_, fun hs => by cases hs⟩⟩
      have hne : u ≠ t := by rintro rfl; simp [State.current, h1, Phase.call] at hc
      exact ⟨by simpa only [State.current, List.getElem?_set_ne hne] using hc, by rw [List.getElem?_set_ne hne]; exact hg, [], by simp⟩
    · have hw : w.move (.call u c0) = w := by
        simp only [State.move]
        split
        · rename_i h1
          rw [if_neg fun h2 => hu ⟨h1, h2.1, h2.2⟩]
        · rfl
      rw [hw]
      exact ⟨gs, ts, h, fun t g c hg hc => ⟨fun _ => ⟨hc, hg, [], by simp⟩, fun hs => by cases hs⟩⟩
  | step u =>
    cases hu : w.threads[u]? with
    | none =>
      have hw : w.move (.step u) = w := by simp [State.move, hu]
      rw [hw]
      refine ⟨gs, ts, h, fun t g c hg hc => ⟨fun _ => ⟨hc, hg, [], by simp⟩, fun hs => ?_⟩⟩
      have : u = t := by simpa [Move.isStep] using hs
      subst this
      simp [State.current, hu] at hc
    | some ph =>
      obtain ⟨gu, hgu⟩ := h.ghost hu
      rcases phase_cases (h.glob.phase hu hgu).1 with rfl | ⟨c0, hc0⟩
      · have hw : w.move (.step u) = { w with threads := w.threads.set u .idle } := by simp [State.move, hu, microStep, goOn]
        rw [set_same hu] at hw
        rw [hw]
        refine ⟨gs, ts, h, fun t g c hg hc => ⟨fun _ => ⟨hc, hg, [], by simp⟩, fun hs => ?_⟩⟩
        have : u = t := by simpa [Move.isStep] using hs
        subst this
        simp [State.current, hu, Phase.call] at hc
      · obtain ⟨g', ts', q1, q2⟩ := h.glob.step hu hgu hc0
        have hw : w.move (.step u) = ⟨(microStep w.st ph).1, w.threads.set u (microStep w.st ph).2.1,
            w.log ++ (match (microStep w.st ph).2.2 with | some o => [(u, c0, o)] | none => [])⟩ := by
          simp only [State.move, hu]
          rcases hm : microStep w.st ph with ⟨s', ph', _ | o⟩ <;> simp [hc0]
        rw [hw]
        revert q1 q2
        generalize microStep w.st ph = r
        obtain ⟨s', ph', o⟩ := r
        intro q1 q2
        simp only at q1 q2 ⊢
        have hne : ∀ t g c, gs[t]? = some g → w.current t = [c] → u ≠ t → ∀ (s' : St K V) ph' lg, State.current ⟨s', w.threads.set u ph', lg⟩ t = [c] ∧ (gs.set u g')[t]? = some g := by
          intro t g c hg hc hut s' ph' lg
          exact ⟨by simpa only [State.current, List.getElem?_set_ne hut] using hc, by rw [List.getElem?_set_ne hut]; exact hg⟩
        cases o with
        | none =>
          refine ⟨gs.set u g', ts', ⟨by simpa only [List.append_nil, after] using q1, by simpa only [List.append_nil] using h.obs⟩, fun t g c hg hc => ⟨fun hs => ?_, fun hs => ?_⟩⟩
          · have hut : u ≠ t := by simpa [Move.isStep] using hs
            exact ⟨(hne t g c hg hc hut _ _ _).1, (hne t g c hg hc hut s' ph' []).2, [], rfl⟩
          · have : u = t := by simpa [Move.isStep] using hs
            subst this
            rw [hgu] at hg; cases hg
            refine .inl ⟨?_, by simp, g', getElem?_set_same hgu _, q2.2⟩
            simp only [State.current, hu, hc0] at hc
            simp only [State.current, getElem?_set_same hu, q2.1]
            exact hc
        | some o =>
          refine ⟨gs.set u g', ts', ⟨?_, ?_⟩, fun t g c hg hc => ⟨fun hs => ?_, fun hs => ?_⟩⟩
          · simp only [List.map_append, List.map_cons, List.map_nil, onAll_snoc]; exact q1
          · simp only [List.map_append, List.map_cons, List.map_nil, onAll_snoc, h.obs, q2.2]
          · have hut : u ≠ t := by simpa [Move.isStep] using hs
            exact ⟨(hne t g c hg hc hut _ _ _).1, (hne t g c hg hc hut s' ph' []).2, _, rfl⟩
          · have : u = t := by simpa [Move.isStep] using hs
            subst this
            simp only [State.current, hu, hc0, Option.toList_some, List.cons.injEq, and_true] at hc
            subst hc
            exact .inr ⟨o, rfl⟩

theorem Reached.run {nv : Nat} : ∀ (ms : List (Move K V)) {w : State K V} {gs ts}, Reached nv w gs ts → ∃ gs' ts', Reached nv (w.run ms) gs' ts'
  | [], _, gs, ts, h => ⟨gs, ts, h⟩
  | m :: ms, w, gs, ts, h => by
    obtain ⟨gs', ts', h', -⟩ := h.move m
    exact Reached.run ms h'

theorem reached (arc : Bool) (nt nv : Nat) (ms : List (Move K V)) : ∃ gs ts, Reached nv ((State.start arc nt nv).run ms) gs ts :=
  Reached.run ms (start_reached arc nt nv)

theorem done_append (w : State K V) (t : Nat) (s ths) (e) : State.done ⟨s, ths, w.log ++ e⟩ t = w.done t ++ (e.filter (·.1 = t)).map (·.2.1) := by
  simp [State.done]

/-- calls are begun and completed in order -/
theorem move_order {nv : Nat} {w : State K V} {gs ts} (h : Reached nv w gs ts) (m : Move K V) (t : Nat) :
    (w.move m).done t ++ (w.move m).current t = w.done t ++ w.current t ++ w.begins t m := by
  cases m with
  | call u c0 =>
    by_cases hu : w.threads[u]? = some .idle
    · by_cases hr : ready w.st.regs c0 ∧ allowed w.threads c0
      · have hw : w.move (.call u c0) = { w with threads := w.threads.set u (.start c0) } := by simp [State.move, hu, hr]
        rw [hw]
        by_cases e : u = t
        · subst e
          simp [State.done, State.current, State.begins, hu, hr, getElem?_set_same hu, Phase.call]
        · simp [State.done, State.current, State.begins, hu, e, List.getElem?_set_ne e]
      · have hw : w.move (.call u c0) = w := by simp [State.move, hu, hr]
        have hb : w.begins t (.call u c0) = [] := by simp only [State.begins, hu]; rw [if_neg fun h => hr h.2]
        rw [hw, hb]; simp
    · have hw : w.move (.call u c0) = w := by
        simp only [State.move]
      have hb : w.begins t (.call u c0) = [] := by
        simp only [State.begins]
      rw [hw, hb]; simp
  | step u =>
    simp only [State.begins, List.append_nil]
    cases hu : w.threads[u]? with
    | none => simp [State.move, hu]
    | some ph =>
      obtain ⟨gu, hgu⟩ := h.ghost hu
      rcases phase_cases (h.glob.phase hu hgu).1 with rfl | ⟨c0, hc0⟩
      · have hw : w.move (.step u) = { w with threads := w.threads.set u .idle } := by simp [State.move, hu, microStep, goOn]
        rw [set_same hu] at hw
        rw [hw]
      · obtain ⟨g', ts', -, q2⟩ := h.glob.step hu hgu hc0
        rcases hm : microStep w.st ph with ⟨s', ph', _ | o⟩
        · rw [hm] at q2
          have hw : w.move (.step u) = ⟨s', w.threads.set u ph', w.log⟩ := by simp [State.move, hu, hm]
          rw [hw]
          by_cases e : u = t
          · subst e; simp only [State.done, State.current, getElem?_set_same hu, hu, hc0, q2.1]
          · simp only [State.done, State.current, List.getElem?_set_ne e]
        · rw [hm] at q2
          have hw : w.move (.step u) = ⟨s', w.threads.set u ph', w.log ++ [(u, c0, o)]⟩ := by simp [State.move, hu, hm, hc0]
          rw [hw, done_append]
          by_cases e : u = t
          · subst e
            have hidle : ph' = .idle := q2.1
            subst hidle
            simp only [State.current, getElem?_set_same hu, hu, hc0]
            simp [Phase.call]
          · simp [State.current, List.getElem?_set_ne e, e]

/-- at the beginning of a call, the bound can be set to its cost -/
theorem Reached.rebudget {nv : Nat} {w : State K V} {gs ts} (h : Reached nv w gs ts) {t : Nat} {c g} (ht : w.threads[t]? = some (.start c)) (hg : gs[t]? = some g) :
    ∃ gs' g', Reached nv w gs' ts ∧ gs'[t]? = some g' ∧ g'.b = c.cost (w.replay nv) := by
  have hsame : ∀ {j : Nat} {gj : Ghost K V}, (gs.set t ⟨g.F, g.ids, c.cost (w.replay nv)⟩)[j]? = some gj → ∃ g0, gs[j]? = some g0 ∧ g0.F = gj.F ∧ g0.ids = gj.ids := by
    intro j gj hj
    rcases get_set_cases hj with ⟨rfl, rfl⟩ | ⟨-, hj⟩
    · exact ⟨g, hg, rfl, rfl⟩
    · exact ⟨gj, hj, rfl, rfl⟩
  refine ⟨gs.set t ⟨g.F, g.ids, c.cost (w.replay nv)⟩, _, ⟨⟨by simp [h.glob.len], ?_, ?_, ?_, h.glob.compat, h.glob.agree⟩, h.obs⟩, getElem?_set_same hg _, rfl⟩
  · have h1 := flatMap_pull hg g Ghost.F
    rw [set_same hg] at h1
    exact h.glob.inv.perm ((flatMap_pull hg (⟨g.F, g.ids, c.cost (w.replay nv)⟩ : Ghost K V) Ghost.F).trans h1.symm)
  · intro j phj gj hj hgj
    rcases get_set_cases hgj with ⟨rfl, rfl⟩ | ⟨-, hgj⟩
    · rw [ht] at hj; cases hj
      obtain ⟨q1, q2⟩ := h.glob.phase ht hg
      refine ⟨?_, q2⟩
      simp only
      revert q1; generalize g.F = F; generalize g.ids = ids
      intro q1
      cases q1 with | start hr _ => exact .start hr (Nat.le_refl _)
    · exact h.glob.phase hj hgj
  · intro i j gi gj hne hi hj x hx
    obtain ⟨a, a1, -, a2⟩ := hsame hi
    obtain ⟨b, b1, -, b2⟩ := hsame hj
    rw [← a2] at hx; rw [← b2]
    exact h.glob.apart hne a1 b1 x hx

theorem budget_pos {s : St K V} {vs : Vars K V} {ph F ids b c} (h : PhaseOk s vs ph F ids b) (hc : ph.call = some c) : 0 < b := by
  have hcost : ∀ c : Call K V, 0 < c.cost vs := by
    intro c; simp only [Call.cost]; split
    · exact Nat.one_pos
    · split
      · exact Nat.succ_pos _
      · exact Nat.one_pos
  cases h with
  | idle => cases hc
  | start _ hb => exact Nat.lt_of_lt_of_le (hcost _) hb
  | read _ _ _ _ hb => omega
  | «mut» _ _ hb => omega
  | copy _ _ _ _ _ hb => omega
  | own _ _ _ hb => omega
  | drop _ _ hb => omega

theorem log_grows {nv : Nat} {w : State K V} {gs ts} (_ : Reached nv w gs ts) (m : Move K V) : ∃ e, (w.move m).log = w.log ++ e := by
  cases m with
  | call u c =>
    simp only [State.move]
    split
    · split
      · exact ⟨[], by simp⟩
      · exact ⟨[], by simp⟩
    · exact ⟨[], by simp⟩
  | step u =>
    simp only [State.move]
    split
    · exact ⟨[], by simp⟩
    · split
      · exact ⟨[], by simp⟩
      · exact ⟨_, rfl⟩

theorem log_grows_run {nv : Nat} : ∀ (ms : List (Move K V)) {w : State K V} {gs ts}, Reached nv w gs ts → ∃ e, (w.run ms).log = w.log ++ e
  | [], w, _, _, _ => ⟨[], by simp [State.run]⟩
  | m :: ms, w, gs, ts, h => by
    obtain ⟨gs', ts', h', -⟩ := h.move m
    obtain ⟨e1, h1⟩ := log_grows h m
    obtain ⟨e2, h2⟩ := log_grows_run ms h'
    exact ⟨e1 ++ e2, by rw [State.run, h2, h1, List.append_assoc]⟩

theorem completes {nv : Nat} {t : Nat} {c : Call K V} : ∀ (ms : List (Move K V)) {w : State K V} {gs ts g}, Reached nv w gs ts → gs[t]? = some g → w.current t = [c] →
    g.b ≤ ms.countP (Move.isStep t) → ∃ o rest more, (w.run ms).log = w.log ++ rest ++ (t, c, o) :: more
  | [], w, gs, ts, g, h, hg, hc, hb => by
    exfalso
    simp only [State.current] at hc
    cases ht : w.threads[t]? with
    | none => rw [ht] at hc; cases hc
    | some ph =>
      rw [ht] at hc
      have : ph.call = some c := by
        simp only at hc
        cases hp : ph.call with
        | none => rw [hp] at hc; cases hc
        | some d => rw [hp] at hc; cases hc; rfl
      have := budget_pos (h.glob.phase ht hg).1 this
      simp at hb; omega
  | m :: ms, w, gs, ts, g, h, hg, hc, hb => by
    obtain ⟨gs', ts', h', hm⟩ := h.move m
    obtain ⟨m1, m2⟩ := hm t g c hg hc
    simp only [State.run]
    cases hs : Move.isStep t m with
    | false =>
      obtain ⟨k1, k2, e, k3⟩ := m1 hs
      rw [List.countP_cons_of_neg (by rw [hs]; decide)] at hb
      obtain ⟨o, rest, more, hl⟩ := completes ms h' k2 k1 hb
      exact ⟨o, e ++ rest, more, by rw [hl, k3, List.append_assoc w.log]⟩
    | true =>
      rw [List.countP_cons_of_pos hs] at hb
      rcases m2 hs with ⟨k1, k2, g', k3, k4⟩ | ⟨o, ho⟩
      · obtain ⟨o, rest, more, hl⟩ := completes ms h' k3 k1 (by omega)
        exact ⟨o, rest, more, by rw [hl, k2]⟩
      · obtain ⟨e, he⟩ := log_grows_run ms h'
        exact ⟨o, [], e, by rw [he, ho]; simp⟩

theorem frames_holds (gs : List (GFrame K V)) : (gs.flatMap GFrame.held).map Prod.fst = (gs.map GFrame.frame).flatMap fun f => f.left ++ f.right := by
  induction gs with
  | nil => rfl
  | cons g gs ih => simp only [List.flatMap_cons, List.map_cons, List.map_append, ih, GFrame.held, GFrame.frame]

theorem frames_ids (gs : List (GFrame K V)) : gs.map GFrame.id = (gs.map GFrame.frame).map Frame.id := by
  simp [GFrame.frame, Function.comp_def]

theorem PhaseOk.holds {s : St K V} {vs : Vars K V} {ph F ids b} (h : PhaseOk s vs ph F ids b) : F.map Prod.fst = ph.holds ∧ ids = ph.owns := by
  cases h <;> simp [Phase.holds, Phase.owns, frames_holds, GFrame.frame, Function.comp_def]

theorem Global.holds {s : St K V} {threads gs ts vs} (hg : Global s threads gs ts vs) : (gs.flatMap Ghost.F).map Prod.fst = threads.flatMap Phase.holds := by
  have : gs.map (fun g => g.F.map Prod.fst) = threads.map Phase.holds := by
    refine List.ext_getElem? fun i => ?_
    simp only [List.getElem?_map]
    cases hi : gs[i]? with
    | none =>
      have := List.getElem?_eq_none_iff.1 hi
      rw [List.getElem?_eq_none (by rw [← hg.len]; exact this)]; rfl
    | some g =>
      obtain ⟨ph, hp⟩ : ∃ ph, threads[i]? = some ph := ⟨threads[i]'(by rw [← hg.len]; exact lt_of_getElem? hi), List.getElem?_eq_getElem _⟩
      rw [hp]; simp only [Option.map_some]
      rw [(hg.phase hp hi).1.holds.1]
  rw [List.flatMap_def, List.flatMap_def, ← this, List.map_flatten, List.map_map]; rfl

end Verif.Threads
