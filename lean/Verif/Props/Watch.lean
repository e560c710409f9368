import Verif.Model.Watch
import Verif.Props.Radix
/-!
# Watching a database (C69)

What a watcher has to get is said in terms of the history alone: `saves t es` are the trees that were current at the successful saves.
-/
namespace Verif.Watch
variable {T : Type}

/-- the current tree after a history -/
def current (t : T) : List (Ev T) → T
  | [] => t
  | .set u :: es => current u es
  | _ :: es => current t es

/-- the trees that were current when `flush` or `vacuum` returned `Ok`, in order -/
def saves (t : T) : List (Ev T) → List T
  | [] => []
  | .set u :: es => saves u es
  | .save true :: es => t :: saves t es
  | _ :: es => saves t es

/-- how often `watch` was called -/
def watches (es : List (Ev T)) : Nat := es.countP (fun e => match e with | .watch => true | _ => false)

/-- receiver `i` is not dropped in this history -/
def Kept (i : Nat) (es : List (Ev T)) : Prop := ∀ e ∈ es, e ≠ .drop i

/-- what receiver `i` got from its calls of `recv` -/
def got (i : Nat) (outs : List (Nat × T)) : List T := (outs.filter (fun o => o.1 == i)).map Prod.snd

/-- every sender belongs to a channel, and to a different one -/
structure Db.Ok (d : Db T) : Prop where
  bound : ∀ w ∈ d.watchers, w < d.chans.length
  nodup : d.watchers.Nodup

theorem send_length (chans : List (Chan T)) (i : Nat) (t : T) : (send chans i t).1.length = chans.length := by
  unfold send; split
  · split <;> simp
  · rfl

theorem notifyGo_spec (t : T) (ws : List Nat) : ∀ (chans : List (Chan T)), (∀ w ∈ ws, w < chans.length) → ws.Nodup →
    (notifyGo t chans ws).1.length = chans.length ∧
    (∀ i c, chans[i]? = some c → (notifyGo t chans ws).1[i]? = some (if i ∈ ws ∧ c.alive then { c with queue := c.queue ++ [t] } else c)) ∧
    (∀ i, i ∈ (notifyGo t chans ws).2 ↔ i ∈ ws ∧ ∃ c, chans[i]? = some c ∧ c.alive = true) ∧
    (notifyGo t chans ws).2.Sublist ws := by
  induction ws with
  | nil => intro chans _ _; exact ⟨rfl, fun i c h => by simpa [notifyGo] using h, by simp [notifyGo], List.Sublist.refl _⟩
  | cons w ws ih =>
    intro chans hb hn
    rw [List.nodup_cons] at hn
    have hw : w < chans.length := hb w (by simp)
    obtain ⟨c0, hc0⟩ : ∃ c, chans[w]? = some c := ⟨chans[w], by simp [hw]⟩
    have hlen := send_length chans w t
    have hget : ∀ i, i ≠ w → (send chans w t).1[i]? = chans[i]? := by
      intro i hi
      unfold send
      rw [hc0]
      simp only
      split
      · rw [List.getElem?_set_ne (Ne.symm hi)]
      · rfl
    have hself : (send chans w t).1[w]? = some (if c0.alive then { c0 with queue := c0.queue ++ [t] } else c0) := by
      unfold send
      rw [hc0]
      simp only
      split
      · rw [List.getElem?_set_self hw]
      · exact hc0
    have hok : (send chans w t).2 = c0.alive := by
      unfold send; rw [hc0]; simp only; split
      · next h => simp [h]
      · next h => simp [h]
    obtain ⟨h1, h2, h3, h4⟩ := ih (send chans w t).1 (fun v hv => by rw [hlen]; exact hb v (by simp [hv])) hn.2
    have halive : ∀ i, i ∈ ws → ((∃ c, (send chans w t).1[i]? = some c ∧ c.alive = true) ↔ ∃ c, chans[i]? = some c ∧ c.alive = true) := by
      intro i hi
      rw [hget i (fun e => hn.1 (e ▸ hi))]
    have hgetAll : ∀ i c, chans[i]? = some c → (notifyGo t (send chans w t).1 ws).1[i]? =
        some (if i ∈ w :: ws ∧ c.alive then { c with queue := c.queue ++ [t] } else c) := by
      intro i c hi
      by_cases e : i = w
      · subst e
        rw [hc0] at hi; cases hi
        rw [h2 i _ hself]
        by_cases ha : c0.alive = true <;> simp [ha, hn.1]
      · rw [h2 i c (by rw [hget i e]; exact hi)]
        simp [e]
    unfold notifyGo
    rw [hok]
    by_cases ha : c0.alive = true
    · rw [if_pos ha]
      refine ⟨h1.trans hlen, hgetAll, fun i => ?_, h4.cons_cons w⟩
      simp only [List.mem_cons, h3]
      constructor
      · rintro (rfl | ⟨h, h'⟩)
        · exact ⟨.inl rfl, c0, hc0, ha⟩
        · exact ⟨.inr h, (halive i h).1 h'⟩
      · rintro ⟨rfl | h, h'⟩
        · exact .inl rfl
        · exact .inr ⟨h, (halive i h).2 h'⟩
    · rw [if_neg ha]
      refine ⟨h1.trans hlen, hgetAll, fun i => ?_, h4.cons w⟩
      simp only [List.mem_cons, h3]
      constructor
      · rintro ⟨h, h'⟩; exact ⟨.inr h, (halive i h).1 h'⟩
      · rintro ⟨rfl | h, h'⟩
        · obtain ⟨c, hc, hca⟩ := h'
          rw [hc0] at hc; cases hc; exact absurd hca ha
        · exact ⟨h, (halive i h).2 h'⟩

/-- the state of one receiver: its channel exists, is alive, its sender is registered -/
def Db.Open (d : Db T) (i : Nat) (q : List T) : Prop := d.chans[i]? = some ⟨q, true⟩ ∧ i ∈ d.watchers

theorem step_ok {d : Db T} (h : d.Ok) (e : Ev T) : (d.step e).1.Ok ∧ d.chans.length ≤ (d.step e).1.chans.length := by
  cases e with
  | set t => exact ⟨⟨h.bound, h.nodup⟩, Nat.le_refl _⟩
  | save ok =>
    cases ok with
    | false => exact ⟨h, Nat.le_refl _⟩
    | true =>
      obtain ⟨h1, _, h3, h4⟩ := notifyGo_spec d.tree d.watchers d.chans h.bound h.nodup
      refine ⟨⟨fun w hw => ?_, h4.nodup h.nodup⟩, by simp [Db.step, Db.notify, h1]⟩
      have := h.bound w ((h3 w).1 hw).1
      simp only [Db.step, Db.notify, if_true, h1]
      exact this
  | watch =>
    refine ⟨⟨fun w hw => ?_, ?_⟩, by simp [Db.step]⟩
    · simp only [Db.step, List.mem_append, List.mem_singleton, List.length_append, List.length_singleton] at hw ⊢
      rcases hw with hw | rfl
      · exact Nat.lt_succ_of_lt (h.bound w hw)
      · omega
    · simp only [Db.step, List.nodup_append]
      refine ⟨h.nodup, by simp, fun a ha b hb => ?_⟩
      simp only [List.mem_singleton] at hb
      have := h.bound a ha
      omega
  | recv i =>
    simp only [Db.step]
    split
    · exact ⟨⟨fun w hw => by simpa using h.bound w hw, h.nodup⟩, by simp⟩
    · exact ⟨h, Nat.le_refl _⟩
  | drop i =>
    simp only [Db.step]
    split
    · exact ⟨⟨fun w hw => by simpa using h.bound w hw, h.nodup⟩, by simp⟩
    · exact ⟨h, Nat.le_refl _⟩

theorem got_append (i : Nat) (a b : List (Nat × T)) : got i (a ++ b) = got i a ++ got i b := by simp [got]

theorem step_open {d : Db T} (h : d.Ok) {i : Nat} {q : List T} (ho : d.Open i q) (e : Ev T) (he : e ≠ .drop i) :
    ∃ q', (d.step e).1.Open i q' ∧ got i (d.step e).2 ++ q' = q ++ saves d.tree [e] := by
  obtain ⟨hc, hw⟩ := ho
  have hlt : i < d.chans.length := h.bound i hw
  cases e with
  | set t => exact ⟨q, ⟨hc, hw⟩, by simp [Db.step, saves, got]⟩
  | save ok =>
    cases ok with
    | false => exact ⟨q, ⟨hc, hw⟩, by simp [Db.step, saves, got]⟩
    | true =>
      obtain ⟨_, h2, h3, _⟩ := notifyGo_spec d.tree d.watchers d.chans h.bound h.nodup
      refine ⟨q ++ [d.tree], ⟨?_, ?_⟩, by simp [Db.step, saves, got]⟩
      · have := h2 i _ hc
        simp only [hw, true_and, if_true] at this
        exact this
      · exact (h3 i).2 ⟨hw, _, hc, rfl⟩
  | watch =>
    refine ⟨q, ⟨?_, ?_⟩, by simp [Db.step, saves, got]⟩
    · simp only [Db.step]; rw [List.getElem?_append_left hlt]; exact hc
    · simp [Db.step, hw]
  | recv j =>
    by_cases e : j = i
    · subst e
      cases q with
      | nil => exact ⟨[], ⟨by simp [Db.step, hc], by simp [Db.step, hc, hw]⟩, by simp [Db.step, hc, saves, got]⟩
      | cons t q =>
        refine ⟨q, ⟨?_, by simp [Db.step, hc, hw]⟩, by simp [Db.step, hc, saves, got]⟩
        simp only [Db.step, hc]
        rw [List.getElem?_set_self hlt]
    · refine ⟨q, ?_, ?_⟩
      · simp only [Db.step]
        split
        · exact ⟨by simp only; rw [List.getElem?_set_ne e]; exact hc, hw⟩
        · exact ⟨hc, hw⟩
      · simp only [Db.step]
        split
        · simp [got, saves, e]
        · simp [got, saves]
  | drop j =>
    have e : j ≠ i := fun e => he (by rw [e])
    refine ⟨q, ?_, ?_⟩
    · simp only [Db.step]
      split
      · exact ⟨by simp only; rw [List.getElem?_set_ne e]; exact hc, hw⟩
      · exact ⟨hc, hw⟩
    · simp only [Db.step]
      split <;> simp [got, saves]

theorem step_tree (d : Db T) (e : Ev T) : (d.step e).1.tree = current d.tree [e] := by
  cases e with
  | set t => rfl
  | save ok => cases ok <;> rfl
  | watch => rfl
  | recv i => simp only [Db.step, current]; split <;> rfl
  | drop i => simp only [Db.step, current]; split <;> rfl

theorem saves_cons (t : T) (e : Ev T) (es : List (Ev T)) : saves t (e :: es) = saves t [e] ++ saves (current t [e]) es := by
  cases e with
  | save ok => cases ok <;> rfl
  | set t => rfl
  | watch => rfl
  | recv i => rfl
  | drop i => rfl

theorem current_cons (t : T) (e : Ev T) (es : List (Ev T)) : current t (e :: es) = current (current t [e]) es := by cases e <;> rfl

theorem run_open (es : List (Ev T)) : ∀ {d : Db T}, d.Ok → ∀ {i q}, d.Open i q → Kept i es →
    ∃ q', (d.run es).1.Open i q' ∧ got i (d.run es).2 ++ q' = q ++ saves d.tree es := by
  induction es with
  | nil => intro d _ i q ho _; exact ⟨q, ho, by simp [Db.run, got, saves]⟩
  | cons e es ih =>
    intro d h i q ho hk
    obtain ⟨q1, h1, h2⟩ := step_open h ho e (hk e (by simp))
    obtain ⟨q2, h3, h4⟩ := ih (step_ok h e).1 h1 (fun e' he' => hk e' (by simp [he']))
    refine ⟨q2, h3, ?_⟩
    simp only [Db.run]
    rw [got_append, List.append_assoc, h4, ← List.append_assoc, h2, step_tree, saves_cons d.tree e es, List.append_assoc]

theorem run_ok (es : List (Ev T)) : ∀ {d : Db T}, d.Ok → (d.run es).1.Ok := by
  induction es with
  | nil => intro d h; exact h
  | cons e es ih => intro d h; exact ih (step_ok h e).1

theorem run_tree (es : List (Ev T)) : ∀ (d : Db T), (d.run es).1.tree = current d.tree es := by
  induction es with
  | nil => intro d; rfl
  | cons e es ih => intro d; rw [current_cons, ← step_tree]; exact ih _

theorem step_length (d : Db T) (h : d.Ok) (e : Ev T) : (d.step e).1.chans.length = d.chans.length + watches [e] := by
  cases e with
  | set t => rfl
  | save ok =>
    cases ok with
    | false => rfl
    | true => exact (notifyGo_spec d.tree d.watchers d.chans h.bound h.nodup).1
  | watch => simp [Db.step, watches]
  | recv i => simp only [Db.step, watches]; split <;> simp
  | drop i => simp only [Db.step, watches]; split <;> simp

theorem run_length (es : List (Ev T)) : ∀ (d : Db T), d.Ok → (d.run es).1.chans.length = d.chans.length + watches es := by
  induction es with
  | nil => intro d _; rfl
  | cons e es ih =>
    intro d h
    have e1 : watches (e :: es) = watches [e] + watches es := by simp only [watches, List.countP_cons, List.countP_nil]; omega
    rw [e1]
    show ((d.step e).1.run es).1.chans.length = _
    rw [ih _ (step_ok h e).1, step_length d h e]; omega

theorem run_append (xs ys : List (Ev T)) (d : Db T) : d.run (xs ++ ys) = (((d.run xs).1.run ys).1, (d.run xs).2 ++ ((d.run xs).1.run ys).2) := by
  induction xs generalizing d with
  | nil => rfl
  | cons x xs ih => simp only [List.cons_append, Db.run, ih, List.append_assoc]

theorem start_ok (t : T) : (Db.start t).Ok := ⟨fun _ hw => (by simp [Db.start] at hw), List.nodup_nil⟩

/-! ## C69 -/

/-- **C69.** Every watcher gets every successfully saved tree from its subscription on, each once and in order, however saves, failed saves, changes of the tree,
receptions, further subscriptions and drops of other receivers are interleaved: what it received so far followed by what still waits in its channel
is exactly the list of saved trees. -/
theorem C69_delivery (t : T) (before after : List (Ev T)) (h : Kept (watches before) after) :
    ∃ pending, ((Db.start t).run (before ++ .watch :: after)).1.Open (watches before) pending ∧
      got (watches before) (((Db.start t).run (before ++ [.watch])).1.run after).2 ++ pending = saves (current t before) after := by
  have hok := run_ok before (start_ok t)
  have hlen : ((Db.start t).run before).1.chans.length = watches before := by
    rw [run_length before _ (start_ok t)]; simp [Db.start]
  have hopen : (((Db.start t).run before).1.step .watch).1.Open (watches before) [] := by
    refine ⟨?_, ?_⟩
    · simp only [Db.step]; rw [← hlen, List.getElem?_append_right (Nat.le_refl _)]; simp
    · simp [Db.step, hlen]
  obtain ⟨q, h1, h2⟩ := run_open after (step_ok hok .watch).1 hopen h
  refine ⟨q, ?_, ?_⟩
  · rw [run_append]; exact h1
  · rw [run_append]
    rw [step_tree, run_tree] at h2
    exact h2

/-- **C69.** Nobody else gets anything: before it exists, a receiver gets nothing. -/
theorem C69_nothing_before (t : T) (es : List (Ev T)) (i : Nat) (hi : watches es ≤ i) : got i ((Db.start t).run es).2 = [] := by
  suffices h : ∀ (es : List (Ev T)) (d : Db T), d.Ok → d.chans.length + watches es ≤ i → got i (d.run es).2 = [] from
    h es _ (start_ok t) (by simpa [Db.start] using hi)
  intro es
  induction es with
  | nil => intros; rfl
  | cons e es ih =>
    intro d hd hl
    have e1 : watches (e :: es) = watches [e] + watches es := by simp only [watches, List.countP_cons, List.countP_nil]; omega
    have hs : got i (d.step e).2 = [] := by
      cases e with
      | set t => rfl
      | save ok => cases ok <;> rfl
      | watch => rfl
      | drop j => simp only [Db.step]; split <;> rfl
      | recv j =>
        simp only [Db.step]
        split
        · next hj =>
          have : j < d.chans.length := (List.getElem?_eq_some_iff.1 hj).1
          have : j ≠ i := by omega
          simp [got, this]
        · rfl
    simp only [Db.run]
    rw [got_append, hs, List.nil_append]
    exact ih _ (step_ok hd e).1 (by rw [step_length d hd e]; omega)

/-- **C69.** A dropped receiver costs nothing for long: after the next successful save its sender is no longer kept, and the channel stays empty. -/
theorem C69_unsubscribe (t : T) (es : List (Ev T)) (i : Nat) (mid : List (Ev T)) (hi : i < watches es) :
    let d := ((Db.start t).run (es ++ .drop i :: mid)).1
    i ∉ (d.step (.save true)).1.watchers ∧ (d.step (.save true)).1.chans[i]? = some ⟨[], false⟩ := by
  intro d
  have hok := run_ok es (start_ok t)
  have hlen : ((Db.start t).run es).1.chans.length = watches es := by
    rw [run_length es _ (start_ok t)]; simp [Db.start]
  have hd0 : (((Db.start t).run es).1.step (.drop i)).1.chans[i]? = some ⟨[], false⟩ := by
    have hl : i < ((Db.start t).run es).1.chans.length := by omega
    have hg : ((Db.start t).run es).1.chans[i]? = some (((Db.start t).run es).1.chans[i]) := by simp [hl]
    simp only [Db.step, hg]
    rw [List.getElem?_set_self hl]
  have key : ∀ (es : List (Ev T)) (d : Db T), d.Ok → d.chans[i]? = some ⟨[], false⟩ → (d.run es).1.chans[i]? = some ⟨[], false⟩ := by
    intro es
    induction es with
    | nil => intro d _ h; exact h
    | cons e es ih =>
      intro d hd h
      refine ih _ (step_ok hd e).1 ?_
      have hl : i < d.chans.length := (List.getElem?_eq_some_iff.1 h).1
      cases e with
      | set t => exact h
      | save ok =>
        cases ok with
        | false => exact h
        | true =>
          have := (notifyGo_spec d.tree d.watchers d.chans hd.bound hd.nodup).2.1 i _ h
          simp only [Bool.false_eq_true, and_false, if_false] at this
          exact this
      | watch => simp only [Db.step]; rw [List.getElem?_append_left hl]; exact h
      | recv j =>
        simp only [Db.step]
        split
        · next hj =>
          have : j ≠ i := by
            rintro rfl
            rw [h] at hj; cases hj
          simp only; rw [List.getElem?_set_ne this]; exact h
        · exact h
      | drop j =>
        simp only [Db.step]
        split
        · by_cases e : j = i
          · subst e; simp [hl]
          · simp only; rw [List.getElem?_set_ne e]; exact h
        · exact h
  have hd : d.chans[i]? = some ⟨[], false⟩ := by
    show ((Db.start t).run (es ++ .drop i :: mid)).1.chans[i]? = _
    rw [run_append]
    exact key mid _ (step_ok hok _).1 hd0
  have hok' : d.Ok := run_ok _ (start_ok t)
  obtain ⟨_, h2, h3, _⟩ := notifyGo_spec d.tree d.watchers d.chans hok'.bound hok'.nodup
  refine ⟨fun hm => ?_, ?_⟩
  · obtain ⟨_, c, hc, ha⟩ := (h3 i).1 hm
    rw [hd] at hc; cases hc; cases ha
  · have := h2 i _ hd
    simp only [Bool.false_eq_true, and_false, if_false] at this
    exact this

open Tree Std
variable {K V : Type} [Ord K] [TransOrd K] [LawfulEqOrd K] [DecidableEq K]

/-- **C69.** The stream of `watch_prefix` has one batch for each tree that arrives and never panics. In each batch the old side is the tree *at the
subscription* and the new side the tree that arrived, both restricted to the prefix; `added` are the entries under the prefix whose key was not there at
the subscription, `removed` those whose key is not there any more. (A changed value is in neither.) -/
theorem C69_batches (pre : List K) (t0 : Tree K V) (h0 : Valid t0) (ts : List (Tree K V)) (hts : ∀ t ∈ ts, Valid t) :
    ∃ bs, scan pre t0 ts = .ret bs ∧ bs.length = ts.length ∧
      ∀ (i : Nat) (t : Tree K V) (b : Batch K V), ts[i]? = some t → bs[i]? = some b →
        (∀ k v, Entry b.v0 k v ↔ Entry t0 k v ∧ ∃ s, k = pre ++ s) ∧
        (∀ k v, Entry b.v1 k v ↔ Entry t k v ∧ ∃ s, k = pre ++ s) ∧
        (∃ r, b.added = (r, .cont) ∧ ∀ k v, Entry r k v ↔ Entry t k v ∧ (∃ s, k = pre ++ s) ∧ ¬ HasEntry t0 k) ∧
        (∃ r, b.removed = (r, .cont) ∧ ∀ k v, Entry r k v ↔ Entry t0 k v ∧ (∃ s, k = pre ++ s) ∧ ¬ HasEntry t k) := by
  induction ts with
  | nil => exact ⟨[], rfl, rfl, fun i t b h => by simp at h⟩
  | cons t ts ih =>
    obtain ⟨bs, h1, h2, h3⟩ := ih (fun t ht => hts t (by simp [ht]))
    have ht := hts t (by simp)
    obtain ⟨v0, e0, w0, -, m0⟩ := C49_filter_prefix t0 h0 pre
    obtain ⟨v1, e1, w1, -, m1⟩ := C49_filter_prefix t ht pre
    refine ⟨⟨v0, v1⟩ :: bs, by simp only [scan, scanStep, e0, e1, h1], by simp [h2], ?_⟩
    intro i t' b hi hb
    cases i with
    | succ i => exact h3 i t' b (by simpa using hi) (by simpa using hb)
    | zero =>
      simp only [List.getElem?_cons_zero, Option.some.injEq] at hi hb
      subst hi; subst hb
      obtain ⟨r, _, hr, _, hd⟩ := C45_difference v1 v0 w1 w0
      obtain ⟨r', _, hr', _, hd'⟩ := C45_difference v0 v1 w0 w1
      refine ⟨m0, m1, ⟨r, hr, fun k v => ?_⟩, ⟨r', hr', fun k v => ?_⟩⟩
      · rw [hd]
        simp only [HasEntry, m0, m1]
        constructor
        · rintro ⟨⟨a, b⟩, c⟩; exact ⟨a, b, fun ⟨w, hw⟩ => c ⟨w, hw, b⟩⟩
        · rintro ⟨a, b, c⟩; exact ⟨⟨a, b⟩, fun ⟨w, hw, _⟩ => c ⟨w, hw⟩⟩
      · rw [hd']
        simp only [HasEntry, m0, m1]
        constructor
        · rintro ⟨⟨a, b⟩, c⟩; exact ⟨a, b, fun ⟨w, hw⟩ => c ⟨w, hw, b⟩⟩
        · rintro ⟨a, b, c⟩; exact ⟨⟨a, b⟩, fun ⟨w, hw, _⟩ => c ⟨w, hw⟩⟩

/-- **C69 (refutation of the incremental reading).** The batches are not the changes since the previous batch: if a key under the prefix is added before
the first save and nothing changes before the second one, *both* batches report it as added. -/
theorem C69_not_incremental (pre s : List K) (v : V) :
    ∃ (b₁ b₂ : Batch K V) (r : Tree K V), scan pre Tree.empty [single (pre ++ s) v, single (pre ++ s) v] = .ret [b₁, b₂] ∧
      b₂.added = (r, .cont) ∧ Entry r (pre ++ s) v := by
  have hv : Valid (single (pre ++ s) v) := (canonical_single _ _).1
  obtain ⟨bs, h1, h2, h3⟩ := C69_batches pre Tree.empty canonical_empty.1 [single (pre ++ s) v, single (pre ++ s) v] (by simp [hv])
  match bs, h2 with
  | [b₁, b₂], _ =>
    obtain ⟨_, _, ⟨r, hr, hm⟩, _⟩ := h3 1 _ b₂ rfl rfl
    refine ⟨b₁, b₂, r, h1, hr, (hm _ _).2 ⟨.here, ⟨s, rfl⟩, ?_⟩⟩
    rintro ⟨w, hw⟩
    rw [← den_iff_entry canonical_empty.1, den_empty_none rfl] at hw
    cases hw

/-- two watchers, the second subscribes between the saves; the first is dropped -/
example : ((Db.start 0).run [.watch, .set 1, .save true, .recv 0, .watch, .set 2, .save false, .save true, .drop 0, .set 3, .save true, .recv 1]).2 =
    [(0, 1), (1, 2)] := by decide

end Verif.Watch
