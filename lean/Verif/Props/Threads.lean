import Verif.Lemmas.ThreadsReach
/-!
# C74: trees that share structure can be used by several threads at the same time

`(State.start arc nt nv).run ms` is the state that `nt` threads and `nv` variables get to with the schedule `ms`, which says at every moment which
thread begins a call, or makes its next access to memory (`Model/Threads.lean`). Which variables a call may use is what Rust's borrow rules say; the memory
behind the variables is shared. `Call.onAll` (`Spec/Threads.lean`) executes calls one after the other, on variables that hold plain trees.
-/
namespace Verif.Threads
open Verif.Shared
variable {K V : Type _}


/-- **C74.** Linearizability: whatever the schedule, every completed call observed exactly what it would have observed if the calls had been executed one
after the other, in the order of their completion, on plain trees. And every variable that no call under way has for itself holds what it would hold then
(`Den`: what one reads when one walks through the shared memory). -/
theorem C74_linearizable (arc : Bool) (nt nv : Nat) (ms : List (Move K V)) :
    ((State.start arc nt nv).run ms).log.map (·.2.2) = ((State.start arc nt nv).run ms).replayObs nv ∧
    ∀ x, ¬ ((State.start arc nt nv).run ms).inUse x → ∀ t,
      ((((State.start arc nt nv).run ms).replay nv)[x]? = some (some t) ↔
        ∃ n, ((State.start arc nt nv).run ms).st.regs[x]? = some (some n) ∧ Den ((State.start arc nt nv).run ms).st.heap n t) := by
  obtain ⟨gs, ts, h⟩ := reached (K := K) (V := V) arc nt nv ms
  generalize (State.start arc nt nv).run ms = w at *
  refine ⟨h.obs.symm, fun x hx t => ?_⟩
  have hag : ts[x]? = (w.replay nv)[x]? := h.glob.agree x fun i ph hi ho => by
    obtain ⟨g, hg⟩ := h.ghost hi
    obtain ⟨c, hc, hxc⟩ := out_excl (h.glob.phase hi hg).1 ho
    exact hx ⟨ph, List.mem_of_getElem? hi, c, hc, hxc⟩
  rw [← hag]
  constructor
  · intro ht
    by_cases hr : ∃ n, w.st.regs[x]? = some (some n)
    · obtain ⟨n, hn⟩ := hr
      obtain ⟨t', ht', hd⟩ := h.glob.inv.regs.some hn
      rw [ht] at ht'; cases ht'
      exact ⟨n, hn, hd⟩
    · exact absurd ht (h.glob.inv.regs.not_some (fun n hn => hr ⟨n, hn⟩) t)
  · rintro ⟨n, hn, hd⟩
    obtain ⟨t', ht', hd'⟩ := h.glob.inv.regs.some hn
    rw [hd.det hd']; exact ht'

/-- **C74.** The log is complete: the completed calls of each thread, followed by the one under way, are the calls it began, in this order. -/
theorem C74_program_order (arc : Bool) (nt nv : Nat) (ms : List (Move K V)) (t : Nat) :
    ((State.start arc nt nv).run ms).done t ++ ((State.start arc nt nv).run ms).current t = (State.start arc nt nv).begun t ms := by
  have key : ∀ (ms : List (Move K V)) (w : State K V) gs ts, Reached nv w gs ts → (w.run ms).done t ++ (w.run ms).current t = w.done t ++ w.current t ++ w.begun t ms := by
    intro ms
    induction ms with
    | nil => intro w gs ts _; simp [State.run, State.begun]
    | cons m ms ih =>
      intro w gs ts h
      obtain ⟨gs', ts', h', hm⟩ := h.move m
      simp only [State.run, State.begun]
      rw [ih _ _ _ h', ← List.append_assoc]
      congr 1
      exact move_order h m t
  obtain h := start_reached (K := K) (V := V) arc nt nv
  rw [key ms _ _ _ h]
  have h2 : (State.start arc nt nv : State K V).current t = [] := by
    simp only [State.current, State.start]
    split
    · rename_i ph hp
      rw [(List.mem_replicate.1 (List.mem_of_getElem? hp)).2]; rfl
    · rfl
  rw [h2]; rfl

/-- **C74.** No use after free and no data race: no thread ever accesses a vector that has been freed, or that another thread has exclusive access to. -/
theorem C74_no_fault (arc : Bool) (nt nv : Nat) (ms : List (Move K V)) : Phase.fault ∉ ((State.start arc nt nv).run ms).threads := by
  intro hm
  obtain ⟨gs, ts, h⟩ := reached (K := K) (V := V) arc nt nv ms
  obtain ⟨i, hi⟩ := List.mem_iff_getElem?.1 hm
  obtain ⟨g, hg⟩ := h.ghost hi
  rcases phase_cases (h.glob.phase hi hg).1 with e | ⟨c, e⟩ <;> cases e

/-- **C74.** Exclusive access is exclusive: while a thread has a vector checked out, no node anywhere refers to it: no variable, no vector, nothing that any
thread holds. And no other thread has checked it out. -/
theorem C74_exclusive (arc : Bool) (nt nv : Nat) (ms : List (Move K V)) (i : Nat) (ph : Phase K V) (hi : ((State.start arc nt nv).run ms).threads[i]? = some ph)
    (id : Nat) (hid : id ∈ ph.owns) :
    (∀ (x : Nat) n, ((State.start arc nt nv).run ms).st.regs[x]? = some (some n) → n.kids ≠ .arc id) ∧
    (∀ j r ns, ((State.start arc nt nv).run ms).st.heap.cell j = some (r, ns) → ∀ n ∈ ns, n.kids ≠ .arc id) ∧
    (∀ ph' ∈ ((State.start arc nt nv).run ms).threads, ∀ n ∈ ph'.holds, n.kids ≠ .arc id) ∧
    ∀ j ph', j ≠ i → ((State.start arc nt nv).run ms).threads[j]? = some ph' → id ∉ ph'.owns := by
  obtain ⟨gs, ts, h⟩ := reached (K := K) (V := V) arc nt nv ms
  generalize (State.start arc nt nv).run ms = w at *
  obtain ⟨g, hg⟩ := h.ghost hi
  obtain ⟨h1, h2⟩ := h.glob.phase hi hg
  rw [← h1.holds.2] at hid
  obtain ⟨k1, k2⟩ := h.glob.inv.wf.none_refs (h2.held id hid).1
  have key : ∀ {n : Node K V}, n.isArc id = false → n.kids ≠ .arc id := fun {n} h e => by simp [Node.isArc, e] at h
  refine ⟨fun x n hx => key (k1 n ?_), fun j r ns hj n hn => key (k2 j r ns hj n hn), fun ph' hp n hn => key (k1 n ?_), fun j ph' hne hj hm => ?_⟩
  · exact List.mem_append_right _ (List.mem_append_left _ (mem_regs hx))
  · rw [h.glob.holds]; exact List.mem_append_left _ (List.mem_flatMap.2 ⟨ph', hp, hn⟩)
  · obtain ⟨g', hg'⟩ := h.ghost hj
    rw [← (h.glob.phase hj hg').1.holds.2] at hm
    exact h.glob.apart (Ne.symm hne) hg hg' id hid hm

/-- **C74.** At every moment, also while calls are under way, every reference count is exactly the number of references in variables, in the static, in live
vectors, and in what the threads hold. -/
theorem C74_counts_exact (arc : Bool) (nt nv : Nat) (ms : List (Move K V)) (id : Nat) :
    ((State.start arc nt nv).run ms).st.heap.rc id =
      refs id (((State.start arc nt nv).run ms).st.roots []) + refs id (((State.start arc nt nv).run ms).threads.flatMap Phase.holds) +
      ((State.start arc nt nv).run ms).st.heap.total id := by
  obtain ⟨gs, ts, h⟩ := reached (K := K) (V := V) arc nt nv ms
  generalize (State.start arc nt nv).run ms = w at *
  rw [h.glob.inv.wf.exact id, refs_append, h.glob.holds, Nat.add_comm (refs id (w.st.roots []))]
  have := refs_perm (roots_perm w.st []) id
  simp only [List.map_nil, List.nil_append] at this
  rw [this]

/-- **C74.** No leak: when no call is under way, every reference count is exact, and every allocation can be reached from a variable or the static; if all
variables are empty then, at most the allocation of the static is left. -/
theorem C74_no_leak (arc : Bool) (nt nv : Nat) (ms : List (Move K V)) (hidle : ∀ ph ∈ ((State.start arc nt nv).run ms).threads, ph = .idle) (id : Nat) :
    ((State.start arc nt nv).run ms).st.heap.rc id =
      refs id (((State.start arc nt nv).run ms).st.roots []) + ((State.start arc nt nv).run ms).st.heap.total id ∧
    ∀ c, ((State.start arc nt nv).run ms).st.heap.cell id = some c → Reach ((State.start arc nt nv).run ms).st [] id ∧
      ((∀ o ∈ ((State.start arc nt nv).run ms).st.regs, o = none) → ((State.start arc nt nv).run ms).st.static = some id ∧ c.2 = []) := by
  obtain ⟨gs, ts, h⟩ := reached (K := K) (V := V) arc nt nv ms
  generalize (State.start arc nt nv).run ms = w at *
  have hF : gs.flatMap Ghost.F = [] := by
    rw [List.flatMap_eq_nil_iff]
    intro g hg
    obtain ⟨i, hi⟩ := List.mem_iff_getElem?.1 hg
    obtain ⟨ph, hp⟩ : ∃ ph, w.threads[i]? = some ph := ⟨w.threads[i]'(by rw [← h.glob.len]; exact lt_of_getElem? hi), List.getElem?_eq_getElem _⟩
    have h1 := (h.glob.phase hp hi).1
    rw [hidle ph (List.mem_of_getElem? hp)] at h1
    revert h1; generalize g.F = F; generalize g.ids = ids
    intro h1; cases h1; rfl
  have hok : Ok w.st [] ts := by have := h.glob.inv.ok; rwa [hF] at this
  exact ⟨hok.wf.exact id, fun c hc => ⟨no_leak hok hc, only_static hok hc⟩⟩

/-- **C74.** Wait-freedom: from any state, a call completes with the next `Call.cost` steps of its thread, whatever the other threads do in between (even if they
never make a step again). -/
theorem C74_wait_free (arc : Bool) (nt nv : Nat) (ms ms' : List (Move K V)) (t : Nat) (c : Call K V)
    (hc : ((State.start arc nt nv).run ms).threads[t]? = some (.start c))
    (hs : c.cost (((State.start arc nt nv).run ms).replay nv) ≤ ms'.countP (Move.isStep t)) :
    ∃ o rest more, (((State.start arc nt nv).run ms).run ms').log = ((State.start arc nt nv).run ms).log ++ rest ++ (t, c, o) :: more := by
  obtain ⟨gs, ts, h⟩ := reached (K := K) (V := V) arc nt nv ms
  generalize (State.start arc nt nv).run ms = w at *
  obtain ⟨g, hg⟩ := h.ghost hc
  obtain ⟨gs', g', h', hg', hb⟩ := h.rebudget hc hg
  have hcur : w.current t = [c] := by simp [State.current, hc, Phase.call]
  exact completes ms' h' hg' hcur (by rw [hb]; exact hs)

/-! ## Non-vacuity -/
section Examples

private def leaf (p : List Nat) (v : Nat) : Tree Nat Nat := ⟨p, some v, []⟩
private def tree0 : Tree Nat Nat := ⟨[1], none, [leaf [2] 20, leaf [3] 30]⟩
private def go (ms : List (Move Nat Nat)) : State Nat Nat := (State.start true 2 3).run ms
private def steps (t n : Nat) : List (Move Nat Nat) := List.replicate n (.step t)

/-- thread 0 loads a tree, looks at it, and clones it: variables 0 and 1 share a child vector -/
private def prepare : List (Move Nat Nat) :=
  [.call 0 (.load tree0 0)] ++ steps 0 1 ++ [.call 0 (.look ⟨0, []⟩)] ++ steps 0 3 ++ [.call 0 (.clone ⟨0, []⟩ 1)] ++ steps 0 2

/-- both threads change a child, in turns; each finds the vector shared, and copies it -/
private def race : List (Move Nat Nat) :=
  prepare ++ [.call 0 (.setVal ⟨0, [0]⟩ (some 7)), .call 1 (.setVal ⟨1, [0]⟩ (some 8))] ++ (List.replicate 4 (steps 0 1 ++ steps 1 1)).flatten

example : (go prepare).st.heap.rc 1 = 2 ∧ (go prepare).st.regs.map (Option.map Node.pre) = [some [1], some [1], none] := ⟨rfl, rfl⟩
/-- in the middle: both threads are copying the same vector, which neither has for itself -/
example : (go race).threads.map Phase.owns = [[], []] ∧ (go race).threads.map (fun ph => ph.holds.length) = [3, 3] ∧ (go race).st.heap.rc 1 = 2 := ⟨rfl, rfl, rfl⟩
/-- the end: each variable has its own value, the vector they shared has been freed by the last one -/
example : ((go (race ++ steps 1 4 ++ steps 0 8)).log.map (·.2.2)).length = 5 ∧
    ((go (race ++ steps 1 4 ++ steps 0 8)).replay 3).map (Option.map fun t => t.kids.map Tree.val) = [some [some 7, some 30], some [some 8, some 30], none] ∧
    (go (race ++ steps 1 4 ++ steps 0 8)).st.heap.cell 1 = none := ⟨rfl, rfl, rfl⟩
/-- the order of completion: thread 1 came first -/
example : (go (race ++ steps 1 4 ++ steps 0 8)).log.map (·.1) = [0, 0, 0, 1, 0] := rfl
/-- while a thread has the vector for itself -/
example : ((go (race ++ steps 1 1)).threads.map Phase.owns) = [[], [2]] := rfl
/-- thread 1 drops its clone while thread 0 is copying: then thread 0 is the one to free the vector -/
example : (go (prepare ++ [.call 0 (.setVal ⟨0, [0]⟩ (some 7))] ++ steps 0 3 ++ [.call 1 (.drop 1)] ++ steps 1 3)).st.heap.rc 1 = 1 ∧
    (go (prepare ++ [.call 0 (.setVal ⟨0, [0]⟩ (some 7))] ++ steps 0 3 ++ [.call 1 (.drop 1)] ++ steps 1 3 ++ steps 0 8)).st.heap.cell 1 = none := ⟨rfl, rfl⟩
/-- the hypotheses of `C74_wait_free` -/
example : (go (prepare ++ [.call 0 (.setVal ⟨0, [0]⟩ (some 7))])).threads[0]? = some (.start (.setVal ⟨0, [0]⟩ (some 7))) ∧
    (Call.setVal ⟨0, [0]⟩ (some 7) : Call Nat Nat).cost ((go prepare).replay 3) = 20 := ⟨rfl, rfl⟩
/-- the hypotheses of `C74_no_leak`, with all variables dropped -/
example : (go (prepare ++ [.call 0 (.drop 0), .call 1 (.drop 1)] ++ steps 0 9 ++ steps 1 9)).threads.map Phase.call = [none, none] ∧
    (go (prepare ++ [.call 0 (.drop 0), .call 1 (.drop 1)] ++ steps 0 9 ++ steps 1 9)).st.regs.map (Option.map Node.pre) = [none, none, none] := ⟨rfl, rfl⟩
/-- a call that Rust's rules do not allow does not begin: variable 0 is being changed -/
example : (go (prepare ++ [.call 0 (.setVal ⟨0, [0]⟩ (some 7)), .call 1 (.look ⟨0, []⟩)])).threads.map (·.call.isSome) = [true, false] := rfl

end Examples

end Verif.Threads
