import Verif.Props.Storage
/-!
# One `MemStorage` used by several threads, and by databases (C68)
-/
namespace Verif.Store
variable {N B : Type} [DecidableEq N]

/-- nothing done yet -/
def Sys.start (d : Dir N B) (progs : Nat → List (Op N B)) : Sys N B := ⟨d, none, fun i => ⟨progs i, .idle, []⟩⟩

/-- the calls of thread `i` in a sequence of calls by threads -/
def callsOf (i : Nat) (lin : List (Nat × Op N B)) : List (Op N B) := (lin.filter (fun e => e.1 == i)).map Prod.snd

/-- what thread `i` sees if the calls are executed one after the other, each completely -/
def seenBy (i : Nat) (c : Contents N B) (lin : List (Nat × Op N B)) : List (Out B) :=
  ((lin.map Prod.fst).zip (c.run (lin.map Prod.snd)).2 |>.filter (fun e => e.1 == i)).map Prod.snd

theorem Contents.run_append (c : Contents N B) (xs ys : List (Op N B)) :
    c.run (xs ++ ys) = (((c.run xs).1.run ys).1, (c.run xs).2 ++ ((c.run xs).1.run ys).2) := by
  induction xs generalizing c with
  | nil => rfl
  | cons x xs ih => simp only [List.cons_append, Contents.run, ih]

theorem Contents.run_length (c : Contents N B) (xs : List (Op N B)) : (c.run xs).2.length = xs.length := by
  induction xs generalizing c with
  | nil => rfl
  | cons x xs ih => simp [Contents.run, ih]

theorem seenBy_snoc (i j : Nat) (c : Contents N B) (lin : List (Nat × Op N B)) (op : Op N B) :
    seenBy i c (lin ++ [(j, op)]) = seenBy i c lin ++ (if j = i then [((c.run (lin.map Prod.snd)).1.step op).2] else []) := by
  unfold seenBy
  rw [List.map_append, List.map_append, Contents.run_append, List.zip_append (by simp [Contents.run_length])]
  simp only [List.filter_append, List.map_append, List.map_cons, List.map_nil, Contents.run, List.zip_cons_cons, List.zip_nil_right]
  congr 1
  by_cases h : j = i <;> simp [h]

theorem callsOf_snoc (i j : Nat) (lin : List (Nat × Op N B)) (op : Op N B) :
    callsOf i (lin ++ [(j, op)]) = callsOf i lin ++ (if j = i then [op] else []) := by
  unfold callsOf
  by_cases h : j = i <;> simp [List.filter_append, h]

/-- the call that thread `i` finishes with its next step, if it does -/
def Sys.finishes (s : Sys N B) (i : Nat) : List (Nat × Op N B) :=
  match s.step i with
  | none => []
  | some s' => if (s'.threads i).todo.length < (s.threads i).todo.length then ((s.threads i).todo.take 1).map (fun op => (i, op)) else []

/-- all calls that are finished in a schedule, in the order in which they finish -/
def Sys.order (s : Sys N B) : List Nat → List (Nat × Op N B)
  | [] => []
  | i :: is => s.finishes i ++ ((s.step i).getD s).order is

/-- where the owner of the lock is: `C` are the contents when it took the lock -/
def Midway (C : Contents N B) (d : Dir N B) (op : Op N B) : Phase N B → Prop
  | .idle => False
  | .locked => view d = C ∧ noLock op = false
  | .entry => ∃ n chunk, op = .append n chunk ∧ view d = C
  | .removed v => ∃ a b, op = .mv a b ∧ a ≠ b ∧ view d = C.set a [] ∧ v.getD [] = C a
  | .finished o => (view d, o) = C.step op

structure Inv (c : Contents N B) (progs : Nat → List (Op N B)) (s : Sys N B) (lin : List (Nat × Op N B)) : Prop where
  todo : ∀ i, callsOf i lin ++ (s.threads i).todo = progs i
  seen : ∀ i, (s.threads i).seen = seenBy i c lin
  others : ∀ i, s.owner ≠ some i → (s.threads i).phase = .idle
  free : s.owner = none → view s.data = (c.run (lin.map Prod.snd)).1
  held : ∀ i, s.owner = some i → ∃ op rest, (s.threads i).todo = op :: rest ∧ Midway (c.run (lin.map Prod.snd)).1 s.data op (s.threads i).phase

theorem noLock_step {op : Op N B} (h : noLock op = true) (c : Contents N B) : c.step op = (c, .ok) := by
  cases op with
  | append n chunk => simp only [noLock] at h; simp [Contents.step, isEmpty_eq h, Contents.set_self]
  | load n => simp [noLock] at h
  | mv a b => simp only [noLock, decide_eq_true_eq] at h; simp [Contents.step, h]

theorem inside_ok {C : Contents N B} {d : Dir N B} {op : Op N B} {ph : Phase N B} (h : Midway C d op ph)
    (hf : ∀ o, ph ≠ .finished o) : ∃ d' ph', inside d op ph = some (d', ph') ∧ Midway C d' op ph' := by
  cases ph with
  | idle => exact h.elim
  | finished o => exact absurd rfl (hf o)
  | locked =>
    obtain ⟨h, hl⟩ := h
    cases op with
    | append n chunk =>
      cases hn : d n with
      | none =>
        refine ⟨d.set n (some []), .entry, by simp only [inside, hn], ⟨n, chunk, rfl, ?_⟩⟩
        rw [view_set, ← h]
        have : view d n = (some ([] : List B)).getD [] := by simp [view, hn]
        rw [← this, Contents.set_self]
      | some v => exact ⟨d, .entry, by simp only [inside, hn], ⟨n, chunk, rfl, h⟩⟩
    | load n =>
      refine ⟨_, _, rfl, ?_⟩
      simp only [Midway, Contents.step, ← h]
      rfl
    | mv a b =>
      refine ⟨_, _, rfl, a, b, rfl, by simpa [noLock] using hl, ?_, ?_⟩
      · rw [view_set, h]; rfl
      · rw [← h]; rfl
  | entry =>
    obtain ⟨n, chunk, rfl, h⟩ := h
    refine ⟨_, _, rfl, ?_⟩
    simp only [Midway, Contents.step, view_set, Option.getD_some, ← h]
    rfl
  | removed v =>
    obtain ⟨a, b, rfl, hab, h, hv⟩ := h
    have key : ∀ o : Option (List B), o.getD [] = v.getD [] → (view (d.set b o), Out.ok) = C.step (.mv a b) := by
      intro o ho
      simp only [Contents.step, view_set, if_neg hab, h, ho, hv]
      rw [Contents.set_comm _ hab]
    cases v with
    | none => exact ⟨_, _, rfl, key _ rfl⟩
    | some v =>
      by_cases hve : v.isEmpty = true
      · refine ⟨d.set b none, .finished .ok, by simp [inside, hve], key _ ?_⟩
        simp [isEmpty_eq hve]
      · refine ⟨d.set b (some v), .finished .ok, by simp [inside, hve], key _ rfl⟩

theorem todo_eq {c : Contents N B} {progs s lin} (h : Inv (N := N) (B := B) c progs s lin) {i : Nat} {op : Op N B} {rest : List (Op N B)}
    (ht : (s.threads i).todo = op :: rest) (j : Nat) (t : Nat → Thread N B) (hti : (t i).todo = rest) (htj : j ≠ i → t j = s.threads j) :
    callsOf j (lin ++ [(i, op)]) ++ (t j).todo = progs j := by
  rw [callsOf_snoc]
  by_cases e : i = j
  · subst e
    rw [if_pos rfl, hti, ← h.todo i, ht, List.append_assoc]; rfl
  · rw [if_neg e, List.append_nil, htj (Ne.symm e), h.todo j]

theorem inv_step {c : Contents N B} {progs : Nat → List (Op N B)} {s s' : Sys N B} {lin} (h : Inv c progs s lin) {i : Nat} (hs : s.step i = some s') :
    Inv c progs s' (lin ++ s.finishes i) := by
  suffices hg : ∃ add, Inv c progs s' (lin ++ add) ∧
      ((add = [] ∧ (s'.threads i).todo = (s.threads i).todo) ∨ ∃ op, add = [(i, op)] ∧ (s.threads i).todo = op :: (s'.threads i).todo) by
    obtain ⟨add, h1, h2⟩ := hg
    have e : s.finishes i = add := by
      unfold Sys.finishes
      rw [hs]
      rcases h2 with ⟨rfl, h2⟩ | ⟨op, rfl, h2⟩
      · simp [h2]
      · simp [h2]
    rw [e]; exact h1
  unfold Sys.step at hs
  split at hs
  · cases hs
  · next op rest ht =>
    split at hs
    · next hp =>
      have hne : s.owner ≠ some i := by
        intro ho
        obtain ⟨op', rest', h1, h2⟩ := h.held i ho
        rw [hp] at h2; exact h2
      split at hs
      · next hl =>
        cases hs
        have hst := noLock_step hl (c.run (lin.map Prod.snd)).1
        have hrun : (c.run ((lin ++ [(i, op)]).map Prod.snd)).1 = (c.run (lin.map Prod.snd)).1 := by
          rw [List.map_append, Contents.run_append]
          simp [Contents.run, hst]
        refine ⟨[(i, op)], ⟨fun j => ?_, fun j => ?_, fun j hj => ?_, fun hf => ?_, fun j hj => ?_⟩, .inr ⟨op, rfl, by simp [ht]⟩⟩
        · exact todo_eq h ht j _ (by simp) (fun e => by simp [e])
        · rw [seenBy_snoc, hst]
          by_cases e : j = i
          · subst e; simp [h.seen]
          · simp [e, Ne.symm e, h.seen j]
        · by_cases e : j = i
          · simp [e]
          · simp only [e, if_false]; exact h.others j hj
        · rw [hrun]; exact h.free hf
        · have e : j ≠ i := fun e => hne (e ▸ hj)
          rw [hrun]; simp only [e, if_false]; exact h.held j hj
      · next hl =>
        split at hs
        · next ho =>
          cases hs
          refine ⟨[], ⟨fun j => ?_, fun j => ?_, fun j hj => ?_, fun hf => ?_, fun j hj => ?_⟩, .inl ⟨rfl, by simp [ht]⟩⟩
          · rw [List.append_nil]
            by_cases e : j = i
            · subst e; simp [← h.todo j, ht]
            · simp [e, h.todo j]
          · rw [List.append_nil]
            by_cases e : j = i
            · subst e; simp [h.seen]
            · simp [e, h.seen j]
          · have e : j ≠ i := fun e => hj (by rw [e])
            simp only [e, if_false]; exact h.others j (by rw [ho]; simp)
          · cases hf
          · cases hj
            rw [List.append_nil]
            exact ⟨op, rest, by simp, by simp only [if_true]; exact ⟨h.free ho, by simpa using hl⟩⟩
        · cases hs
    · next o hp =>
      cases hs
      have ho : s.owner = some i := by
        refine Classical.byContradiction fun hn => ?_
        have := h.others i hn
        rw [hp] at this; cases this
      obtain ⟨op', rest', h1, h2⟩ := h.held i ho
      rw [ht] at h1; cases h1
      rw [hp] at h2
      have h2a : view s.data = _ := congrArg Prod.fst h2
      have h2b : o = _ := congrArg Prod.snd h2
      have hrun : (c.run ((lin ++ [(i, op)]).map Prod.snd)).1 = ((c.run (lin.map Prod.snd)).1.step op).1 := by
        rw [List.map_append, Contents.run_append]
        simp [Contents.run]
      refine ⟨[(i, op)], ⟨fun j => ?_, fun j => ?_, fun j hj => ?_, fun hf => ?_, fun j hj => by cases hj⟩, .inr ⟨op, rfl, by simp [ht]⟩⟩
      · exact todo_eq h ht j _ (by simp) (fun e => by simp [e])
      · rw [seenBy_snoc, ← h2b]
        by_cases e : j = i
        · subst e; simp [h.seen]
        · simp [e, Ne.symm e, h.seen j]
      · by_cases e : j = i
        · simp [e]
        · simp only [e, if_false]; exact h.others j (by rw [ho]; simpa using Ne.symm e)
      · rw [hrun]; exact h2a
    · next ph hp1 hp2 =>
      split at hs
      · next d ph' hin =>
        cases hs
        have ho : s.owner = some i := by
          refine Classical.byContradiction fun hn => ?_
          have := h.others i hn
          exact hp1 this
        obtain ⟨op', rest', h1, h2⟩ := h.held i ho
        rw [ht] at h1; cases h1
        obtain ⟨d', ph'', h3, h4⟩ := inside_ok h2 (fun o e => hp2 o e)
        rw [h3] at hin; cases hin
        refine ⟨[], ⟨fun j => ?_, fun j => ?_, fun j hj => ?_, fun hf => ?_, fun j hj => ?_⟩, .inl ⟨rfl, by simp [ht]⟩⟩
        · rw [List.append_nil]
          by_cases e : j = i
          · subst e; simp [← h.todo j, ht]
          · simp [e, h.todo j]
        · rw [List.append_nil]
          by_cases e : j = i
          · subst e; simp [h.seen]
          · simp [e, h.seen j]
        · have e : j ≠ i := fun e => hj (by rw [e]; exact ho)
          simp only [e, if_false]; exact h.others j hj
        · rw [ho] at hf; cases hf
        · rw [ho] at hj; cases hj
          rw [List.append_nil]
          exact ⟨op, rest, by simp, by simp only [if_true]; exact h4⟩
      · cases hs

theorem inv_start (d : Dir N B) (progs : Nat → List (Op N B)) : Inv (view d) progs (Sys.start d progs) [] :=
  ⟨fun _ => rfl, fun _ => rfl, fun _ _ => rfl, fun _ => rfl, fun _ h => by cases h⟩

theorem inv_run {c : Contents N B} {progs : Nat → List (Op N B)} (is : List Nat) : ∀ {s : Sys N B} {lin}, Inv c progs s lin →
    Inv c progs (s.run is) (lin ++ s.order is) := by
  induction is with
  | nil => intro s lin h; simpa [Sys.order, Sys.run] using h
  | cons i is ih =>
    intro s lin h
    simp only [Sys.run, Sys.order]
    cases hs : s.step i with
    | none => simp only [Sys.finishes, hs]; exact ih h
    | some s' =>
      have := ih (inv_step h hs)
      rw [List.append_assoc] at this
      exact this

/-- **C68.** `MemStorage` is linearizable: for every initial contents, all programs of all threads and every schedule, the calls take effect one after the
other in the order in which they finish: every thread makes its calls in program order, each has seen exactly what the contract says for
that order, and whenever nobody holds the lock the contents are those of the contract. -/
theorem C68_mem_linearizable (d : Dir N B) (progs : Nat → List (Op N B)) (is : List Nat) :
    let s := (Sys.start d progs).run is
    let order := (Sys.start d progs).order is
    (∀ i, callsOf i order ++ (s.threads i).todo = progs i) ∧
    (∀ i, (s.threads i).seen = seenBy i (view d) order) ∧
    (s.owner = none → view s.data = ((view d).run (order.map Prod.snd)).1) := by
  have h := inv_run is (inv_start d progs)
  rw [List.nil_append] at h
  exact ⟨h.todo, h.seen, h.free⟩

/-- **C68.** No deadlock: as long as some thread has calls left, some thread can make a step. -/
theorem C68_mem_no_deadlock (d : Dir N B) (progs : Nat → List (Op N B)) (is : List Nat) (i : Nat)
    (hi : (((Sys.start d progs).run is).threads i).todo ≠ []) : ∃ j, (((Sys.start d progs).run is).step j).isSome := by
  have h := inv_run is (inv_start d progs)
  generalize [] ++ (Sys.start d progs).order is = l at h
  generalize (Sys.start d progs).run is = s at hi h
  cases ho : s.owner with
  | none =>
    refine ⟨i, ?_⟩
    unfold Sys.step
    cases ht : (s.threads i).todo with
    | nil => exact absurd ht hi
    | cons op rest =>
      have hp := h.others i (by rw [ho]; simp)
      simp only [hp, ho, if_true]
      split <;> rfl
  | some j =>
    refine ⟨j, ?_⟩
    obtain ⟨op, rest, h1, h2⟩ := h.held j ho
    unfold Sys.step
    simp only [h1]
    cases hp : (s.threads j).phase with
    | idle => rw [hp] at h2; exact h2.elim
    | finished o => rfl
    | locked =>
      obtain ⟨d', ph', h3, _⟩ := inside_ok h2 (by simp [hp])
      rw [hp] at h3; simp [h3]
    | entry =>
      obtain ⟨d', ph', h3, _⟩ := inside_ok h2 (by simp [hp])
      rw [hp] at h3; simp [h3]
    | removed v =>
      obtain ⟨d', ph', h3, _⟩ := inside_ok h2 (by simp [hp])
      rw [hp] at h3; simp [h3]

/-- two threads append to the same file, a third one loads it in between -/
example : ((Sys.start (fun _ => none : Dir Nat Nat) (fun i => if i = 0 then [.append 7 [1, 2]] else if i = 1 then [.append 7 [3], .mv 7 8] else if i = 2 then [.load 8] else [])).run
    [0, 1, 0, 0, 0, 1, 1, 1, 1, 2, 2, 2, 1, 1, 1, 1]).data 8 = some [1, 2, 3] := by decide

/-! ## The databases that use it -/
open Verif.Shared in
/-- **C68.** What `flush` and `vacuum` of a database (C56) do to its two files is what the storage does on their calls `append` and `mv`, for every
outcome: a failed `append` wrote a part of the chunk, a failed `mv` nothing. -/
theorem C68_db_files {K V : Type} (d d' : Db K V) (s : Dir N (Slot K V)) (name tmp : N) (hne : name ≠ tmp)
    (h1 : view s name = d.name) (h2 : view s tmp = d.tmp) :
    (∀ io, d.flush io = some d' → d' = d ∨ ∃ chunk fl, chunk ≠ [] ∧
      let r := fileStep fl s (.append name chunk)
      view r.1 name = d'.name ∧ view r.1 tmp = d'.tmp ∧ (r.2 = .err ↔ ∃ k, io = .fail k) ∧
      (io = .ok → (memStep s (.append name chunk)).1 = r.1)) ∧
    (∀ io, d.vacuum io = some d' → d' = d ∨ ∃ chunk fl fl', chunk ≠ [] ∧
      let r := fileStep fl s (.append tmp chunk)
      ((∃ k, io = .fail k) ∧ r.2 = .err ∧ view r.1 name = d'.name ∧ view r.1 tmp = d'.tmp) ∨
      (r.2 = .ok ∧ let q := fileStep fl' r.1 (.mv tmp name)
        view q.1 name = d'.name ∧ view q.1 tmp = d'.tmp ∧ (io = .failMv ∧ q.2 = .err ∨ io = .ok ∧ q.2 = .ok))) := by
  have happ : ∀ (s : Dir N (Slot K V)) n chunk, chunk ≠ [] → fileStep .none s (.append n chunk) = (s.set n (some ((s n).getD [] ++ chunk)), .ok) := by
    intro s n chunk hc
    cases chunk with
    | nil => exact absurd rfl hc
    | cons x xs => rfl
  have happF : ∀ (s : Dir N (Slot K V)) n chunk k, chunk ≠ [] →
      fileStep (.writeFails k) s (.append n chunk) = (s.set n (some ((s n).getD [] ++ chunk.take k)), .err) := by
    intro s n chunk k hc
    cases chunk with
    | nil => exact absurd rfl hc
    | cons x xs => rfl
  have hser : ∀ {base map n r}, serialize d.st.heap base map n = some r → r.2 ≠ [] := by
    intro base map n r h
    simp only [serialize, Option.bind_eq_bind, Option.bind_eq_some_iff, Option.some.injEq] at h
    obtain ⟨q, _, rfl⟩ := h
    simp
  have h1' : (s name).getD [] = d.name := h1
  have h2' : (s tmp).getD [] = d.tmp := h2
  constructor
  · intro io hf
    unfold Db.flush at hf
    split at hf
    · next n hn =>
      simp only [Option.bind_eq_bind, Option.bind_eq_some_iff] at hf
      obtain ⟨r, hr, q, hq, hf⟩ := hf
      have hc := hser hr
      cases io with
      | ok =>
        simp only [Option.some.injEq] at hf
        subst hf
        refine .inr ⟨r.2, .none, hc, ?_⟩
        simp only [happ s name _ hc, view_set]
        refine ⟨by simp [Contents.set, h1'], by simp [Contents.set, Ne.symm hne, h2], by simp, fun _ => ?_⟩
        simp only [memStep, memAppend]
        split
        · next he => exact absurd (isEmpty_eq he) hc
        · split
          · next v hv => simp [hv]
          · next hv => simp [hv]
      | fail k =>
        simp only [Option.some.injEq] at hf
        subst hf
        refine .inr ⟨r.2, .writeFails k, hc, ?_⟩
        simp only [happF s name _ k hc, view_set]
        exact ⟨by simp [Contents.set, h1'], by simp [Contents.set, Ne.symm hne, h2], by simp, fun h => by cases h⟩
    · cases hf; exact .inl rfl
  · intro io hf
    unfold Db.vacuum at hf
    split at hf
    · next n hn =>
      simp only [Option.bind_eq_bind, Option.bind_eq_some_iff] at hf
      obtain ⟨r, hr, q, hq, hf⟩ := hf
      have hc := hser hr
      cases io with
      | fail k =>
        simp only [Option.some.injEq] at hf
        subst hf
        refine .inr ⟨r.2, .writeFails k, .none, hc, ?_⟩
        simp only [happF s tmp _ k hc, view_set]
        exact .inl ⟨⟨k, rfl⟩, trivial, by simp [Contents.set, hne, h1], by simp [Contents.set, h2']⟩
      | failMv =>
        simp only [Option.some.injEq] at hf
        subst hf
        refine .inr ⟨r.2, .none, .renameFails, hc, ?_⟩
        simp only [happ s tmp _ hc]
        refine .inr ⟨trivial, ?_⟩
        simp only [fileStep, fileMv, Ne, Ne.symm hne, not_false_eq_true, if_true, view_set]
        exact ⟨by simp [Contents.set, hne, h1], by simp [Contents.set, h2'], .inl ⟨trivial, trivial⟩⟩
      | ok =>
        simp only [Option.some.injEq] at hf
        subst hf
        refine .inr ⟨r.2, .none, .none, hc, ?_⟩
        simp only [happ s tmp _ hc]
        refine .inr ⟨trivial, ?_⟩
        have hmv : fileStep .none (s.set tmp (some ((s tmp).getD [] ++ r.2))) (.mv tmp name) =
            (((s.set tmp (some ((s tmp).getD [] ++ r.2))).set tmp none).set name (some (d.tmp ++ r.2)), .ok) := by
          simp [fileStep, fileMv, rename, Dir.set, Ne.symm hne, h2']
        rw [hmv]
        simp only [view_set]
        refine ⟨by simp [Contents.set], by simp [Contents.set, Ne.symm hne], .inr ⟨trivial, trivial⟩⟩
    · cases hf; exact .inl rfl

end Verif.Store
