import Verif.Model.IntoIter
import Verif.Props.Radix
/-!
# Consuming iteration over radix trees (C65)

The full property: every value obtained from `into_iter` can be read at any later time — that is what the item type `&'static V` says.
That is false (`C65_dangling_after_drop`, `C65_counterexample`); what holds is that values can be read while the iterator is alive
(`C65_alive_partial`, `C65_enumerates_partial`).
-/
namespace Verif
namespace IntoIter
open Std Tree

section any
variable {K V : Type _}

theorem nodeAt_append (t : Tree K V) (a b : List Nat) : nodeAt t (a ++ b) = (nodeAt t a).bind (fun n => nodeAt n b) := by
  induction a generalizing t with
  | nil => rfl
  | cons i a ih =>
    simp only [List.cons_append, nodeAt]
    cases t.kids[i]? with
    | none => rfl
    | some c => exact ih c

/-- the state is that of an iterator over `t` that is alive: `vs` are the values of the references, `it` is the plain iterator -/
structure Alive (t : Tree K V) (s : St K V) (it : Values K V) (vs : List V) : Prop where
  box : s.box = some t
  stack : s.stack.map (fun e => (nodeAt t e.1, e.2)) = it.stack.map (fun e => (some e.1, e.2))
  refs : s.refs.map (fun a => (nodeAt t a).bind (·.val)) = vs.map some

theorem alive_start (t : Tree K V) : Alive t (St.start t) t.values [] := ⟨rfl, rfl, rfl⟩

theorem alive_turn {t : Tree K V} {s : St K V} {it : Values K V} {vs : List V} (h : Alive t s it vs) :
    match it.turn with
    | .done => turn s = (s, .done)
    | .again it' => Alive t (turn s).1 it' vs ∧ (turn s).2 = .silent
    | .yield v it' => Alive t (turn s).1 it' (vs ++ [v]) ∧ (turn s).2 = .yielded := by
  obtain ⟨h1, h2, h3⟩ := h
  unfold turn Values.turn
  match hi : it.stack, hs : s.stack with
  | [], [] => rfl
  | [], _ :: _ => rw [hi, hs] at h2; simp at h2
  | _ :: _, [] => rw [hi, hs] at h2; simp at h2
  | (n, p) :: irest, (addr, q) :: rest =>
    rw [hi, hs] at h2
    simp only [List.map_cons, List.cons.injEq, Prod.mk.injEq] at h2
    obtain ⟨⟨ha, rfl⟩, hr⟩ := h2
    have hd : s.deref addr = some n := by simp [St.deref, h1, ha]
    cases q with
    | zero =>
      simp only [hd]
      cases hv : n.val with
      | none => exact ⟨⟨h1, by simp [ha, hr], h3⟩, rfl⟩
      | some v => exact ⟨⟨h1, by simp [ha, hr], by simp [h3, ha, hv]⟩, rfl⟩
    | succ q =>
      simp only [hd]
      by_cases hq : q < n.kids.length
      · simp only [hq, ↓reduceIte, List.getElem?_eq_getElem]
        exact ⟨⟨h1, by simp [ha, hr, nodeAt_append, nodeAt, hq], h3⟩, trivial⟩
      · simp only [hq, ↓reduceIte, List.getElem?_eq_none (Nat.le_of_not_lt hq)]
        exact ⟨⟨h1, hr, h3⟩, trivial⟩

theorem alive_read {t : Tree K V} {s : St K V} {it : Values K V} {vs : List V} (h : Alive t s it vs) (i : Nat) :
    step s (.read i) = (s, match vs[i]? with | some v => .value v | none => .silent) := by
  obtain ⟨h1, _, h3⟩ := h
  have e : (s.refs[i]?).map (fun a => (nodeAt t a).bind (·.val)) = (vs[i]?).map some := by
    have := congrArg (fun l => l[i]?) h3
    simpa using this
  unfold step
  cases hr : s.refs[i]? with
  | none =>
    rw [hr] at e
    cases hv : vs[i]? with
    | none => simp [hr]
    | some v => rw [hv] at e; simp at e
  | some a =>
    rw [hr] at e
    cases hv : vs[i]? with
    | none => rw [hv] at e; simp at e
    | some v =>
      rw [hv] at e
      simp only [Option.map_some, Option.some.injEq, Option.bind_eq_some_iff] at e
      obtain ⟨n, hn, hv'⟩ := e
      have hd : s.deref a = some n := by simp [St.deref, h1, hn]
      simp [hr, hd, hv']

/-- what a client that never drops the iterator should see: values are read from the list of values yielded so far -/
def plainRun (it : Values K V) (vs : List V) : List Cmd → List (Obs V)
  | [] => []
  | .turn :: cs =>
    match it.turn with
    | .done => .done :: plainRun it vs cs
    | .again it' => .silent :: plainRun it' vs cs
    | .yield v it' => .yielded :: plainRun it' (vs ++ [v]) cs
  | .read i :: cs => (match vs[i]? with | some v => Obs.value v | none => .silent) :: plainRun it vs cs
  | .drop :: _ => []

/-- **C65 (partial).** As long as the iterator returned by `into_iter` is not dropped, iterating and reading values obtained earlier, in
any order, shows the values that `values()` of the tree yields; nothing dangles. Missing: reads after the iterator is dropped. -/
theorem C65_alive_partial (t : Tree K V) (cmds : List Cmd) (h : ∀ c ∈ cmds, c ≠ .drop) :
    (run (St.start t) cmds).2 = plainRun t.values [] cmds := by
  suffices hg : ∀ (cmds : List Cmd) (s : St K V) (it : Values K V) (vs : List V), (∀ c ∈ cmds, c ≠ .drop) → Alive t s it vs →
      (run s cmds).2 = plainRun it vs cmds from hg cmds _ _ _ h (alive_start t)
  intro cmds
  induction cmds with
  | nil => intros; rfl
  | cons c cs ih =>
    intro s it vs hd ha
    have hd' : ∀ c ∈ cs, c ≠ .drop := fun c hc => hd c (by simp [hc])
    cases c with
    | drop => exact absurd rfl (hd .drop (by simp))
    | read i =>
      simp only [run, plainRun, alive_read ha i]
      rw [ih s it vs hd' ha]
    | turn =>
      have := alive_turn ha
      simp only [run, plainRun]
      have e : step s .turn = turn s := rfl
      rw [e]
      cases ht : it.turn with
      | done => rw [ht] at this; simp only at this; rw [this]; simp only; rw [ih _ _ _ hd' ha]
      | again it' => rw [ht] at this; simp only at this ⊢; rw [this.2, ih _ _ _ hd' this.1]
      | yield v it' => rw [ht] at this; simp only at this ⊢; rw [this.2, ih _ _ _ hd' this.1]

theorem collect {t : Tree K V} {it : Values K V} {l : List V} (h : Yields Values.turn it l) : ∀ (s : St K V) (vs : List V), Alive t s it vs →
    ∃ n it', Alive t (run s (List.replicate n .turn)).1 it' (vs ++ l) ∧ it'.turn = .done := by
  induction h with
  | @done it h => exact fun s vs ha => ⟨0, it, by simpa [run] using ha, h⟩
  | @again it it' l h _ ih =>
    intro s vs ha
    have := alive_turn ha
    rw [h] at this
    obtain ⟨n, i, h1, h2⟩ := ih _ _ this.1
    exact ⟨n + 1, i, h1, h2⟩
  | @yield it it' x l h _ ih =>
    intro s vs ha
    have := alive_turn ha
    rw [h] at this
    obtain ⟨n, i, h1, h2⟩ := ih _ _ this.1
    exact ⟨n + 1, i, by rw [List.append_assoc] at h1; exact h1, h2⟩

end any

variable {K V : Type} [Ord K] [TransOrd K] [LawfulEqOrd K] [DecidableEq K]

/-- **C65 (partial).** Consuming iteration over a valid tree ends, and at its end — the iterator still being alive — every value obtained
reads as the value of its entry, in ascending key order. -/
theorem C65_enumerates_partial (t : Tree K V) (h : Valid t) :
    ∃ l : List (List K × V), l.Pairwise (fun x y => LexLt x.1 y.1) ∧ (∀ k v, (k, v) ∈ l ↔ Entry t k v) ∧
      ∃ n, let s := (run (St.start t) (List.replicate n .turn)).1
        (step s .turn).2 = .done ∧ s.refs.length = l.length ∧
        ∀ i k v, l[i]? = some (k, v) → (step s (.read i)).2 = .value v := by
  obtain ⟨l, _, h2, h3, h4⟩ := C41_iter_values t h
  refine ⟨l, h2, h3, ?_⟩
  obtain ⟨n, it', h5, h6⟩ := collect h4 _ _ (alive_start t)
  refine ⟨n, ?_⟩
  intro s
  have ht := alive_turn h5
  rw [h6] at ht
  refine ⟨by show (turn s).2 = _; rw [ht], ?_, fun i k v e => ?_⟩
  · have := congrArg List.length h5.refs
    simpa using this
  · rw [alive_read h5 i]
    simp [e]

/-- **C65 (refutation).** Once the iterator is dropped, *every* value reference obtained from it dangles — although its type is
`&'static V`, so safe code can still read it. -/
theorem C65_dangling_after_drop (t : Tree K V) (cmds : List Cmd) (i : Nat) (hi : i < (run (St.start t) cmds).1.refs.length) :
    (run (step (run (St.start t) cmds).1 .drop).1 [.read i]).2 = [.dangling] := by
  simp [run, step, St.deref, hi]

/-- **C65 (refutation).** For every valid tree with at least one entry there is a run of safe calls that reads freed memory: iterate, drop the
iterator, read the first value. -/
theorem C65_counterexample (t : Tree K V) (h : Valid t) (hne : ∃ k v, Entry t k v) :
    ∃ n, .dangling ∈ (run (St.start t) (List.replicate n .turn ++ [.drop, .read 0])).2 := by
  obtain ⟨l, _, h3, n, _, h5, _⟩ := C65_enumerates_partial t h
  refine ⟨n, ?_⟩
  have hl : 0 < l.length := by
    obtain ⟨k, v, hkv⟩ := hne
    exact List.length_pos_of_mem ((h3 k v).2 hkv)
  have happ : ∀ (a b : List Cmd) (s : St K V), (run s (a ++ b)).2 = (run s a).2 ++ (run (run s a).1 b).2 := by
    intro a
    induction a with
    | nil => intro b s; rfl
    | cons c a ih => intro b s; simp [run, ih]
  rw [happ]
  have := C65_dangling_after_drop t (List.replicate n .turn) 0 (by rw [h5]; exact hl)
  simp only [run, List.cons.injEq, and_true] at this
  simp [run, this]

/-- a tree with entries: iterate to the first value and read it; then drop the iterator and read it again -/
example : (run (St.start demoA) [.turn, .turn, .turn, .turn, .read 0, .drop, .read 0]).2.getLast? = some .dangling ∧
    ∃ v, Obs.value v ∈ (run (St.start demoA) [.turn, .turn, .turn, .turn, .read 0, .drop, .read 0]).2 := by
  refine ⟨rfl, ?_⟩
  exact ⟨'a', by simp [run, step, turn, St.start, St.deref, nodeAt, demoA]⟩

end IntoIter
end Verif
