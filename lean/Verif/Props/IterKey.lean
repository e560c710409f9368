import Verif.Lemmas.IterKey
import Verif.Props.Radix
/-!
# Keys handed out by a radix tree iterator (C64)

The iterator shares one buffer with the keys it hands out. Specification: `Plain` (Verif/Spec/IterKey.lean), where keys are values.
-/
namespace Verif
namespace IterKey
open Std Tree
variable {K V : Type _}

/-! ## C64 -/

/-- **C64.** For every tree, every starting key (that of `iter` or of `scan_prefix`) and every interleaving of iteration steps with the
client cloning, dropping and reading keys it got earlier and with dropping the iterator itself, the client sees exactly what it would see
if every key were a value of its own: advancing the iterator never changes a key already handed out. -/
theorem C64_keys_are_values (t : Tree K V) (p : List K) (cmds : List Cmd) :
    (run (St.start t p) cmds).2 = ((Plain.start t p).run cmds).2 := by
  obtain ⟨h1, h2, _⟩ := start_ok t p
  rw [← h2]; exact (run_sim cmds h1).2.2.1

/-- **C64.** No key is ever read from freed memory, and no buffer is leaked: after any run, a buffer is allocated iff the iterator or some
key of the client refers to it; in particular once all are dropped nothing is allocated. -/
theorem C64_no_leak (t : Tree K V) (p : List K) (cmds : List Cmd) (id : Nat) :
    let s := (run (St.start t p) cmds).1
    (s.heap.cell id ≠ none ↔ (∃ it, s.iter = some it ∧ it.path = id) ∨ some id ∈ s.keys) := by
  intro s
  have ok : s.Ok := (run_sim cmds (start_ok t p).1).1
  have : s.heap.cell id ≠ none ↔ 0 < s.handles id := by
    rcases Heap.Ok.cases ok id with ⟨h1, h2⟩ | ⟨h1, v, h2⟩
    · simp [h1, h2]
    · simp [h1, h2]
  rw [this]
  unfold St.handles
  rw [← List.count_pos_iff]
  cases hit : s.iter with
  | none => simp
  | some it =>
    simp only [Option.some.injEq, exists_eq_left', one]
    by_cases e : id = it.path
    · subst e; simp; omega
    · have : ¬ it.path = id := fun h => e h.symm
      simp [e, this]

/-- **C64.** Keeping keys costs at most one buffer per key handed out: the number of allocations is at most one plus the number of
entries yielded. -/
theorem C64_allocations (t : Tree K V) (p : List K) (cmds : List Cmd) :
    (run (St.start t p) cmds).1.heap.next ≤ 1 + yields (run (St.start t p) cmds).2 := by
  obtain ⟨h1, _, h3⟩ := start_ok t p
  have := (run_sim cmds h1).2.2.2
  rw [h3] at this
  have h : (run (St.start t p) cmds).1.heap.next ≤ (run (St.start t p) cmds).1.spent := by unfold St.spent; omega
  omega

/-- **C64.** A client that keeps no key pays for no copy: at any moment of any run at which it holds none, the next turn allocates
nothing. -/
theorem C64_no_copy_without_keys (t : Tree K V) (p : List K) (cmds : List Cmd)
    (h : ∀ i, some i ∉ (run (St.start t p) cmds).1.keys) :
    (step (run (St.start t p) cmds).1 .turn).1.heap.next = (run (St.start t p) cmds).1.heap.next := by
  have ok : (run (St.start t p) cmds).1.Ok := (run_sim cmds (start_ok t p).1).1
  generalize run (St.start t p) cmds = r at h ok
  generalize r.1 = s at h ok
  have hc : ∀ i, s.keys.count (some i) = 0 := fun i => by rw [List.count_eq_zero]; exact h i
  unfold step
  cases hit : s.iter with
  | none => rfl
  | some it =>
    have h1 : s.handles it.path = 1 := by simp [St.handles, hit, hc, one]
    simp only [turn]
    match it.stack with
    | [] => rfl
    | (t, 0) :: rest =>
      simp only
      cases t.val with
      | none => rfl
      | some v => exact (inc_ok ok (by omega)).2.2
    | (t, pos + 1) :: rest =>
      simp only
      cases t.kids[pos]? with
      | none => have := (edit_ok ok (id := it.path) (by omega) (fun v => v.take (v.length - t.pre.length))).2.2.2.1; simpa [h1, Heap.pop] using this
      | some c => have := (edit_ok ok (id := it.path) (by omega) (fun v => v ++ c.pre)).2.2.2.1; simpa [h1, Heap.append] using this

theorem plain_collect {it : Iter K V} {l : List (List K × V)} (h : Yields Iter.turn it l) : ∀ ks : List (Option (List K)),
    ∃ n it', (({ iter := some it, keys := ks } : Plain K V).run (List.replicate n .turn)).1
      = { iter := some it', keys := ks ++ l.map (fun e => some e.1) } ∧ it'.turn = .done := by
  induction h with
  | @done s h => exact fun ks => ⟨0, s, by simp [Plain.run], h⟩
  | @again s s' l h _ ih =>
    intro ks
    obtain ⟨n, it', h1, h2⟩ := ih ks
    exact ⟨n + 1, it', by simp only [List.replicate_succ, Plain.run, Plain.step, h, h1], h2⟩
  | @yield s s' x l h _ ih =>
    intro ks
    obtain ⟨n, it', h1, h2⟩ := ih (ks ++ [some x.1])
    exact ⟨n + 1, it', by simp only [List.replicate_succ, Plain.run, Plain.step, h, h1]; simp, h2⟩

/-- **C64.** Collecting all keys of a tree without dropping any and looking at them at the very end shows the keys of the tree, strictly
ascending. -/
theorem C64_collected_keys {K V : Type} [Ord K] [TransOrd K] [DecidableEq K] [LawfulEqOrd K] (t : Tree K V) (h : Valid t) :
    ∃ l : List (List K × V), l.Pairwise (fun x y => LexLt x.1 y.1) ∧ (∀ k v, (k, v) ∈ l ↔ Entry t k v) ∧
      ∃ n, let s := (run (St.start t t.pre) (List.replicate n .turn)).1
        s.keys.map (fun o => o.bind s.heap.read) = l.map (fun e => some e.1) ∧ (step s .turn).2 = .done := by
  obtain ⟨l, h1, h2, h3, _⟩ := C41_iter_values t h
  refine ⟨l, h2, h3, ?_⟩
  obtain ⟨n, it', e1, e2⟩ := plain_collect h1 []
  refine ⟨n, ?_⟩
  obtain ⟨s1, s2, _⟩ := start_ok t t.pre
  obtain ⟨r1, r2, _, _⟩ := run_sim (List.replicate n .turn) s1
  rw [s2] at r2
  have hp : (Plain.start t t.pre).run (List.replicate n Cmd.turn) = ({ iter := some t.iter, keys := [] } : Plain K V).run (List.replicate n .turn) := rfl
  rw [hp] at r2
  have r3 := r2.trans e1
  intro s
  refine ⟨?_, ?_⟩
  · have := congrArg Plain.keys r3
    simpa [St.view] using this
  · rw [(step_sim r1 .turn).2.2.1, r3]
    simp [Plain.step, e2]

/-- a run in which the client keeps the first key while the iterator moves on, and then reads it: `"a"`, then `"ab"`, reading key 0 -/
example : (run (St.start (⟨['a'], some 1, [⟨['b'], some 2, []⟩]⟩ : Tree Char Nat) ['a'])
      [.turn, .turn, .turn, .read 0, .read 1, .drop 1, .turn, .turn, .turn, .read 0, .dropIter]).2
    = [.yielded 1, .silent, .yielded 2, .key (some ['a']), .key (some ['a', 'b']), .silent, .silent, .silent, .done, .key (some ['a']),
       .silent] := rfl

/-- ... two buffers were needed, because a key was kept; after dropping it as well, none is left -/
example : (run (St.start (⟨['a'], some 1, [⟨['b'], some 2, []⟩]⟩ : Tree Char Nat) ['a'])
      [.turn, .turn, .turn, .read 0, .drop 1, .turn, .turn, .turn, .dropIter]).1.heap.next = 2 := rfl

/-- the hypothesis of `C64_no_copy_without_keys` holds in a loop that drops each key before asking for the next -/
example : ∀ i, some i ∉ (run (St.start (⟨['a'], some 1, [⟨['b'], some 2, []⟩]⟩ : Tree Char Nat) ['a']) [.turn, .drop 0, .turn, .turn, .drop 1]).1.keys := by
  intro i h
  have e : (run (St.start (⟨['a'], some 1, [⟨['b'], some 2, []⟩]⟩ : Tree Char Nat) ['a']) [.turn, .drop 0, .turn, .turn, .drop 1]).1.keys = [none, none] := rfl
  rw [e] at h; simp at h

end IterKey
end Verif
