import Verif.Lemmas.SharedStep
/-!
# C53, C54, C59: structural sharing, copy on write and lazy loading are unobservable

A program (`Prog`) is any strategy that chooses the next command of the tree interface from what it has observed so far.
`(St.start arc).run p` executes it on the reference counted heap (`arc = true`: `ArcRadixTree` with its static empty vector;
`arc = false`: `LazyRadixTree`). `Vars.run [] p` executes the same program on plain tree values (`Spec/ValueMachine.lean`).
`Den h n t`: reading node `n` in heap `h` gives the tree `t`; `Ok s F ts`: the state is consistent, its variables read as `ts`,
and nodes owned by other code read as given by the frame `F` (`Spec/HeapView.lean`).
-/
namespace Verif.Shared
variable {K V : Type _}

/-- **C53.** Every program observes on the shared heap exactly what it observes on plain values, and at the end every variable
reads as the value machine says. -/
theorem C53_refines_values (arc : Bool) (p : Prog K V) :
    ((St.start arc).run p).2 = (Vars.run [] p).2 ∧
    ((St.start arc).run p).1.regs.length = (Vars.run [] p).1.length ∧
    (∀ (i : Nat) n, ((St.start arc).run p).1.regs[i]? = some (some n) →
      ∃ t, (Vars.run [] p).1[i]? = some (some t) ∧ Den ((St.start arc).run p).1.heap n t) ∧
    (∀ (i : Nat) t, (Vars.run [] p).1[i]? = some (some t) →
      ∃ n, ((St.start arc).run p).1.regs[i]? = some (some n) ∧ Den ((St.start arc).run p).1.heap n t) := by
  obtain ⟨h1, h2, -⟩ := run_ok p (ok_start arc)
  refine ⟨h2, h1.regs.len, fun i n hi => h1.regs.some hi, fun i t ht => ?_⟩
  by_cases hr : ∃ n, ((St.start arc).run p).1.regs[i]? = some (some n)
  · obtain ⟨n, hr⟩ := hr
    obtain ⟨t', ht', hd⟩ := h1.regs.some hr
    rw [ht] at ht'; cases ht'
    exact ⟨n, hr, hd⟩
  · exact absurd ht (h1.regs.not_some (fun n hn => hr ⟨n, hn⟩) t)

/-- **C53.** What a node reads as is unique, so "the tree a variable stands for" is meaningful. -/
theorem C53_meaning_unique {h : Heap K V} {n : Node K V} {t t' : Tree K V} (h1 : Den h n t) (h2 : Den h n t') : t = t' := h1.det h2

/-- the variable `j` holds a node that reads as `t` -/
def St.reads (s : St K V) (j : Nat) (t : Tree K V) : Prop := ∃ n, s.regs[j]? = some (some n) ∧ Den s.heap n t

/-- **C53.** Snapshot isolation. After any program `p`, let any program `q` run. A variable that `q` does not write to (or move out
of) reads the same before and after, whatever `q` does with other variables that share structure with it. -/
theorem C53_snapshot_isolation (arc : Bool) (p q : Prog K V) (j : Nat) (t : Tree K V)
    (hj : ((St.start arc).run p).1.reads j t)
    (hq : ∀ c ∈ q.executed (((St.start arc).run p).1.run q).2, j ∉ c.writes) :
    (((St.start arc).run p).1.run q).1.reads j t := by
  obtain ⟨h1, -, -⟩ := run_ok p (ok_start (K := K) (V := V) arc)
  generalize ((St.start arc).run p).1 = s at *
  generalize (Vars.run [] p).1 = ts at *
  obtain ⟨h2, h3, -⟩ := run_ok q h1
  obtain ⟨n, hn, hd⟩ := hj
  obtain ⟨t', ht', hd'⟩ := h1.regs.some hn
  have := hd.det hd'; subst this
  rw [h3] at hq
  have hlt : j < ts.length := lt_of_getElem? ht'
  have h4 := run_ne q hlt hq
  rw [ht'] at h4
  by_cases hr : ∃ n, (s.run q).1.regs[j]? = some (some n)
  · obtain ⟨m, hm⟩ := hr
    obtain ⟨u, hu, hdu⟩ := h2.regs.some hm
    rw [h4] at hu; cases hu
    exact ⟨m, hm, hdu⟩
  · exact absurd h4 (h2.regs.not_some (fun n hn => hr ⟨n, hn⟩) t)

/-- **C53.** Cloning a node (at any place inside a tree) gives a new variable that reads as the tree at that place, and leaves every
other variable reading as before. -/
theorem C53_clone (arc : Bool) (p : Prog K V) (src : Loc) (t u : Tree K V)
    (ht : ((St.start arc).run p).1.reads src.reg t) (hu : treeAt src.path t = some u) :
    (((St.start arc).run p).1.step (.clone src)).2 = .ok ∧
    (((St.start arc).run p).1.step (.clone src)).1.reads ((St.start arc).run p).1.regs.length u ∧
    ∀ j w, ((St.start arc).run p).1.reads j w → (((St.start arc).run p).1.step (.clone src)).1.reads j w := by
  obtain ⟨h1, -, -⟩ := run_ok p (ok_start (K := K) (V := V) arc)
  generalize ((St.start arc).run p).1 = s at *
  generalize (Vars.run [] p).1 = ts at *
  obtain ⟨h2, h3, -⟩ := step_ok h1 (.clone src)
  obtain ⟨n, hn, hd⟩ := ht
  obtain ⟨t', ht', hd'⟩ := h1.regs.some hn
  have := hd.det hd'; subst this
  have hat : ts.at src = some u := by rw [Vars.at_some ht', hu]
  have hst : ts.step (.clone src) = (ts ++ [some u], .ok) := by simp only [Vars.step, hat]
  rw [hst] at h2 h3
  have get : ∀ j w, (ts ++ [some u])[j]? = some (some w) → (s.step (.clone src)).1.reads j w := by
    intro j w hw
    by_cases hr : ∃ n, (s.step (.clone src)).1.regs[j]? = some (some n)
    · obtain ⟨m, hm⟩ := hr
      obtain ⟨x, hx, hdx⟩ := h2.regs.some hm
      rw [hw] at hx; cases hx
      exact ⟨m, hm, hdx⟩
    · exact absurd hw (h2.regs.not_some (fun n hn => hr ⟨n, hn⟩) w)
  refine ⟨h3, get _ _ ?_, fun j w hw => get j w ?_⟩
  · rw [h1.regs.len]; simp
  · obtain ⟨m, hm, hdm⟩ := hw
    obtain ⟨x, hx, hdx⟩ := h1.regs.some hm
    have := hdm.det hdx; subst this
    rw [List.getElem?_append_left (lt_of_getElem? hx)]; exact hx

/-- **C59.** Reference counts: in every reachable state the strong count of every allocation is exactly the number of references to
it (from variables, from the static, and from live vectors), no live allocation has count 0, and everything that can be
reached is allocated (no use after free). -/
theorem C59_counts_exact (arc : Bool) (p : Prog K V) (id : Nat) :
    ((St.start arc).run p).1.heap.rc id =
      refs id (((St.start arc).run p).1.roots []) + ((St.start arc).run p).1.heap.total id ∧
    (∀ r ns, ((St.start arc).run p).1.heap.cell id = some (r, ns) → 1 ≤ r) ∧
    (Reach ((St.start arc).run p).1 [] id → ∃ r ns us, ((St.start arc).run p).1.heap.cell id = some (r, ns) ∧
      Dens ((St.start arc).run p).1.heap ns us) := by
  obtain ⟨h1, -, -⟩ := run_ok p (ok_start (K := K) (V := V) arc)
  exact ⟨h1.wf.exact id, fun r ns => h1.wf.pos id r ns, fun hr => no_dangling h1 hr⟩

/-- without variables, only the static's allocation is left -/
theorem only_static {s : St K V} {ts : Vars K V} (h1 : Ok s [] ts) {id : Nat} {c} (hc : s.heap.cell id = some c) (hall : ∀ o ∈ s.regs, o = none) :
    s.static = some id ∧ c.2 = [] := by
  have hregs : s.regs.filterMap (fun x => x) = [] := by
    rw [List.filterMap_eq_nil_iff]; intro o ho; exact hall o ho
  have key : ∀ id, Reach s [] id → s.static = some id := by
    intro id hr
    induction hr with
    | @root n id hn hk =>
      rw [St.roots, show s.regs.filterMap _root_.id = [] from hregs] at hn
      simp only [List.nil_append, others, List.append_nil] at hn
      cases hst : s.static with
      | none => rw [hst] at hn; simp at hn
      | some e => rw [hst] at hn; simp at hn; subst hn; cases hk; rfl
    | @step j r ns n id' _ hcj hn _ ih =>
      have := h1.frame (⟨[], none, .arc j⟩, ⟨[], none, []⟩) (by simp [others, ih])
      cases this with
      | arc _ _ hc2 hds =>
        rw [hcj] at hc2; cases hc2
        cases hds; simp at hn
  have hst := key id (no_leak h1 hc)
  refine ⟨hst, ?_⟩
  have := h1.frame (⟨[], none, .arc id⟩, ⟨[], none, []⟩) (by simp [others, hst])
  cases this with
  | arc _ _ hc2 hds => rw [hc] at hc2; cases hc2; cases hds; rfl

/-- **C59.** Nothing leaks: every live allocation can be reached from a variable or the static; if all variables were dropped or
moved out, at most the static's allocation is left. -/
theorem C59_no_leak (arc : Bool) (p : Prog K V) (id : Nat) (c) (hc : ((St.start arc).run p).1.heap.cell id = some c) :
    Reach ((St.start arc).run p).1 [] id ∧
    ((∀ o ∈ ((St.start arc).run p).1.regs, o = none) → ((St.start arc).run p).1.static = some id ∧ c.2 = []) := by
  obtain ⟨h1, -, -⟩ := run_ok p (ok_start (K := K) (V := V) arc)
  exact ⟨no_leak h1 hc, fun hall => only_static h1 hc hall⟩

/-- **C53.** Nodes owned by other code (the frame) are not affected by a program either: any program run on any consistent state
leaves every frame node reading the same. -/
theorem C53_frame (s : St K V) (F : List (Node K V × Tree K V)) (ts : Vars K V) (ho : Ok s F ts) (p : Prog K V) :
    ∀ x ∈ F, Den s.heap x.1 x.2 ∧ Den (s.run p).1.heap x.1 x.2 := by
  intro x hx
  obtain ⟨h1, -, -⟩ := run_ok p ho
  exact ⟨ho.frame x (List.mem_append_right _ hx), h1.frame x (List.mem_append_right _ hx)⟩

/-- **C54.** Two consistent states whose variables stand for the same trees cannot be distinguished by any program, however
differently their child vectors are loaded or shared. -/
theorem C54_lazy_unobservable (s₁ s₂ : St K V) (F₁ F₂ : List (Node K V × Tree K V)) (ts : Vars K V) (h₁ : Ok s₁ F₁ ts) (h₂ : Ok s₂ F₂ ts)
    (q : Prog K V) : (s₁.run q).2 = (s₂.run q).2 ∧ ∃ ts', Ok (s₁.run q).1 F₁ ts' ∧ Ok (s₂.run q).1 F₂ ts' := by
  obtain ⟨a1, a2, -⟩ := run_ok q h₁
  obtain ⟨b1, b2, -⟩ := run_ok q h₂
  exact ⟨a2.trans b2.symm, _, a1, b1⟩

/-- **C54.** A lazily loaded tree answers every program like the tree loaded eagerly from the same archive and like the converted
`RadixTree`, after any preceding program. -/
theorem C54_lazy_eq_eager (arc : Bool) (p q : Prog K V) (t : Tree K V) (archived : Bool) :
    ((((St.start arc).run p).1.step (.lazyRoot t)).1.run q).2 = ((((St.start arc).run p).1.step (.eager archived t)).1.run q).2 := by
  obtain ⟨h1, -, -⟩ := run_ok p (ok_start (K := K) (V := V) arc)
  exact (C54_lazy_unobservable _ _ _ _ _ (step_ok h1 (.lazyRoot t)).1 (step_ok h1 (.eager archived t)).1 q).1

/-- **C54.** Loading through a shared reference (any sequence of looks and clones) does not change what any variable reads as. -/
theorem C54_reads_change_nothing (arc : Bool) (p q : Prog K V) (j : Nat) (t : Tree K V)
    (hj : ((St.start arc).run p).1.reads j t)
    (hq : ∀ c ∈ q.executed (((St.start arc).run p).1.run q).2, (∃ src, c = .look src) ∨ ∃ src, c = .clone src) :
    (((St.start arc).run p).1.run q).1.reads j t := by
  refine C53_snapshot_isolation arc p q j t hj fun c hc => ?_
  rcases hq c hc with ⟨src, rfl⟩ | ⟨src, rfl⟩ <;> simp [Cmd.writes]

/-! ## Non-vacuity -/
section Examples

private def leaf (p : List Nat) (v : Nat) : Tree Nat Nat := ⟨p, some v, []⟩
private def tree0 : Tree Nat Nat := ⟨[1], none, [leaf [2] 20, ⟨[3], some 30, [leaf [4] 40]⟩]⟩

/-- straight line programs -/
private def prog : List (Cmd Nat Nat) → Prog Nat Nat
  | [] => .done
  | c :: cs => .cmd c (fun _ => prog cs)

/-- a lazily loaded tree, a snapshot of it, and a copy of its inner node -/
private def setup : List (Cmd Nat Nat) := [.lazyRoot tree0, .look ⟨0, [1]⟩, .clone ⟨0, []⟩, .clone ⟨0, [1]⟩]
/-- then a deep change of the original, which shares its child vectors with the copies -/
private def change : List (Cmd Nat Nat) := [.setVal ⟨0, [1, 0]⟩ (some 99), .removeKid ⟨0, []⟩ 0, .drop 3]

/-- after `setup` the root's vector is shared by two variables, the inner vector by one variable and the root's vector -/
example : ((St.start false).run (prog setup)).1.heap.cell 0 = some (2, [⟨[2], some 20, .raw []⟩, ⟨[3], some 30, .arc 1⟩]) ∧
    (((St.start false).run (prog setup)).1.heap.rc 1) = 2 := ⟨rfl, rfl⟩

/-- the original has changed … -/
example : (Vars.run [] (prog (setup ++ change))).1[0]? = some (some ⟨[1], none, [⟨[3], some 30, [leaf [4] 99]⟩]⟩) := rfl

/-- … and the hypotheses of snapshot isolation hold for the snapshot in variable 1 -/
example : ((St.start false).run (prog setup)).1.reads 1 tree0 ∧
    ∀ c ∈ (prog change).executed ((((St.start false).run (prog setup)).1).run (prog change)).2, 1 ∉ c.writes := by
  constructor
  · obtain ⟨-, -, -, h⟩ := C53_refines_values false (prog setup)
    exact h 1 tree0 rfl
  · intro c hc
    simp only [prog, change, Prog.executed, St.run] at hc
    simp only [List.mem_cons, List.not_mem_nil, or_false] at hc
    rcases hc with rfl | rfl | rfl <;> simp [Cmd.writes]

/-- so the snapshot still reads as before, in the heap -/
example : (((St.start false).run (prog setup)).1.run (prog change)).1.reads 1 tree0 :=
  C53_snapshot_isolation false (prog setup) (prog change) 1 tree0
    (by obtain ⟨-, -, -, h⟩ := C53_refines_values false (prog setup); exact h 1 tree0 rfl)
    (by
      intro c hc
      simp only [prog, change, Prog.executed, St.run] at hc
      simp only [List.mem_cons, List.not_mem_nil, or_false] at hc
      rcases hc with rfl | rfl | rfl <;> simp [Cmd.writes])

/-- with `ArcRadixTree`, dropping everything leaves the static's allocation (and `C59_no_leak` applies to it) -/
example : ((St.start true).run (prog [.default, .eager false tree0, .clone ⟨1, []⟩, .drop 0, .drop 1, .drop 2])).1.heap.cell 0 = some (1, []) ∧
    ((St.start true).run (prog [.default, .eager false tree0, .clone ⟨1, []⟩, .drop 0, .drop 1, .drop 2])).1.regs = [none, none, none] := ⟨rfl, rfl⟩
end Examples
end Verif.Shared
