import Verif.Spec.RadixDbLate
import Verif.Props.RadixDbShared
/-!
# C72: a rename that took place although it reports an error
-/
namespace Verif.Shared
variable {K V : Type _}

/-- open a database on empty storage, then perform the operations -/
def Db.runLate (ops : List (LateOp K V)) : Option (Db K V × List (List (Obs K V))) :=
  match Db.load [] [] with
  | none => none
  | some d => d.historyLate ops

/-- The memory is fine whatever the file is, the file stands for the durable tree; if the situation is not stale, everything is fine. -/
private structure LateOk (d : Db K V) (s : SpecLate K V) : Prop where
  mem : ∃ nm, DbOk { d with name := nm } { s.db with durable := none }
  file : ∀ t, s.db.durable = some t → FileDen d.name t
  ok : s.stale = false → DbOk d s.db

private theorem DbOk.late {d : Db K V} {σ : SpecDb K V} (b : Bool) (h : DbOk d σ) : LateOk d ⟨σ, b⟩ :=
  ⟨⟨d.name, ⟨h.ok, h.pos, h.map, h.held, (by intro t ht; cases ht), h.static⟩⟩, h.file, fun _ => h⟩

private theorem shows_mem {d : Db K V} {s : SpecLate K V} (h : LateOk d s) : d.shows s.db.vars := by
  obtain ⟨nm, hm⟩ := h.mem
  obtain ⟨F, -, ho⟩ := hm.ok
  refine ⟨ho.regs.len, fun i t ht => ?_, fun i n hn => ?_⟩
  · by_cases hr : ∃ n, d.st.regs[i]? = some (some n)
    · obtain ⟨n, hr⟩ := hr
      obtain ⟨t', ht', hdn⟩ := ho.regs.some hr
      rw [ht] at ht'; cases ht'
      exact ⟨n, hr, hdn⟩
    · exact absurd ht (ho.regs.not_some (fun n hn => hr ⟨n, hn⟩) t)
  · obtain ⟨t, ht, -⟩ := ho.regs.some hn; exact ⟨t, ht⟩

/-- what `vacuum` does to another file -/
private theorem vacuum_name (d : Db K V) (nm : File K V) {n : Node K V} (hn : d.st.regs[0]? = some (some n)) {io d1} (h : ({ d with name := nm } : Db K V).vacuum io = some d1) :
    (io = .ok → d.vacuum io = some d1) ∧ (io ≠ .ok → d.vacuum io = some { d1 with name := d.name } ∧ d1.name = nm) := by
  simp only [Db.vacuum, hn] at h ⊢
  cases hs : serialize d.st.heap 0 [] n with
  | none => simp [hs] at h
  | some r =>
    cases hq : allArcs d.st.heap [] n with
    | none => simp [hs, hq] at h
    | some q =>
      simp only [hs, hq, Option.bind_eq_bind, Option.bind_some] at h ⊢
      cases io with
      | ok => cases h; exact ⟨fun _ => rfl, fun h => absurd rfl h⟩
      | fail k => cases h; exact ⟨(fun h => by cases h), fun _ => ⟨rfl, rfl⟩⟩
      | failMv => cases h; exact ⟨(fun h => by cases h), fun _ => ⟨rfl, rfl⟩⟩

/-- the late error compared with the two plain outcomes -/
private theorem vacuumLate_eq (d : Db K V) {n : Node K V} (hn : d.st.regs[0]? = some (some n)) {d1 d2} (h1 : d.vacuum .failMv = some d1) (h2 : d.vacuum .ok = some d2) :
    d.vacuumLate = some { d1 with name := d2.name, tmp := [] } := by
  simp only [Db.vacuum, hn] at h1 h2
  simp only [Db.vacuumLate, hn]
  cases hs : serialize d.st.heap 0 [] n with
  | none => simp [hs] at h1
  | some r =>
    cases hq : allArcs d.st.heap [] n with
    | none => simp [hs, hq] at h1
    | some q =>
      simp only [hs, hq, Option.bind_eq_bind, Option.bind_some] at h1 h2 ⊢
      cases h1; cases h2; rfl

private theorem var_none {d : Db K V} {s : SpecLate K V} (h : LateOk d s) (hn : ∀ t, s.db.vars[0]? ≠ some (some t)) : ∀ n, d.st.regs[0]? ≠ some (some n) := by
  intro n hr
  obtain ⟨t, ht⟩ := (shows_mem h).2.2 0 n hr
  exact hn t ht

private theorem dbOk_tmp {d : Db K V} {σ : SpecDb K V} (tmp : File K V) (h : DbOk d σ) : DbOk { d with tmp := tmp } σ :=
  ⟨h.ok, h.pos, h.map, h.held, h.file, h.static⟩

private theorem step_late {d : Db K V} {s s' : SpecLate K V} (h : LateOk d s) (op : LateOp K V) {o} (hs : s.step op = some (s', o)) :
    ∃ d', d.stepLate op = some (d', o) ∧ LateOk d' s' := by
  obtain ⟨nm, hm⟩ := h.mem
  -- a standard operation when nothing is stale
  have plain : ∀ (op : DbOp K V) (b : Bool), s.stale = false → s.lift op b = some (s', o) → ∃ d', d.step op = some (d', o) ∧ LateOk d' s' := by
    intro op b hst hl
    simp only [SpecLate.lift] at hl
    cases hx : s.db.step op with
    | none => rw [hx] at hl; cases hl
    | some x =>
      obtain ⟨σ, o'⟩ := x
      rw [hx] at hl; cases hl
      obtain ⟨d', k1, k2, -⟩ := dbStep_ok (h.ok hst) op hx
      exact ⟨d', k1, k2.late b⟩
  cases op with
  | vacuumLate =>
    simp only [SpecLate.step] at hs
    split at hs
    · rename_i t ht
      cases hs
      obtain ⟨n, hn, -⟩ := (shows_mem h).2.1 0 t ht
      obtain ⟨d1, σ1, f1, f2, f3, -⟩ := vacuum_ok hm .failMv
      obtain ⟨d2, σ2, g1, g2, g3, -⟩ := vacuum_ok hm .ok
      simp only [SpecDb.step, ht, Option.some.injEq, Prod.mk.injEq] at f2 g2
      obtain ⟨rfl, -⟩ := f2
      obtain ⟨rfl, -⟩ := g2
      obtain ⟨e1, e2⟩ := (vacuum_name d nm hn f1).2 (by intro h; cases h)
      have e3 := (vacuum_name d nm hn g1).1 rfl
      refine ⟨{ d1 with name := d2.name, tmp := [] }, by simp only [Db.stepLate, vacuumLate_eq d hn e1 e3], ⟨⟨nm, ?_⟩, fun u hu => ?_, fun hb => by cases hb⟩⟩
      · subst e2; exact dbOk_tmp [] f3
      · cases hu; exact g3.file t rfl
    · rename_i hn
      cases hs
      refine ⟨d, ?_, h⟩
      have := var_none h hn
      simp only [Db.stepLate, Db.vacuumLate]
  | std op =>
    cases op with
    | flush io =>
      simp only [SpecLate.step] at hs
      split at hs
      · cases hs
      · rename_i hst
        exact plain _ false (by simpa using hst) hs
    | restart =>
      simp only [SpecLate.step, SpecLate.lift, SpecDb.step] at hs
      cases hd : s.db.durable with
      | none => rw [hd] at hs; cases hs
      | some t =>
        rw [hd] at hs; cases hs
        obtain ⟨d', k1, -, -, -, k2, -⟩ := load_ok d.tmp (h.file t hd)
        exact ⟨d', by simp only [Db.stepLate, Db.step, k1], k2.late false⟩
    | prog p =>
      simp only [SpecLate.step, SpecLate.lift, SpecDb.step] at hs
      cases hs
      obtain ⟨h1, h2⟩ := prog_ok hm p
      refine ⟨{ d with st := (d.st.run p).1 }, ?_, ⟨⟨nm, h1⟩, h.file, fun hst => (prog_ok (h.ok hst) p).1⟩⟩
      simp only [Db.stepLate, Db.step]
      exact congrArg some (Prod.ext rfl h2)
    | vacuum io =>
      by_cases hv : ∃ t, s.db.vars[0]? = some (some t)
      · obtain ⟨t, ht⟩ := hv
        obtain ⟨n, hn, -⟩ := (shows_mem h).2.1 0 t ht
        cases io with
        | ok =>
          simp only [SpecLate.step, ht, SpecLate.lift, SpecDb.step] at hs
          cases hs
          obtain ⟨d2, σ2, g1, g2, g3, -⟩ := vacuum_ok hm .ok
          simp only [SpecDb.step, ht, Option.some.injEq, Prod.mk.injEq] at g2
          obtain ⟨rfl, -⟩ := g2
          refine ⟨d2, ?_, g3.late false⟩
          simp only [Db.stepLate, Db.step, (vacuum_name d nm hn g1).1 rfl]
        | fail k =>
          simp only [SpecLate.step, SpecLate.lift, SpecDb.step, ht] at hs
          cases hs
          obtain ⟨d1, σ1, f1, f2, f3, -⟩ := vacuum_ok hm (.fail k)
          simp only [SpecDb.step, ht, Option.some.injEq, Prod.mk.injEq] at f2
          obtain ⟨rfl, -⟩ := f2
          obtain ⟨e1, e2⟩ := (vacuum_name d nm hn f1).2 (by intro h; cases h)
          refine ⟨{ d1 with name := d.name }, by simp only [Db.stepLate, Db.step, e1], ⟨⟨nm, ?_⟩, h.file, fun hst => ?_⟩⟩
          · subst e2; exact f3
          · obtain ⟨d3, σ3, g1, g2, g3, -⟩ := vacuum_ok (h.ok hst) (.fail k)
            simp only [SpecDb.step, ht, Option.some.injEq, Prod.mk.injEq] at g2
            obtain ⟨rfl, -⟩ := g2
            rw [e1] at g1; cases g1; exact g3
        | failMv =>
          simp only [SpecLate.step, SpecLate.lift, SpecDb.step, ht] at hs
          cases hs
          obtain ⟨d1, σ1, f1, f2, f3, -⟩ := vacuum_ok hm .failMv
          simp only [SpecDb.step, ht, Option.some.injEq, Prod.mk.injEq] at f2
          obtain ⟨rfl, -⟩ := f2
          obtain ⟨e1, e2⟩ := (vacuum_name d nm hn f1).2 (by intro h; cases h)
          refine ⟨{ d1 with name := d.name }, by simp only [Db.stepLate, Db.step, e1], ⟨⟨nm, ?_⟩, h.file, fun hst => ?_⟩⟩
          · subst e2; exact f3
          · obtain ⟨d3, σ3, g1, g2, g3, -⟩ := vacuum_ok (h.ok hst) .failMv
            simp only [SpecDb.step, ht, Option.some.injEq, Prod.mk.injEq] at g2
            obtain ⟨rfl, -⟩ := g2
            rw [e1] at g1; cases g1; exact g3
      · have hv' : ∀ t, s.db.vars[0]? ≠ some (some t) := fun t ht => hv ⟨t, ht⟩
        have hr := var_none h hv'
        have hd : d.vacuum io = some d := by
          simp only [Db.vacuum]
        have hs' : s' = s ∧ o = [] := by
          have key : s.db.step (.vacuum io) = some (s.db, []) := by
            simp only [SpecDb.step]
            split <;> first | rfl | (rename_i hx; exact absurd hx (hv' _))
          cases io with
          | ok =>
            simp only [SpecLate.step] at hs
            cases hs; exact ⟨rfl, rfl⟩
          | fail k => simp only [SpecLate.step, SpecLate.lift, key] at hs; cases hs; exact ⟨rfl, rfl⟩
          | failMv => simp only [SpecLate.step, SpecLate.lift, key] at hs; cases hs; exact ⟨rfl, rfl⟩
        obtain ⟨rfl, rfl⟩ := hs'
        exact ⟨d, by simp only [Db.stepLate, Db.step, hd], h⟩

private theorem history_late : ∀ (ops : List (LateOp K V)) {d : Db K V} {s s' : SpecLate K V} {obs}, LateOk d s → s.history ops = some (s', obs) →
    ∃ d', d.historyLate ops = some (d', obs) ∧ LateOk d' s'
  | [], d, s, s', obs, hd, hs => by
    simp only [SpecLate.history, Option.some.injEq, Prod.mk.injEq] at hs
    obtain ⟨rfl, rfl⟩ := hs
    exact ⟨d, rfl, hd⟩
  | op :: ops, d, s, s', obs, hd, hs => by
    simp only [SpecLate.history] at hs
    split at hs
    · cases hs
    · rename_i s1 o h1
      split at hs
      · cases hs
      · rename_i s2 os h2
        cases hs
        obtain ⟨d1, k1, k2⟩ := step_late hd op h1
        obtain ⟨d2, k3, k4⟩ := history_late ops k2 h2
        exact ⟨d2, by simp only [Db.historyLate, k1, k3], k4⟩

/-- **C72.** A `vacuum` whose rename takes place but reports an error loses nothing: opening the file gives the tree of that moment, the program goes on
undisturbed, and the next successful `vacuum` or a restart makes everything as usual — provided there is no `flush` in between. -/
theorem C72_late_error (ops : List (LateOp K V)) (s : SpecLate K V) (obs : List (List (Obs K V))) (hs : SpecLate.new.history ops = some (s, obs)) :
    ∃ d, Db.runLate ops = some (d, obs) ∧ d.shows s.db.vars ∧
      ∀ t, s.db.durable = some t → ∃ d', Db.load d.name d.tmp = some d' ∧ d'.shows [some t] := by
  obtain ⟨d0, h1, -, -, -, h2, -⟩ := load_ok (K := K) (V := V) (name := []) [] (.inl ⟨rfl, rfl⟩)
  obtain ⟨d, h3, h4⟩ := history_late ops (h2.late false) hs
  refine ⟨d, by simp only [Db.runLate, h1, h3], shows_mem h4, fun t ht => ?_⟩
  obtain ⟨d', k1, -, -, -, k3, -⟩ := load_ok d.tmp (h4.file t ht)
  exact ⟨d', k1, shows_mem (k3.late false)⟩

/-- fill the database, flush twice, vacuum with a late error, flush -/
def lateFlush : List (LateOp Nat Nat) := [.std dbFill, .std (.flush .ok), .std (.flush .ok), .vacuumLate, .std (.flush .ok)]

/-- **C72.** A `flush` after the late error corrupts the file although it reports success: the tree in memory is the right one, opening the file gives
another one. -/
theorem C72_flush_counterexample : ∃ d obs d', Db.runLate lateFlush = some (d, obs) ∧ (∃ n, d.st.regs[0]? = some (some n) ∧ Den d.st.heap n dbTree) ∧
    Db.load d.name d.tmp = some d' ∧ d'.shows [some ⟨[1], none, []⟩] := by
  obtain ⟨d, obs, h1, h2⟩ := Db.testLate_ok (ops := lateFlush) (P := fun d => readsB d.st dbTree && loadsB d.name d.tmp ⟨[1], none, []⟩) (by decide +kernel)
  simp only [Bool.and_eq_true] at h2
  obtain ⟨d', n, k1, k2, k3⟩ := loads_check h2.2
  refine ⟨d, obs, d', ?_, reads_check h2.1, k1, shows_one k2 k3⟩
  simp only [Db.runLate]
  split at h1
  · cases h1
  · rename_i x hx; rw [hx]; exact h1

/-! ## Non-vacuity -/
section Examples
/-- a late error, a change, failing operations, a second late error, then a restart and a `flush` -/
private def lateStory : List (LateOp Nat Nat) :=
  [.std dbFill, .std (.flush .ok), .vacuumLate, .std (.prog (.cmd (.setVal ⟨0, [1]⟩ (some 99)) fun _ => .done)), .std (.vacuum (.fail 1)), .vacuumLate,
   .std .restart, .std (.flush .ok)]
example : ∃ s os, SpecLate.new.history (lateStory.take 5) = some (s, os) ∧ s.stale = true ∧ s.db.durable = some dbTree := ⟨_, _, rfl, rfl, rfl⟩
example : ∃ s os, SpecLate.new.history lateStory = some (s, os) ∧ s.stale = false ∧
    s.db.durable = some ⟨[1], none, [⟨[2], some 20, []⟩, ⟨[3], some 99, []⟩]⟩ := ⟨_, _, rfl, rfl, rfl⟩
end Examples

end Verif.Shared
