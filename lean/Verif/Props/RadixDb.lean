import Verif.Lemmas.RadixDbClosed
import Verif.Props.Shared
/-!
# C56: the append-only database of `examples/radix_db.rs`

`Db.run ops` opens a database on empty storage and performs the operations: arbitrary programs on the tree (and other variables), `flush`
and `vacuum` with every outcome of their I/O, and restarts. `SpecDb.new.history ops` is the specification (`Spec/RadixDb.lean`):
plain trees, and one tree that is durable.
-/
namespace Verif.Shared
variable {K V : Type _}

/-- open a database on empty storage, then perform the operations -/
def Db.run (ops : List (DbOp K V)) : Option (Db K V × List (List (Obs K V))) :=
  match Db.load [] [] with
  | none => none
  | some d => d.history ops

/-- the variables of the database program read as the specification says -/
def Db.shows (d : Db K V) (ts : Vars K V) : Prop :=
  d.st.regs.length = ts.length ∧ (∀ i t, ts[i]? = some (some t) → d.st.reads i t) ∧ (∀ (i : Nat) n, d.st.regs[i]? = some (some n) → ∃ t, ts[i]? = some (some t))

private theorem shows_of {d : Db K V} {σ : SpecDb K V} (hd : DbOk d σ) : d.shows σ.vars := by
  obtain ⟨F, -, ho⟩ := hd.ok
  refine ⟨ho.regs.len, fun i t ht => ?_, fun i n hn => ?_⟩
  · by_cases hr : ∃ n, d.st.regs[i]? = some (some n)
    · obtain ⟨n, hr⟩ := hr
      obtain ⟨t', ht', hdn⟩ := ho.regs.some hr
      rw [ht] at ht'; cases ht'
      exact ⟨n, hr, hdn⟩
    · exact absurd ht (ho.regs.not_some (fun n hn => hr ⟨n, hn⟩) t)
  · obtain ⟨t, ht, -⟩ := ho.regs.some hn; exact ⟨t, ht⟩

private theorem reached {ops : List (DbOp K V)} {σ : SpecDb K V} {obs} (hs : SpecDb.new.history ops = some (σ, obs)) :
    ∃ d, Db.run ops = some (d, obs) ∧ DbOk d σ ∧ (arcOps ops → d.loaded) := by
  obtain ⟨d0, h1, -, -, -, h2, h2'⟩ := load_ok (K := K) (V := V) (name := []) [] (.inl ⟨rfl, rfl⟩)
  obtain ⟨d, h3, h4, h5⟩ := dbHistory_ok ops h2 hs
  exact ⟨d, by simp only [Db.run, h1, h3], h4, h5 h2'⟩

private theorem reached' {ops : List (DbOp K V)} {σ : SpecDb K V} {d : Db K V} {obs obs'} (hs : SpecDb.new.history ops = some (σ, obs))
    (hd : Db.run ops = some (d, obs')) : DbOk d σ := by
  obtain ⟨d', h1, h2, -⟩ := reached hs
  rw [hd] at h1; cases h1; exact h2

private theorem reachedLoaded {ops : List (DbOp K V)} {σ : SpecDb K V} {d : Db K V} {obs obs'} (hs : SpecDb.new.history ops = some (σ, obs))
    (hd : Db.run ops = some (d, obs')) (ha : arcOps ops) : d.st.loaded := by
  obtain ⟨d', h1, -, h2⟩ := reached hs
  rw [hd] at h1; cases h1; exact h2 ha

private theorem nodup_positions {α : Type _} {q : α → Bool} : ∀ {l : List α} {ps : List Nat}, ps.Nodup → (∀ p ∈ ps, ∃ a, l[p]? = some a ∧ q a = true) →
    ps.length ≤ l.countP q
  | [], ps, _, h => by
    cases ps with
    | nil => simp
    | cons p ps => obtain ⟨a, h1, -⟩ := h p (List.mem_cons_self ..); simp at h1
  | x :: l, ps, hn, h => by
    have h1 : ((ps.filter (· ≠ 0)).map (· - 1)).length ≤ l.countP q := by
      refine nodup_positions ?_ ?_
      · refine List.Pairwise.map _ ?_ (List.Pairwise.and_mem.1 (hn.filter (fun x => decide (x ≠ 0))))
        rintro a b ⟨ha, hb, hne⟩ e
        simp only [List.mem_filter, ne_eq, decide_eq_true_eq] at ha hb
        omega
      · intro p hp
        obtain ⟨p', hp', rfl⟩ := List.mem_map.1 hp
        simp only [List.mem_filter, ne_eq, decide_eq_true_eq] at hp'
        obtain ⟨a, k1, k2⟩ := h p' hp'.1
        obtain ⟨m, rfl⟩ : ∃ m, p' = m + 1 := ⟨p' - 1, by omega⟩
        exact ⟨a, by simpa using k1, k2⟩
    rw [List.length_map] at h1
    have h2 : ps.length = (ps.filter (· ≠ 0)).length + ps.count 0 := by
      rw [← List.countP_eq_length_filter, List.count, List.length_eq_countP_add_countP (fun x => decide (x ≠ 0))]
      congr 1
      refine List.countP_congr fun a _ => ?_
      simp
    have h3 : ps.count 0 ≤ 1 := List.nodup_iff_count.1 hn 0
    rw [List.countP_cons]
    by_cases h0 : 0 ∈ ps
    · obtain ⟨a, k1, k2⟩ := h 0 h0
      simp at k1; subst k1
      rw [if_pos k2]; omega
    · have : ps.count 0 = 0 := List.count_eq_zero.2 h0
      omega

/-- **C56.** Every history of a database — any programs, flushes and vacuums with any outcome, restarts — runs without getting stuck
(no dangling address, no duplicate registration, no invalid pointer in the file), the programs observe exactly what the
specification says, the variables read as the specification says, and opening the file again gives the durable tree. -/
theorem C56_history (ops : List (DbOp K V)) (σ : SpecDb K V) (obs : List (List (Obs K V)))
    (hs : SpecDb.new.history ops = some (σ, obs)) :
    ∃ d, Db.run ops = some (d, obs) ∧ d.shows σ.vars ∧
      ∀ t, σ.durable = some t → FileDen d.name t ∧
        ∃ d', Db.load d.name d.tmp = some d' ∧ d'.shows [some t] ∧ d'.name = d.name := by
  obtain ⟨d, h1, h2, -⟩ := reached hs
  refine ⟨d, h1, shows_of h2, fun t ht => ⟨h2.file t ht, ?_⟩⟩
  obtain ⟨d', k1, k2, -, -, k3, -⟩ := load_ok d.tmp (h2.file t ht)
  exact ⟨d', k1, shows_of k3, k2⟩

/-- **C56.** Crash safety of `vacuum`: whatever was done before, if the process dies in `vacuum` — while or after writing the temporary file,
or after the move — the restarted database has the old durable tree or, if the move was done, the current one. -/
theorem C56_vacuum_crash (ops : List (DbOp K V)) (σ : SpecDb K V) (obs) (hs : SpecDb.new.history ops = some (σ, obs))
    (t u : Tree K V) (ht : σ.vars[0]? = some (some t)) (hu : σ.durable = some u) (io : VacuumIo) :
    ∃ d os, Db.run (ops ++ [.vacuum io, .restart]) = some (d, os) ∧ d.shows [some (io.left t u)] := by
  have happ : ∀ (xs ys : List (DbOp K V)) (s : SpecDb K V), s.history (xs ++ ys) =
      match s.history xs with
      | none => none
      | some (s', o) => match s'.history ys with | none => none | some (s'', o') => some (s'', o ++ o') := by
    intro xs ys
    induction xs with
    | nil => intro s; simp only [List.nil_append, SpecDb.history]; split <;> simp_all
    | cons x xs ih =>
      intro s
      simp only [List.cons_append, SpecDb.history]
      cases hx : s.step x with
      | none => rfl
      | some y =>
        simp only [ih y.1]
        cases hy : y.1.history xs with
        | none => rfl
        | some z =>
          simp only []
          cases hz : z.1.history ys <;> simp
  have : ∃ os, SpecDb.new.history (ops ++ [.vacuum io, .restart]) =
      some ({ vars := [some (io.left t u)], durable := some (io.left t u) }, os) := by
    rw [happ, hs]
    cases io <;> simp [SpecDb.history, SpecDb.step, ht, hu, VacuumIo.left]
  obtain ⟨os, h1⟩ := this
  obtain ⟨d, h2, h3, -⟩ := C56_history _ _ _ h1
  exact ⟨d, os, h2, h3⟩

/-- **C56.** Crash in the `append` of `flush`: there is a chunk length `len > 0` such that, if nothing was written, the file still holds the
durable tree; if all of it was written, the current tree; *and if only a part was written, the file cannot be opened* —
`flush` relies on the storage to append atomically. -/
theorem C56_flush_crash (ops : List (DbOp K V)) (σ : SpecDb K V) (d : Db K V) (obs obs') (hs : SpecDb.new.history ops = some (σ, obs))
    (hd : Db.run ops = some (d, obs')) (t u : Tree K V) (ht : σ.vars[0]? = some (some t)) (hu : σ.durable = some u) :
    ∃ len, 0 < len ∧ ∀ k, ∃ d', d.flush (.fail k) = some d' ∧
      (k = 0 → ∃ d'', Db.load d'.name d'.tmp = some d'' ∧ d''.shows [some u]) ∧
      (0 < k → k < len → Db.load d'.name d'.tmp = none) ∧
      (len ≤ k → ∃ d'', Db.load d'.name d'.tmp = some d'' ∧ d''.shows [some t]) := by
  have hok := reached' hs hd
  obtain ⟨F, hF, ho⟩ := hok.ok
  rcases var0 ho with ⟨n, t', hn, ht', hden⟩ | ⟨-, hno⟩
  · rw [ht] at ht'; cases ht'
    obtain ⟨map', vecs, a, e1, e2, e3, e4, e5, e6, e7, e8, e9⟩ := serialize_ok (Db.body_length hok.pos) hden hok.map
    refine ⟨(vecs ++ [Slot.root a]).length, by simp, fun k => ?_⟩
    obtain ⟨d', σ', f1, f2, f3, -⟩ := flush_ok hok (.fail k)
    have hname : d'.name = d.name ++ (vecs ++ [Slot.root a]).take k := by
      have e1' : serialize d.st.heap d.pos (d.ser.getD ([], [])).1 n = some (map', vecs ++ [.root a]) := e1
      simp only [Db.flush, hn, e1', Option.bind_eq_bind, Option.bind_some] at f1
      cases hq : allArcs d.st.heap (d.ser.getD ([], [])).2 n with
      | none => rw [hq] at f1; cases f1
      | some q => rw [hq] at f1; cases f1; rfl
    refine ⟨d', f1, ?_, ?_, ?_⟩
    · rintro rfl
      simp only [SpecDb.step, ht, Option.some.injEq, Prod.mk.injEq] at f2
      obtain ⟨rfl, -⟩ := f2
      obtain ⟨d'', k1, -, -, -, k3, -⟩ := load_ok d'.tmp (f3.file u hu)
      exact ⟨d'', k1, shows_of k3⟩
    · intro h1 h2
      simp only [List.length_append, List.length_singleton] at h2
      have htake : (vecs ++ [Slot.root a]).take k = vecs.take k := List.take_append_of_le_length (by omega)
      have hne : vecs.take k ≠ [] := by
        intro h
        have : (vecs.take k).length = 0 := by rw [h]; rfl
        rw [List.length_take] at this; omega
      have hlast : ∃ as, d'.name.getLast? = some (.vec as) := by
        rw [hname, htake, List.getLast?_append]
        cases hx : (vecs.take k).getLast? with
        | none => exact absurd (List.getLast?_eq_none_iff.1 hx) hne
        | some s =>
          obtain ⟨as, hs⟩ := e2 s (List.mem_of_mem_take (List.mem_of_getLast? hx))
          exact ⟨as, by simp [hs]⟩
      obtain ⟨as, hlast⟩ := hlast
      simp only [Db.load, hlast]
    · intro hle
      rw [List.take_of_length_le hle] at hname
      have hb := Db.body_length hok.pos
      have hfd : FileDen d'.name t := by
        have := fileDen_of (junk := d.name.take (d.name.length - d.pos)) (body := d.body) (vecs := vecs) e6 e7 (by rw [hb]; exact e8) (by rw [hb]; exact e9)
        simp only [Db.body] at this
        rw [← List.append_assoc, List.take_append_drop] at this
        rw [hname]; exact this
      obtain ⟨d'', k1, -, -, -, k3, -⟩ := load_ok d'.tmp hfd
      exact ⟨d'', k1, shows_of k3⟩
  · exact absurd ht (hno t)

/-- **C56.** The registry is sound in every reachable state: each registered address is allocated (so it cannot be handed out again by the
allocator), the database itself holds one of its references (so `Arc::make_mut` never changes it in place), and the file has at
the registered position, counted in its last `pos` slots, exactly the trees that the vector holds. -/
theorem C56_registry_sound (ops : List (DbOp K V)) (σ : SpecDb K V) (d : Db K V) (obs obs') (hs : SpecDb.new.history ops = some (σ, obs))
    (hd : Db.run ops = some (d, obs')) (map : List (Nat × Nat)) (arcs : List Nat) (hser : d.ser = some (map, arcs)) (id p : Nat) (hx : (id, p) ∈ map) :
    id ∈ arcs ∧ ∃ r ns us, d.st.heap.cell id = some (r, ns) ∧ Dens d.st.heap ns us ∧
      ADen (d.name.drop (d.name.length - d.pos)) p us ∧
      r = refs id (arcs.map (holder (K := K) (V := V))) + refs id (d.st.roots []) + d.st.heap.total id := by
  have hok := reached' hs hd
  have hm : d.map = map := by simp [Db.map, hser]
  have ha : d.arcs = arcs := by simp [Db.arcs, hser]
  refine ⟨by rw [← ha]; exact hok.held id p (by rw [hm]; exact hx), ?_⟩
  obtain ⟨r, ns, us, h1, h2, h3⟩ := hok.map id p (by rw [hm]; exact hx)
  refine ⟨r, ns, us, h1, h2, h3, ?_⟩
  have := hok.wf.exact id
  rw [refs_append, ha] at this
  have hr : d.st.heap.rc id = r := by simp [Heap.rc, h1]
  omega

/-- **C56.** The database leaks nothing: every live allocation can be reached from a variable, from the static, or from the `Arc`s the
registry holds. -/
theorem C56_no_leak (ops : List (DbOp K V)) (σ : SpecDb K V) (d : Db K V) (obs obs') (hs : SpecDb.new.history ops = some (σ, obs))
    (hd : Db.run ops = some (d, obs')) (id : Nat) (c) (hc : d.st.heap.cell id = some c) :
    ∃ F : List (Node K V × Tree K V), F.map Prod.fst = (d.ser.getD ([], [])).2.map holder ∧ Reach d.st F id := by
  obtain ⟨F, hF, ho⟩ := (reached' hs hd).ok
  exact ⟨F, hF, no_leak ho hc⟩

private theorem reachedClosed {ops : List (DbOp K V)} {σ : SpecDb K V} {d : Db K V} {obs obs'} (hs : SpecDb.new.history ops = some (σ, obs))
    (hd : Db.run ops = some (d, obs')) (ha : arcOps ops) : d.closed := by
  obtain ⟨d0, h1, -, -, -, h2, h2'⟩ := load_ok (K := K) (V := V) (name := []) [] (.inl ⟨rfl, rfl⟩)
  have h3 := (load_closed (.inl ⟨rfl, rfl⟩) h1).1
  simp only [Db.run, h1] at hd
  exact dbHistory_closed ops h2 h2' h3 ha hs hd

private theorem flush_new {d d' : Db K V} {σ : SpecDb K V} (hok : DbOk d σ) (hl : d.st.loaded) (hc : d.closed) {n : Node K V}
    (hn : d.st.regs[0]? = some (some n)) (hf : d.flush .ok = some d') :
    ∃ new : List Nat, new.Nodup ∧ (∀ id, id ∈ new ↔ NReach d.st.heap n id ∧ ∀ p, (id, p) ∉ (d.ser.getD ([], [])).1) ∧
      ∃ chunk, d'.name = d.name ++ chunk ∧ chunk.length = new.length + 1 := by
  have hr := noRaw_of hl hn
  obtain ⟨F, hF, ho⟩ := hok.ok
  obtain ⟨t, -, hden⟩ := ho.regs.some hn
  obtain ⟨map', vecs, a, e1, -⟩ := serialize_ok (Db.body_length hok.pos) hden hok.map
  obtain ⟨news, g1, g2, g3, g4, g5, -⟩ := serialize_grow hden e1
  have e1' : serialize d.st.heap d.pos (d.ser.getD ([], [])).1 n = some (map', vecs ++ [.root a]) := e1
  refine ⟨news.map Prod.fst, g2, fun id => ⟨fun hid => ?_, fun hid => ?_⟩, vecs ++ [.root a], ?_, by rw [g4 hr, List.length_map]⟩
  · obtain ⟨x, hx, rfl⟩ := List.mem_map.1 hid
    refine ⟨(g3 x hx).2, fun p hp => ?_⟩
    have := (g3 x hx).1
    rw [List.lookup_eq_none_iff] at this
    have := this _ hp
    simp at this
  · obtain ⟨q, hq⟩ := g5 hc id hid.1
    rw [g1] at hq
    rcases List.mem_append.1 hq with hq | hq
    · exact List.mem_map.2 ⟨_, hq, rfl⟩
    · exact absurd hq (hid.2 q)
  · simp only [Db.flush, hn, e1', Option.bind_eq_bind, Option.bind_some] at hf
    cases hq : allArcs d.st.heap (d.ser.getD ([], [])).2 n with
    | none => rw [hq] at hf; cases hf
    | some q => rw [hq] at hf; cases hf; rfl

/-- **C56.** `flush` is incremental: it appends the root and exactly one slot for each child vector that is reachable from the tree and was not
registered before. (`arcOps`: the programs are programs on `ArcRadixTree`, as the database is declared.) -/
theorem C56_flush_incremental (ops : List (DbOp K V)) (σ : SpecDb K V) (d d' : Db K V) (obs obs') (hs : SpecDb.new.history ops = some (σ, obs))
    (hd : Db.run ops = some (d, obs')) (ha : arcOps ops) (n : Node K V) (hn : d.st.regs[0]? = some (some n)) (hf : d.flush .ok = some d') :
    ∃ new : List Nat, new.Nodup ∧ (∀ id, id ∈ new ↔ NReach d.st.heap n id ∧ ∀ p, (id, p) ∉ (d.ser.getD ([], [])).1) ∧
      ∃ chunk, d'.name = d.name ++ chunk ∧ chunk.length = new.length + 1 :=
  flush_new (reached' hs hd) (reachedLoaded hs hd ha) (reachedClosed hs hd ha) hn hf

private theorem history_append (xs ys : List (DbOp K V)) (s : SpecDb K V) : s.history (xs ++ ys) =
    match s.history xs with
    | none => none
    | some (s', o) => match s'.history ys with | none => none | some (s'', o') => some (s'', o ++ o') := by
  induction xs generalizing s with
  | nil => simp only [List.nil_append, SpecDb.history]; split <;> simp_all
  | cons x xs ih =>
    simp only [List.cons_append, SpecDb.history]
    cases hx : s.step x with
    | none => rfl
    | some y =>
      simp only [ih y.1]
      cases hy : y.1.history xs with
      | none => rfl
      | some z =>
        simp only []
        cases hz : z.1.history ys <;> simp

private theorem db_history_append (xs ys : List (DbOp K V)) (s : Db K V) : s.history (xs ++ ys) =
    match s.history xs with
    | none => none
    | some (s', o) => match s'.history ys with | none => none | some (s'', o') => some (s'', o ++ o') := by
  induction xs generalizing s with
  | nil => simp only [List.nil_append, Db.history]; split <;> simp_all
  | cons x xs ih =>
    simp only [List.cons_append, Db.history]
    cases hx : s.step x with
    | none => rfl
    | some y =>
      simp only [ih y.1]
      cases hy : y.1.history xs with
      | none => rfl
      | some z =>
        simp only []
        cases hz : z.1.history ys <;> simp

/-- the last operation before a state -/
private theorem split_last {ops : List (DbOp K V)} {op : DbOp K V} {σ : SpecDb K V} {d : Db K V} {obs obs'}
    (hs : SpecDb.new.history (ops ++ [op]) = some (σ, obs)) (hd : Db.run (ops ++ [op]) = some (d, obs')) :
    ∃ σ0 d0 o0 o0' o, SpecDb.new.history ops = some (σ0, o0) ∧ Db.run ops = some (d0, o0') ∧ d0.step op = some (d, o) ∧ ∃ o', σ0.step op = some (σ, o') := by
  rw [history_append] at hs
  split at hs
  · cases hs
  · rename_i σ0 o0 h0
    obtain ⟨d0, k1, -, -⟩ := reached h0
    have k1' := k1
    simp only [Db.run] at hd k1
    split at hd
    · cases hd
    · rename_i e hl
      rw [hl] at k1
      simp only at k1
      rw [db_history_append, k1] at hd
      simp only at hd
      split at hd
      · cases hd
      · rename_i d1 o1 h1
        cases hd
        simp only [Db.history] at h1
        split at h1
        · cases h1
        · rename_i d2 o2 h2
          cases h1
          split at hs
          · cases hs
          · rename_i σ1 o3 h3
            cases hs
            simp only [SpecDb.history] at h3
            split at h3
            · cases h3
            · rename_i h4
              cases h3
              exact ⟨σ0, d0, o0, _, _, h0, k1', h2, _, h4⟩

/-- **C56.** Only what changed is written: if a program runs between a successful save (or a restart from a non-empty file) and a `flush`, then
the `flush` appends the root and one slot for each of some distinct child vectors that were not part of the tree at the save. In
particular nothing that was in the file before a restart is written again. -/
theorem C56_flush_changed (ops : List (DbOp K V)) (save : DbOp K V) (σ : SpecDb K V) (d0 d1 d2 : Db K V) (obs obs')
    (hs : SpecDb.new.history (ops ++ [save]) = some (σ, obs)) (hd : Db.run (ops ++ [save]) = some (d0, obs')) (ha : arcOps (ops ++ [save]))
    (hsave : save = .flush .ok ∨ save = .vacuum .ok ∨ (save = .restart ∧ d0.name ≠ []))
    (n0 n1 : Node K V) (hn0 : d0.st.regs[0]? = some (some n0)) (p : Prog K V) (hp : p.arcOnly) (o) (h1 : d0.step (.prog p) = some (d1, o))
    (hn1 : d1.st.regs[0]? = some (some n1)) (h2 : d1.flush .ok = some d2) :
    ∃ new : List Nat, new.Nodup ∧ (∀ id ∈ new, NReach d1.st.heap n1 id ∧ ¬ NReach d0.st.heap n0 id) ∧
      ∃ chunk, d2.name = d1.name ++ chunk ∧ chunk.length = new.length + 1 := by
  have hok0 := reached' hs hd
  have hl0 := reachedLoaded hs hd ha
  have hc0 := reachedClosed hs hd ha
  have hsaved : d0.saved := by
    obtain ⟨σ', d', o1, o2, o3, k1, k2, k3, o4, k4⟩ := split_last hs hd
    have hok' := reached' k1 k2
    have hc' := reachedClosed k1 k2 (fun q hq => ha q (List.mem_append_left _ hq))
    rcases hsave with rfl | rfl | ⟨rfl, hne⟩
    · simp only [Db.step] at k3
      split at k3
      · rename_i e he; cases k3; exact (flush_closed hok' hc' he).2 rfl
      · cases k3
    · simp only [Db.step] at k3
      split at k3
      · rename_i e he; cases k3; exact (vacuum_closed hok' hc' he).2 rfl
      · cases k3
    · simp only [Db.step] at k3
      split at k3
      · rename_i e he
        cases k3
        simp only [SpecDb.step] at k4
        split at k4
        · rename_i t ht
          have hn : d0.name = d'.name := by
            obtain ⟨e', l1, l2, -⟩ := load_ok d'.tmp (hok'.file t ht)
            rw [he] at l1; cases l1; exact l2
          exact ((load_closed (hok'.file t ht) he).2 (by rw [← hn]; exact hne)).1
        · cases k4
      · cases k3
  simp only [Db.step, Option.some.injEq, Prod.mk.injEq] at h1
  obtain ⟨rfl, -⟩ := h1
  have hok1 := (prog_ok hok0 p).1
  have hl1 := (run_loaded p hl0 hok0.static hp).1
  have hc1 := prog_closed hok0 hl0 hc0 hp
  obtain ⟨new, m1, m2, m3⟩ := flush_new hok1 hl1 hc1 hn1 h2
  refine ⟨new, m1, fun id hid => ⟨((m2 id).1 hid).1, fun hr => ?_⟩, m3⟩
  obtain ⟨q, hq⟩ := hsaved n0 hn0 id hr
  exact ((m2 id).1 hid).2 q hq

/-- **C56.** Opening a non-empty file restores the sharing: the loaded tree has at most as many child vectors as the file has archived vectors (a vector
that is referenced several times in the file is loaded once), and a `flush` right after opening appends only the root. -/
theorem C56_load_shares (ops : List (DbOp K V)) (σ : SpecDb K V) (d d' : Db K V) (obs obs') (hs : SpecDb.new.history ops = some (σ, obs))
    (hd : Db.run ops = some (d, obs')) (t : Tree K V) (ht : σ.durable = some t) (hne : d.name ≠ []) (hl : Db.load d.name d.tmp = some d') :
    (∃ n, d'.st.regs[0]? = some (some n) ∧ ∃ live : List Nat, live.Nodup ∧ (∀ id, id ∈ live ↔ NReach d'.st.heap n id) ∧
      live.length ≤ d.name.countP (fun s => match s with | .vec _ => true | .root _ => false)) ∧
    ∃ d'' a, d'.flush .ok = some d'' ∧ d''.name = d'.name ++ [.root a] := by
  have hok := reached' hs hd
  obtain ⟨e, l1, l2, -, -, hok', hl'⟩ := load_ok d.tmp (hok.file t ht)
  rw [hl] at l1; cases l1
  obtain ⟨c0, c⟩ := load_closed (hok.file t ht) hl
  obtain ⟨c1, c2, c3, c4⟩ := c hne
  obtain ⟨n, hn, -⟩ := (shows_of hok').2.1 0 t rfl
  refine ⟨⟨n, hn, d'.map.map Prod.fst, c2, fun id => ⟨fun hid => ?_, fun hid => ?_⟩, ?_⟩, ?_⟩
  · obtain ⟨x, hx, rfl⟩ := List.mem_map.1 hid; exact (c4 n hn _ _ hx).1
  · obtain ⟨q, hq⟩ := c1 n hn id hid
    exact List.mem_map.2 ⟨_, hq, rfl⟩
  · rw [List.length_map, ← List.length_map (f := Prod.snd)]
    exact nodup_positions c3 (fun p hp => by
      obtain ⟨x, hx, rfl⟩ := List.mem_map.1 hp
      obtain ⟨as, h⟩ := (c4 n hn _ _ hx).2
      exact ⟨_, h, rfl⟩)
  · obtain ⟨d'', _, f1, -⟩ := flush_ok hok' .ok
    obtain ⟨new, m1, m2, chunk, m3, m4⟩ := flush_new hok' hl' c0 hn f1
    have : new = [] := by
      cases new with
      | nil => rfl
      | cons x xs =>
        obtain ⟨k1, k2⟩ := (m2 x).1 (List.mem_cons_self ..)
        obtain ⟨q, hq⟩ := c1 n hn x k1
        exact absurd hq (k2 q)
    subst this
    obtain ⟨id, hk⟩ := loaded_reg hl' hn
    obtain ⟨q, hq⟩ := c1 n hn id (.here hk)
    obtain ⟨q', hq'⟩ : ∃ q', d'.map.lookup id = some q' := by
      have : (d'.map.lookup id).isSome := by rw [List.lookup_isSome_iff]; exact ⟨_, hq, by simp⟩
      exact Option.isSome_iff_exists.1 this
    have e1 := serialize_registered (h := d'.st.heap) (base := d'.pos) hk hq'
    have e1' : serialize d'.st.heap d'.pos (d'.ser.getD ([], [])).1 n = some (d'.map, [.root ⟨n.pre, n.val, d'.pos - q'⟩]) := e1
    refine ⟨d'', ⟨n.pre, n.val, d'.pos - q'⟩, f1, ?_⟩
    · simp only [Db.flush, hn, e1', Option.bind_eq_bind, Option.bind_some] at f1
      cases hA : allArcs d'.st.heap (d'.ser.getD ([], [])).2 n with
      | none => rw [hA] at f1; cases f1
      | some y => rw [hA] at f1; cases f1; rfl

/-- **C56.** A second `flush` with no change in between appends only the root. -/
theorem C56_flush_twice (ops : List (DbOp K V)) (σ : SpecDb K V) (d d' d'' : Db K V) (obs obs') (hs : SpecDb.new.history ops = some (σ, obs))
    (hd : Db.run ops = some (d, obs')) (ha : arcOps ops) (n : Node K V) (hn : d.st.regs[0]? = some (some n))
    (h1 : d.flush .ok = some d') (h2 : d'.flush .ok = some d'') : ∃ a, d''.name = d'.name ++ [.root a] := by
  obtain ⟨id, hk⟩ := loaded_reg (reachedLoaded hs hd ha) hn
  have hok := reached' hs hd
  obtain ⟨F, hF, ho⟩ := hok.ok
  obtain ⟨t, -, hden⟩ := ho.regs.some hn
  obtain ⟨map', vecs, a, e1, e2, e3, e4, e5, -⟩ := serialize_ok (Db.body_length hok.pos) hden hok.map
  obtain ⟨q, hq⟩ := e5 id hk
  have e1' : serialize d.st.heap d.pos (d.ser.getD ([], [])).1 n = some (map', vecs ++ [.root a]) := e1
  simp only [Db.flush, hn, e1', Option.bind_eq_bind, Option.bind_some] at h1
  cases hA : allArcs d.st.heap (d.ser.getD ([], [])).2 n with
  | none => rw [hA] at h1; cases h1
  | some x =>
    rw [hA] at h1
    simp only [Option.bind_some, Option.some.injEq] at h1
    subst h1
    simp only [Db.flush, hn, Option.getD_some, serialize_registered hk hq, Option.bind_eq_bind, Option.bind_some] at h2
    cases hB : allArcs x.1 x.2 n with
    | none => rw [hB] at h2; cases h2
    | some y => rw [hB] at h2; cases h2; exact ⟨_, rfl⟩

/-- **C56.** `vacuum` collects garbage: if no temporary file is left over, the new file consists of one slot for every child vector that is
reachable from the tree, each exactly once, and the root. -/
theorem C56_vacuum_minimal (ops : List (DbOp K V)) (σ : SpecDb K V) (d d' : Db K V) (obs obs') (hs : SpecDb.new.history ops = some (σ, obs))
    (hd : Db.run ops = some (d, obs')) (ha : arcOps ops) (htmp : d.tmp = []) (n : Node K V) (hn : d.st.regs[0]? = some (some n))
    (hf : d.vacuum .ok = some d') :
    ∃ live : List Nat, live.Nodup ∧ (∀ id, id ∈ live ↔ NReach d.st.heap n id) ∧ d'.name.length = live.length + 1 ∧ d'.tmp = [] := by
  have hr := noRaw_of (reachedLoaded hs hd ha) hn
  have hok := reached' hs hd
  obtain ⟨F, hF, ho⟩ := hok.ok
  obtain ⟨t, -, hden⟩ := ho.regs.some hn
  obtain ⟨map', vecs, a, e1, -⟩ := serialize_ok (body := []) (base := 0) rfl hden (map := []) (by intro id p h; cases h)
  obtain ⟨news, g1, g2, g3, g4, g5, -⟩ := serialize_grow hden e1
  rw [List.append_nil] at g1
  subst g1
  simp only [Db.vacuum, hn, e1, Option.bind_eq_bind, Option.bind_some] at hf
  cases hq : allArcs d.st.heap [] n with
  | none => rw [hq] at hf; cases hf
  | some q =>
    rw [hq] at hf
    simp only [Option.bind_some, Option.some.injEq] at hf
    subst hf
    refine ⟨map'.map Prod.fst, g2, fun id => ⟨fun hid => ?_, fun hid => ?_⟩, ?_, rfl⟩
    · obtain ⟨x, hx, rfl⟩ := List.mem_map.1 hid; exact (g3 x hx).2
    · obtain ⟨q, hq⟩ := g5 (by intro id p h; cases h) id hid
      exact List.mem_map.2 ⟨(id, q), hq, rfl⟩
    · rw [htmp, List.nil_append, g4 hr, List.length_map]

/-! ## Non-vacuity -/
section Examples
private def lf (p : List Nat) (v : Nat) : Tree Nat Nat := ⟨p, some v, []⟩
private def prog' : List (Cmd Nat Nat) → Prog Nat Nat
  | [] => .done
  | c :: cs => .cmd c (fun _ => prog' cs)
/-- put a tree with shared parts into `db.tree`, keep a snapshot in variable 2 -/
private def fill : DbOp Nat Nat := .prog (prog' [.eager false ⟨[1], none, [lf [2] 20, ⟨[3], some 30, [lf [4] 40]⟩]⟩, .swap ⟨0, []⟩ 1, .drop 1, .clone ⟨0, []⟩])
/-- a deep change of `db.tree` -/
private def edit : DbOp Nat Nat := .prog (prog' [.setVal ⟨0, [1, 0]⟩ (some 99)])
private def edited : Tree Nat Nat := ⟨[1], none, [lf [2] 20, ⟨[3], some 30, [lf [4] 99]⟩]⟩
private def filled : Tree Nat Nat := ⟨[1], none, [lf [2] 20, ⟨[3], some 30, [lf [4] 40]⟩]⟩

/-- flush, change, fail to vacuum, restart: the flushed tree is back; then a torn flush healed by the next flush, then a restart -/
private def story : List (DbOp Nat Nat) := [fill, .flush .ok, edit, .vacuum (.fail 2), .vacuum .failMv, .restart, edit, .flush (.fail 1), .flush .ok, .restart]

example : ∃ obs, SpecDb.new.history (story.take 6) = some ({ vars := [some filled], durable := some filled }, obs) := ⟨_, rfl⟩
example : ∃ obs, SpecDb.new.history story = some ({ vars := [some edited], durable := some edited }, obs) := ⟨_, rfl⟩

/-- so the database does all this and shows the edited tree -/
example : ∃ d obs, Db.run story = some (d, obs) ∧ d.shows [some edited] := by
  obtain ⟨d, h1, h2, -⟩ := C56_history story _ _ rfl
  exact ⟨d, _, h1, h2⟩

/-- after the torn flush and before the healing one, nothing is promised -/
example : ∃ σ obs, SpecDb.new.history (story.take 8) = some (σ, obs) ∧ σ.durable = none := ⟨_, _, rfl, rfl⟩

/-- the hypotheses of the crash theorems are met after `fill, flush, edit` with different durable and current trees -/
example : ∃ σ obs d obs', SpecDb.new.history (story.take 3) = some (σ, obs) ∧ Db.run (story.take 3) = some (d, obs') ∧
    σ.vars[0]? = some (some edited) ∧ σ.durable = some filled := by
  obtain ⟨d, h1, -⟩ := C56_history (story.take 3) _ _ rfl
  exact ⟨_, _, d, _, rfl, h1, rfl, rfl⟩

/-- the history is one of `ArcRadixTree` programs, `flush` and `vacuum` succeed after it and there is a tree in variable 0 -/
example : arcOps story ∧ arcOps [fill, edit] := by
  have hp : ∀ cs : List (Cmd Nat Nat), (∀ c ∈ cs, ∀ t, c ≠ .lazyRoot t) → (prog' cs).arcOnly := by
    intro cs
    induction cs with
    | nil => intro _; exact .done
    | cons c cs ih => intro h; exact .cmd (h c (by simp)) (fun _ => ih fun c hc => h c (by simp [hc]))
  constructor
  all_goals
    intro p h
    simp only [story, fill, edit, List.mem_cons, List.not_mem_nil, or_false, DbOp.prog.injEq, reduceCtorEq, false_or] at h
  · rcases h with rfl | rfl | rfl <;> exact hp _ (by simp)
  · rcases h with rfl | rfl <;> exact hp _ (by simp)
example : ∃ d obs n d' d'' d''', Db.run [fill, edit] = some (d, obs) ∧ d.tmp = [] ∧ d.st.regs[0]? = some (some n) ∧ d.flush .ok = some d' ∧
    d'.flush .ok = some d'' ∧ d.vacuum .ok = some d''' := by
  obtain ⟨d, h1, h2, -⟩ := C56_history [fill, edit] _ _ rfl
  have hok : DbOk d _ := reached' rfl h1
  obtain ⟨d', _, f1, -, f2, -⟩ := flush_ok hok .ok
  obtain ⟨d'', _, f3, -, -⟩ := flush_ok f2 .ok
  obtain ⟨d''', _, v1, -, -⟩ := vacuum_ok hok .ok
  obtain ⟨n, hn, -⟩ := h2.2.1 0 edited rfl
  have ht : d.tmp = [] := by cases h1; rfl
  exact ⟨d, _, n, d', d'', d''', h1, ht, hn, f1, f3, v1⟩
/-- the hypotheses of `C56_flush_changed` (with the program of `edit`) and of `C56_load_shares` are met after `fill, flush` -/
example : ∃ σ obs d0 n0 d1 n1 d2 o d', SpecDb.new.history ([fill] ++ [.flush .ok]) = some (σ, obs) ∧ Db.run ([fill] ++ [.flush .ok]) = some (d0, obs) ∧
    d0.st.regs[0]? = some (some n0) ∧ d0.step edit = some (d1, o) ∧ d1.st.regs[0]? = some (some n1) ∧ d1.flush .ok = some d2 ∧
    σ.durable = some filled ∧ d0.name ≠ [] ∧ Db.load d0.name d0.tmp = some d' := by
  have hs : ∃ obs, SpecDb.new.history ([fill] ++ [.flush .ok]) = some (_, obs) := ⟨_, rfl⟩
  obtain ⟨obs, hs⟩ := hs
  obtain ⟨d0, h1, h2, h3⟩ := C56_history ([fill] ++ [.flush .ok]) _ _ hs
  obtain ⟨n0, hn0, -⟩ := h2.2.1 0 filled rfl
  have hok := reached' hs h1
  obtain ⟨hok1, -⟩ := prog_ok hok (prog' [.setVal ⟨0, [1, 0]⟩ (some 99)])
  obtain ⟨n1, hn1, -⟩ := (shows_of hok1).2.1 0 edited rfl
  obtain ⟨d2, _, f1, -⟩ := flush_ok hok1 .ok
  obtain ⟨hfd, d', l1, -⟩ := h3 filled rfl
  refine ⟨_, obs, d0, n0, _, n1, d2, _, d', hs, h1, hn0, rfl, hn1, f1, rfl, fun he => ?_, l1⟩
  rw [he] at hfd
  rcases hfd with ⟨-, h⟩ | ⟨a, us, h, -⟩
  · cases h
  · cases h
end Examples
end Verif.Shared
