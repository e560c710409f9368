import Verif.Model.RadixDbShared
import Verif.Model.RadixDbLate
import Verif.Spec.RadixDb
/-!
# Evaluation of the database functions on concrete inputs

The functions of `Model/RadixDb.lean` are defined by `partial_fixpoint` and do not compute in the kernel. Here are copies with a recursion depth; a result of a copy is
the result of the function. They are used only for counterexamples and examples.
-/
namespace Verif.Shared
variable {K V : Type _}

mutual
def serArcF (h : Heap K V) (base : Nat) : Nat → Ser K V → Nat → Option (Ser K V × Nat)
  | 0, _, _ => none
  | k + 1, σ, id =>
    match σ.map.lookup id with
    | some p => some (σ, p)
    | none =>
      match h.cell id with
      | none => none
      | some (_, ns) =>
        (serNodesF h base k σ ns).bind fun r =>
        if (r.1.map.lookup id).isSome then none
        else some (⟨(id, base + r.1.buf.length) :: r.1.map, r.1.buf ++ [.vec (archive (base + r.1.buf.length) ns r.2)]⟩, base + r.1.buf.length)
def serNodesF (h : Heap K V) (base : Nat) : Nat → Ser K V → List (Node K V) → Option (Ser K V × List Nat)
  | 0, _, _ => none
  | k + 1, σ, ns =>
    match ns with
    | [] => some (σ, [])
    | n :: ns => (serKidsF h base k σ n).bind fun r => (serNodesF h base k r.1 ns).bind fun q => some (q.1, r.2 :: q.2)
def serKidsF (h : Heap K V) (base : Nat) : Nat → Ser K V → Node K V → Option (Ser K V × Nat)
  | 0, _, _ => none
  | k + 1, σ, n =>
    match n.kids with
    | .raw ts => some (serRawKids base σ ⟨n.pre, n.val, ts⟩)
    | .arc id => serArcF h base k σ id
end

theorem ser_eval (h : Heap K V) (base : Nat) : ∀ k,
    (∀ σ id r, serArcF h base k σ id = some r → serArc h base σ id = some r) ∧
    (∀ σ ns r, serNodesF h base k σ ns = some r → serNodes h base σ ns = some r) ∧
    (∀ σ n r, serKidsF h base k σ n = some r → serKids h base σ n = some r)
  | 0 => ⟨fun _ _ _ h => by simp [serArcF] at h, fun _ _ _ h => by simp [serNodesF] at h, fun _ _ _ h => by simp [serKidsF] at h⟩
  | k + 1 => by
    obtain ⟨i1, i2, i3⟩ := ser_eval h base k
    refine ⟨fun σ id r hr => ?_, fun σ ns r hr => ?_, fun σ n r hr => ?_⟩
    · rw [serArc]
      simp only [serArcF] at hr
      cases hl : σ.map.lookup id with
      | some p => simpa only [hl] using hr
      | none =>
        simp only [hl] at hr ⊢
        cases hc : h.cell id with
        | none => simp only [hc] at hr; cases hr
        | some c =>
          simp only [hc] at hr ⊢
          cases hn : serNodesF h base k σ c.2 with
          | none => simp only [hn, Option.bind_none] at hr; cases hr
          | some q =>
            simp only [i2 _ _ _ hn, Option.bind_eq_bind, Option.bind_some]
            simpa only [hn, Option.bind_some] using hr
    · rw [serNodes.eq_def]
      simp only [serNodesF] at hr
      cases ns with
      | nil => exact hr
      | cons n ns =>
        simp only at hr ⊢
        cases hn : serKidsF h base k σ n with
        | none => simp only [hn, Option.bind_none] at hr; cases hr
        | some q =>
          simp only [hn, Option.bind_some] at hr
          cases hm : serNodesF h base k q.1 ns with
          | none => simp only [hm, Option.bind_none] at hr; cases hr
          | some q' =>
            simp only [hm, Option.bind_some] at hr
            simp only [i3 _ _ _ hn, i2 _ _ _ hm, Option.bind_eq_bind, Option.bind_some, hr]
    · rw [serKids]
      simp only [serKidsF] at hr
      cases hk : n.kids with
      | raw ts => simpa only [hk] using hr
      | arc id => simp only [hk] at hr; exact i1 _ _ _ hr

def serializeF (h : Heap K V) (base k : Nat) (map : List (Nat × Nat)) (n : Node K V) : Option (List (Nat × Nat) × File K V) :=
  (serKidsF h base k ⟨map, []⟩ n).bind fun r => some (r.1.map, r.1.buf ++ [.root ⟨n.pre, n.val, base + r.1.buf.length - r.2⟩])

theorem serialize_eval {h : Heap K V} {base k map n r} (hr : serializeF h base k map n = some r) : serialize h base map n = some r := by
  simp only [serializeF] at hr
  cases hn : serKidsF h base k ⟨map, []⟩ n with
  | none => simp only [hn, Option.bind_none] at hr; cases hr
  | some q =>
    simp only [hn, Option.bind_some] at hr
    simp only [serialize, (ser_eval h base k).2.2 _ _ _ hn, Option.bind_eq_bind, Option.bind_some, hr]

mutual
def allArcsF : Nat → Heap K V → List Nat → Node K V → Option (Heap K V × List Nat)
  | 0, _, _, _ => none
  | k + 1, h, into, n =>
    match n.kids with
    | .raw _ => some (h, into)
    | .arc id =>
      match h.cell id with
      | none => none
      | some (_, ns) => if id ∈ into then allArcsListF k h into ns else allArcsListF k (h.inc id) (id :: into) ns
def allArcsListF : Nat → Heap K V → List Nat → List (Node K V) → Option (Heap K V × List Nat)
  | 0, _, _, _ => none
  | k + 1, h, into, ns =>
    match ns with
    | [] => some (h, into)
    | n :: ns => (allArcsF k h into n).bind fun r => allArcsListF k r.1 r.2 ns
end

theorem arcs_eval : ∀ k,
    (∀ (h : Heap K V) into n r, allArcsF k h into n = some r → allArcs h into n = some r) ∧
    (∀ (h : Heap K V) into ns r, allArcsListF k h into ns = some r → allArcsList h into ns = some r)
  | 0 => ⟨fun _ _ _ _ h => by simp [allArcsF] at h, fun _ _ _ _ h => by simp [allArcsListF] at h⟩
  | k + 1 => by
    obtain ⟨i1, i2⟩ := arcs_eval k
    refine ⟨fun h into n r hr => ?_, fun h into ns r hr => ?_⟩
    · rw [allArcs]
      simp only [allArcsF] at hr
      cases hk : n.kids with
      | raw ts => simpa only [hk] using hr
      | arc id =>
        simp only [hk] at hr ⊢
        cases hc : h.cell id with
        | none => simp only [hc] at hr; cases hr
        | some c =>
          simp only [hc] at hr ⊢
          split at hr <;> rename_i hin
          · rw [if_pos hin]; exact i2 _ _ _ _ hr
          · rw [if_neg hin]; exact i2 _ _ _ _ hr
    · rw [allArcsList.eq_def]
      simp only [allArcsListF] at hr
      cases ns with
      | nil => exact hr
      | cons n ns =>
        simp only at hr ⊢
        cases hn : allArcsF k h into n with
        | none => simp only [hn, Option.bind_none] at hr; cases hr
        | some q =>
          simp only [hn, Option.bind_some] at hr
          simp only [i1 _ _ _ _ hn, i2 _ _ _ _ hr, Option.bind_eq_bind, Option.bind_some]

mutual
def loadVecF (f : File K V) : Nat → Heap K V → List (Nat × Nat) → Nat → Option (Heap K V × List (Nat × Nat) × Nat)
  | 0, _, _, _ => none
  | k + 1, h, reg, p =>
    match reg.lookup p with
    | some a => some (h.inc a, reg, a)
    | none =>
      match f[p]? with
      | some (.vec as) =>
        (loadNodesF f k h reg p as).bind fun r =>
        if (r.2.1.lookup p).isSome then none
        else some (r.1.alloc r.2.2, (p, r.1.next) :: r.2.1, r.1.next)
      | _ => none
def loadNodesF (f : File K V) : Nat → Heap K V → List (Nat × Nat) → Nat → List (ANode K V) → Option (Heap K V × List (Nat × Nat) × List (Node K V))
  | 0, _, _, _, _ => none
  | k + 1, h, reg, p, as =>
    match as with
    | [] => some (h, reg, [])
    | a :: as => (loadNodeF f k h reg p a).bind fun r => (loadNodesF f k r.1 r.2.1 p as).bind fun q => some (q.1, q.2.1, r.2.2 :: q.2.2)
def loadNodeF (f : File K V) : Nat → Heap K V → List (Nat × Nat) → Nat → ANode K V → Option (Heap K V × List (Nat × Nat) × Node K V)
  | 0, _, _, _, _ => none
  | k + 1, h, reg, p, a =>
    if a.off ≤ p then (loadVecF f k h reg (p - a.off)).bind fun r => some (r.1, r.2.1, ⟨a.pre, a.val, .arc r.2.2⟩)
    else none
end

theorem load_eval (f : File K V) : ∀ k,
    (∀ h reg p r, loadVecF f k h reg p = some r → loadVec f h reg p = some r) ∧
    (∀ h reg p as r, loadNodesF f k h reg p as = some r → loadNodes f h reg p as = some r) ∧
    (∀ h reg p a r, loadNodeF f k h reg p a = some r → loadNode f h reg p a = some r)
  | 0 => ⟨fun _ _ _ _ h => by simp [loadVecF] at h, fun _ _ _ _ _ h => by simp [loadNodesF] at h, fun _ _ _ _ _ h => by simp [loadNodeF] at h⟩
  | k + 1 => by
    obtain ⟨i1, i2, i3⟩ := load_eval f k
    refine ⟨fun h reg p r hr => ?_, fun h reg p as r hr => ?_, fun h reg p a r hr => ?_⟩
    · rw [loadVec]
      simp only [loadVecF] at hr
      cases hl : reg.lookup p with
      | some a => simpa only [hl] using hr
      | none =>
        simp only [hl] at hr ⊢
        cases hp : f[p]? with
        | none => simp only [hp] at hr; cases hr
        | some s =>
          cases s with
          | root a => simp only [hp] at hr; cases hr
          | vec as =>
            simp only [hp] at hr ⊢
            cases hn : loadNodesF f k h reg p as with
            | none => simp only [hn, Option.bind_none] at hr; cases hr
            | some q =>
              simp only [i2 _ _ _ _ _ hn, Option.bind_eq_bind, Option.bind_some]
              simpa only [hn, Option.bind_some] using hr
    · rw [loadNodes.eq_def]
      simp only [loadNodesF] at hr
      cases as with
      | nil => exact hr
      | cons a as =>
        simp only at hr ⊢
        cases hn : loadNodeF f k h reg p a with
        | none => simp only [hn, Option.bind_none] at hr; cases hr
        | some q =>
          simp only [hn, Option.bind_some] at hr
          cases hm : loadNodesF f k q.1 q.2.1 p as with
          | none => simp only [hm, Option.bind_none] at hr; cases hr
          | some q' =>
            simp only [hm, Option.bind_some] at hr
            simp only [i3 _ _ _ _ _ hn, i2 _ _ _ _ _ hm, Option.bind_eq_bind, Option.bind_some, hr]
    · rw [loadNode]
      simp only [loadNodeF] at hr
      split at hr <;> rename_i ho
      · rw [if_pos ho]
        cases hn : loadVecF f k h reg (p - a.off) with
        | none => simp only [hn, Option.bind_none] at hr; cases hr
        | some q =>
          simp only [hn, Option.bind_some] at hr
          simp only [i1 _ _ _ _ hn, Option.bind_eq_bind, Option.bind_some, hr]
      · cases hr

def Db.loadF (k : Nat) (name tmp : File K V) : Option (Db K V) :=
  match name.getLast? with
  | none =>
    some { name, tmp, ser := some ([], []), pos := 0,
           st := { (St.start true : St K V) with heap := (St.start true : St K V).heap.inc 0, regs := [some (holder 0)] } }
  | some (.root a) =>
    (loadNodeF name k (St.start true : St K V).heap [] (name.length - 1) a).bind fun r =>
    (allArcsF k r.1 [] r.2.2).bind fun q =>
    some { name, tmp, ser := some (r.2.1.map (fun x => (x.2, x.1)), q.2), pos := name.length,
           st := { (St.start true : St K V) with heap := q.1, regs := [some r.2.2] } }
  | some (.vec _) => none

theorem Db.load_eval {k : Nat} {name tmp : File K V} {d} (h : Db.loadF k name tmp = some d) : Db.load name tmp = some d := by
  simp only [Db.loadF] at h
  simp only [Db.load]
  cases hl : name.getLast? with
  | none => simpa only [hl] using h
  | some s =>
    cases s with
    | vec as => simp only [hl] at h; cases h
    | root a =>
      simp only [hl] at h ⊢
      cases hn : loadNodeF name k (St.start true : St K V).heap [] (name.length - 1) a with
      | none => simp only [hn, Option.bind_none] at h; cases h
      | some r =>
        simp only [hn, Option.bind_some] at h
        cases hq : allArcsF k r.1 [] r.2.2 with
        | none => simp only [hq, Option.bind_none] at h; cases h
        | some q =>
          simp only [hq, Option.bind_some] at h
          simp only [(Shared.load_eval name k).2.2 _ _ _ _ _ hn, (arcs_eval k).1 _ _ _ _ hq, Option.bind_eq_bind, Option.bind_some, h]

def Db.flushF (k : Nat) (d : Db K V) (io : FlushIo) : Option (Db K V) :=
  match d.st.regs[0]? with
  | some (some n) =>
    (serializeF d.st.heap d.pos k (d.ser.getD ([], [])).1 n).bind fun r =>
    (allArcsF k d.st.heap (d.ser.getD ([], [])).2 n).bind fun q =>
    match io with
    | .ok => some { d with name := d.name ++ r.2, pos := d.pos + r.2.length, ser := some (r.1, q.2), st := { d.st with heap := q.1 } }
    | .fail k => some { d with name := d.name ++ r.2.take k, ser := none, st := { d.st with heap := q.1.drop (q.2.map holder) } }
  | _ => some d

def Db.vacuumF (k : Nat) (d : Db K V) (io : VacuumIo) : Option (Db K V) :=
  match d.st.regs[0]? with
  | some (some n) =>
    (serializeF d.st.heap 0 k [] n).bind fun r =>
    (allArcsF k d.st.heap [] n).bind fun q =>
    match io with
    | .ok => some { d with name := d.tmp ++ r.2, tmp := [], pos := r.2.length, ser := some (r.1, q.2),
                           st := { d.st with heap := q.1.drop ((d.ser.getD ([], [])).2.map holder) } }
    | .fail k => some { d with tmp := d.tmp ++ r.2.take k, st := { d.st with heap := q.1.drop (q.2.map holder) } }
    | .failMv => some { d with tmp := d.tmp ++ r.2, st := { d.st with heap := q.1.drop (q.2.map holder) } }
  | _ => some d

theorem Db.flush_eval {k : Nat} {d d' : Db K V} {io} (h : d.flushF k io = some d') : d.flush io = some d' := by
  simp only [Db.flushF] at h
  simp only [Db.flush]
  split at h
  · rename_i n hn
    cases hs : serializeF d.st.heap d.pos k (d.ser.getD ([], [])).1 n with
    | none => simp only [hs, Option.bind_none] at h; cases h
    | some r =>
      simp only [hs, Option.bind_some] at h
      cases hq : allArcsF k d.st.heap (d.ser.getD ([], [])).2 n with
      | none => simp only [hq, Option.bind_none] at h; cases h
      | some q =>
        simp only [hq, Option.bind_some] at h
        try rw [hn]
        simp only [serialize_eval hs, (arcs_eval k).1 _ _ _ _ hq, Option.bind_eq_bind, Option.bind_some]
        exact h
  · rename_i hne
    first
    | exact h
    | split
      · rename_i n hn; exact absurd hn (hne n)
      · exact h

theorem Db.vacuum_eval {k : Nat} {d d' : Db K V} {io} (h : d.vacuumF k io = some d') : d.vacuum io = some d' := by
  simp only [Db.vacuumF] at h
  simp only [Db.vacuum]
  split at h
  · rename_i n hn
    cases hs : serializeF d.st.heap 0 k [] n with
    | none => simp only [hs, Option.bind_none] at h; cases h
    | some r =>
      simp only [hs, Option.bind_some] at h
      cases hq : allArcsF k d.st.heap [] n with
      | none => simp only [hq, Option.bind_none] at h; cases h
      | some q =>
        simp only [hq, Option.bind_some] at h
        try rw [hn]
        simp only [serialize_eval hs, (arcs_eval k).1 _ _ _ _ hq, Option.bind_eq_bind, Option.bind_some]
        exact h
  · rename_i hne
    first
    | exact h
    | split
      · rename_i n hn; exact absurd hn (hne n)
      · exact h

def Db.stepF (k : Nat) (d : Db K V) : DbOp K V → Option (Db K V × List (Obs K V))
  | .prog p => some ({ d with st := (d.st.run p).1 }, (d.st.run p).2)
  | .flush io => match d.flushF k io with | some d' => some (d', []) | none => none
  | .vacuum io => match d.vacuumF k io with | some d' => some (d', []) | none => none
  | .restart => match Db.loadF k d.name d.tmp with | some d' => some (d', []) | none => none

theorem Db.step_eval {k : Nat} {d : Db K V} {op r} (h : d.stepF k op = some r) : d.step op = some r := by
  cases op with
  | prog p => exact h
  | flush io =>
    simp only [Db.stepF] at h
    cases hf : d.flushF k io with
    | none => rw [hf] at h; cases h
    | some d' => rw [hf] at h; simp only [Db.step, Db.flush_eval hf]; exact h
  | vacuum io =>
    simp only [Db.stepF] at h
    cases hf : d.vacuumF k io with
    | none => rw [hf] at h; cases h
    | some d' => rw [hf] at h; simp only [Db.step, Db.vacuum_eval hf]; exact h
  | restart =>
    simp only [Db.stepF] at h
    cases hf : Db.loadF k d.name d.tmp with
    | none => rw [hf] at h; cases h
    | some d' => rw [hf] at h; simp only [Db.step, Db.load_eval hf]; exact h

def Db.historyF (k : Nat) : List (DbOp K V) → Db K V → Option (Db K V × List (List (Obs K V)))
  | [], d => some (d, [])
  | op :: ops, d =>
    match d.stepF k op with
    | none => none
    | some (d1, o) => match Db.historyF k ops d1 with | none => none | some (d2, os) => some (d2, o :: os)

theorem Db.history_eval {k : Nat} : ∀ (ops : List (DbOp K V)) {d : Db K V} {r}, Db.historyF k ops d = some r → Db.history ops d = some r
  | [], _, _, h => h
  | op :: ops, d, r, h => by
    simp only [Db.historyF] at h
    cases hs : d.stepF k op with
    | none => rw [hs] at h; cases h
    | some x =>
      simp only [hs] at h
      cases hh : Db.historyF k ops x.1 with
      | none => simp only [hh] at h; cases h
      | some y => simp only [hh] at h; simp only [Db.history, Db.step_eval hs, Db.history_eval ops hh, h]

def World.stepF (k : Nat) (w : World K V) : WorldOp K V → Option (World K V × List (Nat × List (Obs K V)))
  | .opened nm =>
    match Db.loadF k (w.files nm) (w.files (tmpName nm)) with
    | none => none
    | some d => some ({ files := w.files, dbs := w.dbs ++ [⟨nm, d.st, d.ser, d.pos⟩] }, [])
  | .on i op =>
    match w.dbs[i]? with
    | none => some (w, [])
    | some c =>
      match (c.onFiles w.files).stepF k op with
      | none => none
      | some (d, o) => some ({ files := putFiles w.files c.nm d, dbs := w.dbs.set i ⟨c.nm, d.st, d.ser, d.pos⟩ }, [(i, o)])

def World.historyF (k : Nat) : List (WorldOp K V) → World K V → Option (World K V × List (Nat × List (Obs K V)))
  | [], w => some (w, [])
  | op :: ops, w =>
    match w.stepF k op with
    | none => none
    | some (w1, o) => match World.historyF k ops w1 with | none => none | some (w2, os) => some (w2, o ++ os)

theorem World.step_eval {k : Nat} {w : World K V} {op r} (h : w.stepF k op = some r) : w.step op = some r := by
  cases op with
  | opened nm =>
    simp only [World.stepF] at h
    cases hf : Db.loadF k (w.files nm) (w.files (tmpName nm)) with
    | none => rw [hf] at h; cases h
    | some d => rw [hf] at h; simp only [World.step, Db.load_eval hf]; exact h
  | on i op =>
    simp only [World.stepF] at h
    simp only [World.step]
    cases hc : w.dbs[i]? with
    | none => simpa only [hc] using h
    | some c =>
      simp only [hc] at h ⊢
      cases hf : (c.onFiles w.files).stepF k op with
      | none => rw [hf] at h; cases h
      | some d => rw [hf] at h; simp only [Db.step_eval hf]; exact h

theorem World.history_eval {k : Nat} : ∀ (ops : List (WorldOp K V)) {w : World K V} {r}, World.historyF k ops w = some r → World.history ops w = some r
  | [], _, _, h => h
  | op :: ops, w, r, h => by
    simp only [World.historyF] at h
    cases hs : w.stepF k op with
    | none => rw [hs] at h; cases h
    | some x =>
      simp only [hs] at h
      cases hh : World.historyF k ops x.1 with
      | none => simp only [hh] at h; cases h
      | some y => simp only [hh] at h; simp only [World.history, World.step_eval hs, World.history_eval ops hh, h]

mutual
/-- check that a node reads as a tree (of numbers) -/
def denB (h : Heap Nat Nat) : Nat → Node Nat Nat → Tree Nat Nat → Bool
  | 0, _, _ => false
  | k + 1, n, ⟨p, v, ts⟩ =>
    n.pre == p && n.val == v &&
    match n.kids with
    | .raw _ => false
    | .arc id => match h.cell id with | none => false | some (_, ns) => densB h k ns ts
def densB (h : Heap Nat Nat) : Nat → List (Node Nat Nat) → List (Tree Nat Nat) → Bool
  | 0, _, _ => false
  | _ + 1, [], [] => true
  | k + 1, n :: ns, t :: ts => denB h k n t && densB h k ns ts
  | _ + 1, _, _ => false
end

theorem den_check (h : Heap Nat Nat) : ∀ k, (∀ n t, denB h k n t = true → Den h n t) ∧ (∀ ns ts, densB h k ns ts = true → Dens h ns ts)
  | 0 => ⟨fun _ _ h => by simp [denB] at h, fun _ _ h => by simp [densB] at h⟩
  | k + 1 => by
    obtain ⟨i1, i2⟩ := den_check h k
    refine ⟨fun n t hr => ?_, fun ns ts hr => ?_⟩
    · obtain ⟨p, v, ts⟩ := t
      obtain ⟨p', v', ks⟩ := n
      simp only [denB, Bool.and_eq_true, beq_iff_eq] at hr
      obtain ⟨⟨rfl, rfl⟩, hr⟩ := hr
      cases ks with
      | raw _ => cases hr
      | arc id =>
        simp only at hr
        cases hc : h.cell id with
        | none => rw [hc] at hr; cases hr
        | some c => rw [hc] at hr; exact .arc _ _ hc (i2 _ _ hr)
    · cases ns with
      | nil => cases ts with
        | nil => exact .nil
        | cons t ts => simp [densB] at hr
      | cons n ns => cases ts with
        | nil => simp [densB] at hr
        | cons t ts =>
          simp only [densB, Bool.and_eq_true] at hr
          exact .cons (i1 _ _ hr.1) (i2 _ _ hr.2)

/-- check that the first variable of a program reads as a tree -/
def readsB (s : St Nat Nat) (t : Tree Nat Nat) : Bool :=
  match s.regs[0]? with
  | some (some n) => denB s.heap 20 n t
  | _ => false

theorem reads_check {s : St Nat Nat} {t} (h : readsB s t = true) : ∃ n, s.regs[0]? = some (some n) ∧ Den s.heap n t := by
  simp only [readsB] at h
  split at h
  · rename_i n hn; exact ⟨n, hn, (den_check s.heap 20).1 n t h⟩
  · cases h

/-- check that opening the files gives a database with this tree -/
def loadsB (name tmp : File Nat Nat) (t : Tree Nat Nat) : Bool :=
  match Db.loadF 20 name tmp with
  | some d => d.st.regs.length == 1 && readsB d.st t
  | none => false

theorem loads_check {name tmp : File Nat Nat} {t} (h : loadsB name tmp t = true) :
    ∃ d n, Db.load name tmp = some d ∧ d.st.regs = [some n] ∧ Den d.st.heap n t := by
  simp only [loadsB] at h
  split at h
  · rename_i d hd
    simp only [Bool.and_eq_true, beq_iff_eq] at h
    obtain ⟨n, h1, h2⟩ := reads_check h.2
    refine ⟨d, n, Db.load_eval hd, ?_, h2⟩
    obtain ⟨x, hx⟩ := List.length_eq_one_iff.1 h.1
    rw [hx] at h1 ⊢
    simp only [List.getElem?_cons_zero, Option.some.injEq] at h1
    rw [h1]
  · cases h

def Db.vacuumLateF (k : Nat) (d : Db K V) : Option (Db K V) :=
  match d.st.regs[0]? with
  | some (some n) =>
    (serializeF d.st.heap 0 k [] n).bind fun r =>
    (allArcsF k d.st.heap [] n).bind fun q =>
    some { d with name := d.tmp ++ r.2, tmp := [], st := { d.st with heap := q.1.drop (q.2.map holder) } }
  | _ => some d

theorem Db.vacuumLate_eval {k : Nat} {d d' : Db K V} (h : d.vacuumLateF k = some d') : d.vacuumLate = some d' := by
  simp only [Db.vacuumLateF] at h
  simp only [Db.vacuumLate]
  split at h
  · rename_i n hn
    cases hs : serializeF d.st.heap 0 k [] n with
    | none => simp only [hs, Option.bind_none] at h; cases h
    | some r =>
      simp only [hs, Option.bind_some] at h
      cases hq : allArcsF k d.st.heap [] n with
      | none => simp only [hq, Option.bind_none] at h; cases h
      | some q =>
        simp only [hq, Option.bind_some] at h
        try rw [hn]
        simp only [serialize_eval hs, (arcs_eval k).1 _ _ _ _ hq, Option.bind_eq_bind, Option.bind_some]
        exact h
  · rename_i hne
    first
    | exact h
    | split
      · rename_i n hn; exact absurd hn (hne n)
      · exact h

def Db.historyLateF (k : Nat) : List (LateOp K V) → Db K V → Option (Db K V × List (List (Obs K V)))
  | [], d => some (d, [])
  | op :: ops, d =>
    match (match op with
      | .std op => d.stepF k op
      | .vacuumLate => match d.vacuumLateF k with | some d' => some (d', []) | none => none) with
    | none => none
    | some (d1, o) => match Db.historyLateF k ops d1 with | none => none | some (d2, os) => some (d2, o :: os)

theorem Db.historyLate_eval {k : Nat} : ∀ (ops : List (LateOp K V)) {d : Db K V} {r}, Db.historyLateF k ops d = some r → Db.historyLate ops d = some r
  | [], _, _, h => h
  | op :: ops, d, r, h => by
    simp only [Db.historyLateF] at h
    split at h
    · cases h
    · rename_i d1 o h1
      have h1' : d.stepLate op = some (d1, o) := by
        cases op with
        | std op => exact Db.step_eval (k := k) h1
        | vacuumLate =>
          simp only at h1
          simp only [Db.stepLate]
          cases hl : d.vacuumLateF k with
          | none => rw [hl] at h1; cases h1
          | some x => rw [hl] at h1; rw [Db.vacuumLate_eval hl]; exact h1
      split at h
      · cases h
      · rename_i d2 os h2
        simp only [Db.historyLate, h1', Db.historyLate_eval ops h2, h]

/-- run a history with late errors and check its end -/
def Db.testLate (ops : List (LateOp K V)) (P : Db K V → Bool) : Bool :=
  match (Db.load [] [] : Option (Db K V)) with
  | none => false
  | some d =>
    match Db.historyLateF 20 ops d with
    | some (d, _) => P d
    | none => false

theorem Db.testLate_ok {ops : List (LateOp K V)} {P : Db K V → Bool} (h : Db.testLate ops P = true) :
    ∃ d obs, (match (Db.load [] [] : Option (Db K V)) with | none => none | some d => Db.historyLate ops d) = some (d, obs) ∧ P d = true := by
  simp only [Db.testLate] at h
  split at h
  · cases h
  · rename_i d0 h0
    split at h
    · rename_i d obs hd
      exact ⟨d, obs, Db.historyLate_eval ops hd, h⟩
    · cases h

/-- run a history of the world and check its end -/
def World.test (ops : List (WorldOp K V)) (P : World K V → Bool) : Bool :=
  match World.historyF 20 ops World.start with
  | some (w, _) => P w
  | none => false

theorem World.test_ok {ops : List (WorldOp K V)} {P : World K V → Bool} (h : World.test ops P = true) :
    ∃ w obs, World.start.history ops = some (w, obs) ∧ P w = true := by
  simp only [World.test] at h
  split at h
  · rename_i w obs hw; exact ⟨w, obs, World.history_eval ops hw, h⟩
  · cases h

end Verif.Shared
