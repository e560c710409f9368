import Verif.Lemmas.RadixDbLoad
namespace Verif.Shared
variable {K V : Type _}

theorem drop_append_len {α : Type _} (a b : List α) (p : Nat) (hp : p ≤ a.length) :
    (a ++ b).drop ((a ++ b).length - (p + b.length)) = a.drop (a.length - p) ++ b := by
  rw [List.length_append, show a.length + b.length - (p + b.length) = a.length - p by omega, List.drop_append_of_le_length (Nat.sub_le ..)]

theorem last_root (x v : File K V) (a : ANode K V) : (x ++ (v ++ [Slot.root a])).getLast? = some (Slot.root a) := by
  rw [← List.append_assoc]; simp

theorem fileDen_of {junk body vecs : File K V} {a : ANode K V} {t : Tree K V} (h1 : a.pre = t.pre) (h2 : a.val = t.val)
    (h3 : a.off ≤ body.length + vecs.length) (h4 : ADen (body ++ (vecs ++ [Slot.root a])) (body.length + vecs.length - a.off) t.kids) :
    FileDen (junk ++ (body ++ (vecs ++ [Slot.root a]))) t := by
  refine .inr ⟨a, t.kids, ?_, ?_, ?_, ?_⟩
  · rw [← List.append_assoc, last_root]
  · simp only [List.length_append, List.length_singleton]; omega
  · have := h4.shift junk
    rwa [show (junk ++ (body ++ (vecs ++ [Slot.root a]))).length - 1 - a.off = junk.length + (body.length + vecs.length - a.off) by
      simp only [List.length_append, List.length_singleton]; omega]
  · rw [h1, h2]; cases t; rfl

/-- what a variable is in the specification -/
theorem var0 {s : St K V} {F ts} (ho : Ok s F ts) :
    (∃ n t, s.regs[0]? = some (some n) ∧ ts[0]? = some (some t) ∧ Den s.heap n t) ∨
    ((∀ n, s.regs[0]? ≠ some (some n)) ∧ ∀ t, ts[0]? ≠ some (some t)) := by
  by_cases hr : ∃ n, s.regs[0]? = some (some n)
  · obtain ⟨n, hr⟩ := hr
    obtain ⟨t, h1, h2⟩ := ho.regs.some hr
    exact .inl ⟨n, t, hr, h1, h2⟩
  · have h1 : ∀ n, s.regs[0]? ≠ some (some n) := fun n hn => hr ⟨n, hn⟩
    exact .inr ⟨h1, ho.regs.not_some h1⟩

theorem mem_roots0 {s : St K V} {n : Node K V} {i : Nat} (h : s.regs[i]? = some (some n)) : n ∈ s.roots [] :=
  List.mem_append_left _ (mem_regs h)

theorem flush_ok {d : Db K V} {σ : SpecDb K V} (hd : DbOk d σ) (io : FlushIo) :
    ∃ d' σ', d.flush io = some d' ∧ σ.step (.flush io) = some (σ', []) ∧ DbOk d' σ' ∧ (d.loaded → d'.loaded) := by
  obtain ⟨F, hF, ho⟩ := hd.ok
  rcases var0 ho with ⟨n, t, hn, ht, hden⟩ | ⟨hn, ht⟩
  · obtain ⟨map', vecs, a, e1, e2, e3, e4, e5, e6, e7, e8, e9⟩ := serialize_ok (Db.body_length hd.pos) hden hd.map
    obtain ⟨h', into', q1, q2⟩ := allArcs_ok hden d.st.heap d.arcs (d.st.roots []) (.refl _) hd.wf
    have hfl : d.flush io = match io with
        | .ok => some { d with name := d.name ++ (vecs ++ [Slot.root a]), pos := d.pos + (vecs ++ [Slot.root a]).length, ser := some (map', into'), st := { d.st with heap := h' } }
        | .fail k => some { d with name := d.name ++ (vecs ++ [Slot.root a]).take k, ser := none, st := { d.st with heap := h'.drop (into'.map holder) } } := by
      have e1' : serialize d.st.heap d.pos (d.ser.getD ([], [])).1 n = some (map', vecs ++ [Slot.root a]) := e1
      have q1' : allArcs d.st.heap (d.ser.getD ([], [])).2 n = some (h', into') := q1
      simp only [Db.flush, hn, e1', q1', Option.bind_eq_bind, Option.bind_some] <;> cases io <;> rfl
    rw [hfl]
    cases io with
    | ok =>
      refine ⟨_, { σ with durable := some t }, rfl, by simp only [SpecDb.step, ht], ⟨?_, ?_, ?_, ?_, ?_, hd.static⟩, fun hl => ⟨q2.loaded hl.heap, hl.regs⟩⟩
      · obtain ⟨F', f1, f2⟩ := frame_of q2.wf into' (fun i hi => List.mem_append_left _ (List.mem_map_of_mem hi))
        exact ⟨F', f1, ok_heap ho f2 (by rw [f1]; exact q2.wf) (fun m _ u hu => hu.mono q2.same)⟩
      · simp only [List.length_append]; have := hd.pos; omega
      · simp only [Db.body, Db.map, Option.getD_some]
        rw [drop_append_len _ _ _ hd.pos]
        exact e3.heap fun id p _ us hu => hu.mono q2.same
      · intro id p hx
        rcases e4 id p hx with hx | hx
        · exact q2.old id (hd.held id p hx)
        · exact q2.all id hx
      · intro t' ht'
        simp only [Option.some.injEq] at ht'
        subst ht'
        have hb := Db.body_length hd.pos
        have := fileDen_of (junk := d.name.take (d.name.length - d.pos)) (body := d.body) (vecs := vecs) e6 e7 (by rw [hb]; exact e8) (by rw [hb]; exact e9)
        simp only [Db.body] at this
        rwa [← List.append_assoc, List.take_append_drop] at this
    | fail k =>
      obtain ⟨w1, w2⟩ := drop_ok q2.wf
      have hok : Ok { d.st with heap := h'.drop (into'.map holder) } [] σ.vars :=
        ok_heap ho (by simp) (by simpa using w1) (fun m hm u hu => w2.den m hm u (hu.mono q2.same))
      have key : ∀ dur, (∀ t, dur = some t → FileDen (d.name ++ (vecs ++ [Slot.root a]).take k) t) →
          DbOk { d with name := d.name ++ (vecs ++ [Slot.root a]).take k, ser := none, st := { d.st with heap := h'.drop (into'.map holder) } } { σ with durable := dur } := by
        intro dur hdur
        refine ⟨⟨[], rfl, hok⟩, ?_, ?_, ?_, hdur, hd.static⟩
        · have := hd.pos; simp only [List.length_append]; omega
        · intro id p hx; simp [Db.map] at hx
        · intro id p hx; simp [Db.map] at hx
      cases k with
      | zero =>
        refine ⟨_, σ, rfl, by simp only [SpecDb.step, ht], key _ ?_, fun hl => ⟨loaded_dropAll _ _ _ (q2.loaded hl.heap), hl.regs⟩⟩
        simpa using hd.file
      | succ k =>
        refine ⟨_, { σ with durable := none }, rfl, by simp only [SpecDb.step, ht], key _ ?_, fun hl => ⟨loaded_dropAll _ _ _ (q2.loaded hl.heap), hl.regs⟩⟩
        intro t h; cases h
  · refine ⟨d, σ, ?_, ?_, hd, fun h => h⟩
    · simp only [Db.flush]
    · simp only [SpecDb.step]
      split <;> first | rfl | (rename_i h; exact absurd h (ht _))

theorem vacuum_ok {d : Db K V} {σ : SpecDb K V} (hd : DbOk d σ) (io : VacuumIo) :
    ∃ d' σ', d.vacuum io = some d' ∧ σ.step (.vacuum io) = some (σ', []) ∧ DbOk d' σ' ∧ (d.loaded → d'.loaded) := by
  obtain ⟨F, hF, ho⟩ := hd.ok
  rcases var0 ho with ⟨n, t, hn, ht, hden⟩ | ⟨hn, ht⟩
  · obtain ⟨map', vecs, a, e1, e2, e3, e4, e5, e6, e7, e8, e9⟩ := serialize_ok (body := []) (base := 0) rfl hden (map := []) (by intro id p h; cases h)
    obtain ⟨h', into', q1, q2⟩ := allArcs_ok hden d.st.heap [] (d.arcs.map holder ++ d.st.roots []) (.refl _) hd.wf
    have hv : d.vacuum io = match io with
        | .ok => some { d with name := d.tmp ++ (vecs ++ [Slot.root a]), tmp := [], pos := (vecs ++ [Slot.root a]).length, ser := some (map', into'), st := { d.st with heap := h'.drop (d.arcs.map holder) } }
        | .fail k => some { d with tmp := d.tmp ++ (vecs ++ [Slot.root a]).take k, st := { d.st with heap := h'.drop (into'.map holder) } }
        | .failMv => some { d with tmp := d.tmp ++ (vecs ++ [Slot.root a]), st := { d.st with heap := h'.drop (into'.map holder) } } := by
      simp only [Db.vacuum, hn, e1, q1, Option.bind_eq_bind, Option.bind_some] <;> cases io <;> rfl
    rw [hv]
    have failed : ∀ tmp', DbOk { d with tmp := tmp', st := { d.st with heap := h'.drop (into'.map holder) } } σ := by
      intro tmp'
      obtain ⟨w1, w2⟩ := drop_ok q2.wf
      have hden' : ∀ m ∈ d.arcs.map holder ++ d.st.roots [], ∀ u, Den d.st.heap m u → Den (h'.drop (into'.map holder)) m u :=
        fun m hm u hu => w2.den m hm u (hu.mono q2.same)
      have hFd : ∀ x ∈ F, Den (h'.drop (into'.map holder)) x.1 x.2 := fun x hx =>
        hden' _ (List.mem_append_left _ (by rw [← hF]; exact List.mem_map_of_mem hx)) _ (ho.frame x (List.mem_append_right _ hx))
      refine ⟨⟨F, hF, ok_heap ho hFd (by rw [hF]; exact w1) (fun m hm u hu => hden' m (List.mem_append_right _ hm) u hu)⟩, hd.pos, ?_, hd.held, hd.file, hd.static⟩
      refine MapOk.heap hd.map fun id p hx us hu => ?_
      exact hden' _ (List.mem_append_left _ (List.mem_map_of_mem (hd.held id p hx))) _ hu
    cases io with
    | ok =>
      have hw : WF h' (d.arcs.map holder ++ (into'.map holder ++ d.st.roots [])) := by
        refine q2.wf.perm ?_
        rw [← List.append_assoc, ← List.append_assoc]
        exact List.perm_append_comm.append_right _
      obtain ⟨w1, w2⟩ := drop_ok hw
      refine ⟨_, { σ with durable := some t }, rfl, by simp only [SpecDb.step, ht], ⟨?_, ?_, ?_, ?_, ?_, hd.static⟩, fun hl => ⟨loaded_dropAll _ _ _ (q2.loaded hl.heap), hl.regs⟩⟩
      · obtain ⟨F', f1, f2⟩ := frame_of w1 into' (fun i hi => List.mem_append_left _ (List.mem_map_of_mem hi))
        exact ⟨F', f1, ok_heap ho f2 (by rw [f1]; exact w1) (fun m hm u hu => w2.den m (List.mem_append_right _ hm) u (hu.mono q2.same))⟩
      · simp only [List.length_append]; omega
      · simp only [Db.body, Db.map, Option.getD_some]
        have : (d.tmp ++ (vecs ++ [Slot.root a])).drop ((d.tmp ++ (vecs ++ [Slot.root a])).length - (vecs ++ [Slot.root a]).length) = vecs ++ [Slot.root a] := by
          rw [List.length_append, Nat.add_sub_cancel, List.drop_append_of_le_length (Nat.le_refl _)]; simp
        rw [this]
        refine MapOk.heap e3 fun id p hx us hu => ?_
        have hin : id ∈ into' := by
          rcases e4 id p hx with hx | hx
          · cases hx
          · exact q2.all id hx
        exact w2.den _ (List.mem_append_left _ (List.mem_map_of_mem hin)) _ (hu.mono q2.same)
      · intro id p hx
        rcases e4 id p hx with hx | hx
        · cases hx
        · exact q2.all id hx
      · intro t' ht'
        simp only [Option.some.injEq] at ht'
        subst ht'
        exact fileDen_of (junk := d.tmp) (body := []) e6 e7 (by simpa using e8) (by simpa using e9)
    | fail k => exact ⟨_, σ, rfl, by simp only [SpecDb.step, ht], failed _, fun hl => ⟨loaded_dropAll _ _ _ (q2.loaded hl.heap), hl.regs⟩⟩
    | failMv => exact ⟨_, σ, rfl, by simp only [SpecDb.step, ht], failed _, fun hl => ⟨loaded_dropAll _ _ _ (q2.loaded hl.heap), hl.regs⟩⟩
  · refine ⟨d, σ, ?_, ?_, hd, fun h => h⟩
    · simp only [Db.vacuum]
    · simp only [SpecDb.step]
      split <;> first | rfl | (rename_i h; exact absurd h (ht _))

theorem loaded_start : (St.start true : St K V).heap.loaded := by
  intro id r ns h m hm
  simp only [St.start, if_true] at h
  split at h
  · cases h; cases hm
  · cases h

theorem load_ok {name : File K V} (tmp : File K V) {t : Tree K V} (hf : FileDen name t) :
    ∃ d, Db.load name tmp = some d ∧ d.name = name ∧ d.tmp = tmp ∧ d.ser.isSome ∧ DbOk d { vars := [some t], durable := some t } ∧ d.loaded := by
  have hst := ok_start (K := K) (V := V) true
  have hdur : ∀ u, (some t : Option (Tree K V)) = some u → FileDen name u := by intro u hu; cases hu; exact hf
  rcases hf with ⟨rfl, rfl⟩ | ⟨a, us, h1, h2, h3, rfl⟩
  · refine ⟨_, rfl, rfl, rfl, rfl, ⟨⟨[], rfl, ?_⟩, Nat.le_refl _, by intro id p h; simp [Db.map] at h, by intro id p h; simp [Db.map] at h, hdur, rfl⟩, ⟨loaded_inc loaded_start 0, fun n hn => ?_⟩⟩
    rotate_left
    · simp only [List.mem_singleton, Option.some.injEq] at hn; subst hn; exact ⟨0, rfl⟩
    have hc : (St.start true : St K V).heap.cell 0 = some (1, []) := rfl
    have hw := hst.wf.inc hc [] none
    obtain ⟨r', hc'⟩ := sameVecs_inc (St.start true : St K V).heap 0 _ _ _ hc
    refine ⟨hw, ⟨rfl, ?_⟩, ?_⟩
    · intro i o hi
      cases i with
      | zero => simp at hi; subst hi; exact ⟨_, rfl, .arc [] none hc' .nil⟩
      | succ i => simp at hi
    · intro x hx
      have := hst.frame x hx
      exact this.mono (sameVecs_inc _ 0)
  · obtain ⟨h', reg', b, e1, w1, d1, l1, m1⟩ := loadVec_ok h3 (St.start true : St K V).heap [] ((St.start true : St K V).roots []) hst.wf (by intro p a h; cases h)
    have hn := d1 a.pre a.val
    have hw := w1 a.pre a.val
    obtain ⟨h'', into', q1, q2⟩ := allArcs_ok hn h' [] _ (.refl _) hw
    have hload : Db.load name tmp = some { name, tmp, ser := some (reg'.map (fun x => (x.2, x.1)), into'), pos := name.length, st := { (St.start true : St K V) with heap := h'', regs := [some ⟨a.pre, a.val, .arc b⟩] } } := by
      simp only [Db.load, h1, loadNode, if_pos h2, e1, Option.bind_eq_bind, Option.bind_some, q1]
    refine ⟨_, hload, rfl, rfl, rfl, ⟨?_, Nat.le_refl _, ?_, ?_, hdur, rfl⟩, ⟨q2.loaded (l1.loaded loaded_start), fun n hn => ?_⟩⟩
    rotate_left 3
    · simp only [List.mem_singleton, Option.some.injEq] at hn; subst hn; exact ⟨b, rfl⟩
    · obtain ⟨F', f1, f2⟩ := frame_of q2.wf into' (fun i hi => List.mem_append_left _ (List.mem_map_of_mem hi))
      refine ⟨F', f1, ⟨q2.wf.perm ?_, ⟨rfl, ?_⟩, ?_⟩⟩
      · have : (others (St.mk h'' [some (⟨a.pre, a.val, .arc b⟩ : Node K V)] (some 0)) F').map Prod.fst = ⟨[], none, .arc 0⟩ :: into'.map holder := by
          simp [others, f1]
        show ([some (⟨a.pre, a.val, .arc b⟩ : Node K V)].filterMap id ++ (others (St.mk h'' [some (⟨a.pre, a.val, .arc b⟩ : Node K V)] (some 0)) F').map Prod.fst).Perm _
        rw [this]
        have e : (St.start true : St K V).roots [] = [⟨[], none, .arc 0⟩] := rfl
        rw [e]
        show ((⟨a.pre, a.val, .arc b⟩ : Node K V) :: ⟨[], none, .arc 0⟩ :: into'.map holder).Perm (into'.map holder ++ [⟨a.pre, a.val, .arc b⟩, ⟨[], none, .arc 0⟩])
        exact (List.perm_append_comm (l₁ := [⟨a.pre, a.val, .arc b⟩, ⟨[], none, .arc 0⟩]) (l₂ := into'.map holder))
      · intro i o hi
        cases i with
        | zero => simp at hi; subst hi; exact ⟨_, rfl, hn.mono q2.same⟩
        | succ i => simp at hi
      · intro x hx
        simp only [others, List.mem_append] at hx
        rcases hx with hx | hx
        · have : x ∈ others (St.start true : St K V) [] := by simp only [others, List.append_nil]; exact hx
          exact ((hst.frame x this).mono l1.same).mono q2.same
        · exact f2 x hx
    · intro id p hx
      simp only [Db.map, Option.getD_some, List.mem_map] at hx
      obtain ⟨⟨p', a'⟩, hx, he⟩ := hx
      cases he
      obtain ⟨r, ns, ws, k1, k2, k3⟩ := l1.regOk _ _ hx
      obtain ⟨r', k1'⟩ := q2.same _ _ _ k1
      refine ⟨r', ns, ws, k1', k2.mono q2.same, ?_⟩
      simpa [Db.body] using k3
    · intro id p hx
      simp only [Db.map, Option.getD_some, List.mem_map] at hx
      obtain ⟨⟨p', a'⟩, hx, he⟩ := hx
      cases he
      rcases l1.new _ _ hx with hx | ⟨hx, -⟩
      · cases hx
      · exact q2.all _ (hx a.pre a.val)

theorem dbStep_ok {d : Db K V} {σ σ' : SpecDb K V} (hd : DbOk d σ) (op : DbOp K V) {obs} (hs : σ.step op = some (σ', obs)) :
    ∃ d', d.step op = some (d', obs) ∧ DbOk d' σ' ∧ (d.loaded → arcOps [op] → d'.loaded) := by
  cases op with
  | prog p =>
    obtain ⟨h1, h2⟩ := prog_ok hd p
    simp only [SpecDb.step, Option.some.injEq, Prod.mk.injEq] at hs
    obtain ⟨rfl, rfl⟩ := hs
    exact ⟨_, by simp only [Db.step, h2], h1, fun hl ha => (run_loaded p hl hd.static (ha p (by simp))).1⟩
  | flush io =>
    obtain ⟨d', σ1, h1, h2, h3, h4⟩ := flush_ok hd io
    rw [hs] at h2; cases h2
    exact ⟨d', by simp only [Db.step, h1], h3, fun hl _ => h4 hl⟩
  | vacuum io =>
    obtain ⟨d', σ1, h1, h2, h3, h4⟩ := vacuum_ok hd io
    rw [hs] at h2; cases h2
    exact ⟨d', by simp only [Db.step, h1], h3, fun hl _ => h4 hl⟩
  | restart =>
    simp only [SpecDb.step] at hs
    split at hs
    · rename_i t ht
      cases hs
      obtain ⟨d', h1, -, -, -, h2, h3⟩ := load_ok d.tmp (hd.file t ht)
      exact ⟨d', by simp only [Db.step, h1], h2, fun _ _ => h3⟩
    · cases hs

theorem dbHistory_ok : ∀ (ops : List (DbOp K V)) {d : Db K V} {σ σ' : SpecDb K V} {obs}, DbOk d σ → σ.history ops = some (σ', obs) →
    ∃ d', d.history ops = some (d', obs) ∧ DbOk d' σ' ∧ (d.loaded → arcOps ops → d'.loaded)
  | [], d, σ, σ', obs, hd, hs => by
    simp only [SpecDb.history, Option.some.injEq, Prod.mk.injEq] at hs
    obtain ⟨rfl, rfl⟩ := hs
    exact ⟨d, rfl, hd, fun h _ => h⟩
  | op :: ops, d, σ, σ', obs, hd, hs => by
    simp only [SpecDb.history] at hs
    split at hs
    · cases hs
    · rename_i σ1 o h1
      split at hs
      · cases hs
      · rename_i σ2 os h2
        cases hs
        obtain ⟨d1, k1, k2, k2'⟩ := dbStep_ok hd op h1
        obtain ⟨d2, k3, k4, k5⟩ := dbHistory_ok ops k2 h2
        exact ⟨d2, by simp only [Db.history, k1, k3], k4, fun hl ha => k5 (k2' hl fun p hp => ha p (by simp at hp; simp [hp])) (fun p hp => ha p (List.mem_cons_of_mem _ hp))⟩
end Verif.Shared
