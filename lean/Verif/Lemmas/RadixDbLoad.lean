import Verif.Lemmas.RadixDb
import Verif.Lemmas.SharedLoaded
namespace Verif.Shared
variable {K V : Type _}

/-! ## all_arcs -/
/-- the result of collecting the arcs reachable as `Q` -/
structure ArcsRes (h h' : Heap K V) (into into' : List Nat) (Q : Nat → Prop) (R : List (Node K V)) : Prop where
  wf : WF h' (into'.map holder ++ R)
  same : SameVecs h h'
  old : ∀ id ∈ into, id ∈ into'
  all : ∀ id, Q id → id ∈ into'
  loaded : h.loaded → h'.loaded

mutual
theorem allArcs_ok {h0 : Heap K V} : ∀ {n t}, Den h0 n t → ∀ (h : Heap K V) (into : List Nat) (R), SameVecs h0 h → WF h (into.map holder ++ R) →
    ∃ h' into', allArcs h into n = some (h', into') ∧ ArcsRes h h' into into' (NReach h0 n) R
  | _, _, .raw p v ts, h, into, R, hs, hw => by
    rw [allArcs]
    exact ⟨h, into, rfl, hw, .refl h, fun _ h => h, fun id hr => (by cases hr with | here hk => cases hk | deeper hk => cases hk), fun h => h⟩
  | _, _, .arc (id := id) (r := r) (ns := ns) (ts := ts) p v hc hd, h, into, R, hs, hw => by
    rw [allArcs]
    obtain ⟨r', hc'⟩ := hs _ _ _ hc
    simp only [hc']
    have fin : ∀ into' : List Nat, id ∈ into' → (∀ i, (∃ m ∈ ns, NReach h0 m i) → i ∈ into') → ∀ i, NReach h0 (⟨p, v, .arc id⟩ : Node K V) i → i ∈ into' := by
      intro into' k1 k2 i hr
      cases hr with
      | here hk => cases hk; exact k1
      | deeper hk hcj hm hr => cases hk; rw [hc] at hcj; cases hcj; exact k2 i ⟨_, hm, hr⟩
    by_cases hi : id ∈ into
    · rw [if_pos hi]
      obtain ⟨h', into', h1, h2⟩ := allArcsList_ok hd h into R hs hw
      exact ⟨h', into', h1, h2.wf, h2.same, h2.old, fin into' (h2.old _ hi) h2.all, h2.loaded⟩
    · rw [if_neg hi]
      have hw1 : WF (h.inc id) ((id :: into).map holder ++ R) := hw.inc hc' [] none
      obtain ⟨h', into', h1, h2⟩ := allArcsList_ok hd (h.inc id) (id :: into) R (hs.trans (sameVecs_inc h id)) hw1
      exact ⟨h', into', h1, h2.wf, (sameVecs_inc h id).trans h2.same, fun i hi => h2.old i (List.mem_cons_of_mem _ hi),
        fin into' (h2.old _ (List.mem_cons_self ..)) h2.all, fun hl => h2.loaded (loaded_inc hl id)⟩
theorem allArcsList_ok {h0 : Heap K V} : ∀ {ns ts}, Dens h0 ns ts → ∀ (h : Heap K V) (into : List Nat) (R), SameVecs h0 h → WF h (into.map holder ++ R) →
    ∃ h' into', allArcsList h into ns = some (h', into') ∧ ArcsRes h h' into into' (fun i => ∃ m ∈ ns, NReach h0 m i) R
  | _, _, .nil, h, into, R, hs, hw => by
    rw [allArcsList]
    exact ⟨h, into, rfl, hw, .refl h, fun _ h => h, (by rintro i ⟨m, hm, _⟩; cases hm), fun h => h⟩
  | _, _, .cons d1 d2, h, into, R, hs, hw => by
    obtain ⟨h1, into1, e1, k1⟩ := allArcs_ok d1 h into R hs hw
    obtain ⟨h2, into2, e2, k2⟩ := allArcsList_ok d2 h1 into1 R (hs.trans k1.same) k1.wf
    rw [allArcsList]
    simp only [e1, e2, Option.bind_eq_bind, Option.bind_some]
    refine ⟨h2, into2, rfl, k2.wf, k1.same.trans k2.same, fun i hi => k2.old i (k1.old i hi), ?_, fun h => k2.loaded (k1.loaded h)⟩
    rintro i ⟨m, hm, hr⟩
    rcases List.mem_cons.1 hm with rfl | hm
    · exact k2.old i (k1.all i hr)
    · exact k2.all i ⟨m, hm, hr⟩
end

/-- held arcs are allocated and readable: they can be seen as a frame -/
theorem frame_of {h : Heap K V} {R} (hw : WF h R) : ∀ (arcs : List Nat), (∀ id ∈ arcs, (holder id : Node K V) ∈ R) →
    ∃ F : List (Node K V × Tree K V), F.map Prod.fst = arcs.map holder ∧ ∀ x ∈ F, Den h x.1 x.2
  | [], _ => ⟨[], rfl, by simp⟩
  | id :: arcs, hm => by
    obtain ⟨F, h1, h2⟩ := frame_of hw arcs (fun i hi => hm i (List.mem_cons_of_mem _ hi))
    obtain ⟨⟨r, ns⟩, hc⟩ := hw.alive (hm id (List.mem_cons_self ..))
    obtain ⟨us, hd⟩ := hw.full _ _ _ hc
    refine ⟨(holder id, ⟨[], none, us⟩) :: F, by simp [h1], ?_⟩
    intro x hx
    rcases List.mem_cons.1 hx with rfl | hx
    · exact .arc [] none hc hd
    · exact h2 x hx

/-! ## deserialisation -/
/-- every entry of the deserializer's registry is right -/
def RegOk (f : File K V) (h : Heap K V) (reg : List (Nat × Nat)) : Prop :=
  ∀ p a, (p, a) ∈ reg → ∃ r ns us, h.cell a = some (r, ns) ∧ Dens h ns us ∧ ADen f p us

theorem RegOk.mono {f : File K V} {h h' : Heap K V} {reg} (hr : RegOk f h reg) (hs : SameVecs h h') : RegOk f h' reg := fun p a hx => by
  obtain ⟨r, ns, us, h1, h2, h3⟩ := hr p a hx
  obtain ⟨r', h1'⟩ := hs _ _ _ h1
  exact ⟨r', ns, us, h1', h2.mono hs, h3⟩

/-- the child vectors of the elements of registered vectors are registered -/
def RegClosed (h : Heap K V) (reg : List (Nat × Nat)) : Prop :=
  ∀ p a, (p, a) ∈ reg → ∀ r ns, h.cell a = some (r, ns) → ∀ m ∈ ns, ∀ j, m.kids = .arc j → ∃ q, (q, j) ∈ reg

theorem RegClosed.mono {f : File K V} {h h' : Heap K V} {reg} (hc : RegClosed h reg) (hr : RegOk f h reg) (hs : SameVecs h h') : RegClosed h' reg := by
  intro p a hx r ns hcell m hm j hj
  obtain ⟨r0, ns0, _, h1, -⟩ := hr p a hx
  obtain ⟨r', h2⟩ := hs _ _ _ h1
  rw [hcell] at h2; cases h2
  exact hc p a hx r0 ns h1 m hm j hj

structure LoadRes (f : File K V) (h h' : Heap K V) (reg reg' : List (Nat × Nat)) (Q : Nat → Prop) (c : Nat) : Prop where
  same : SameVecs h h'
  regOk : RegOk f h' reg'
  loaded : h.loaded → h'.loaded
  new : ∀ p a, (p, a) ∈ reg' → (p, a) ∈ reg ∨ (Q a ∧ ∃ us, ADen f p us ∧ Tree.counts us < c)
  mono : ∀ x ∈ reg, x ∈ reg'
  closed : RegClosed h reg → RegClosed h' reg'
  keys : (reg.map Prod.fst).Nodup → (reg'.map Prod.fst).Nodup
  addrs : (reg.map Prod.snd).Nodup → (reg'.map Prod.snd).Nodup

mutual
theorem loadVec_ok {f : File K V} : ∀ {p ts}, ADen f p ts → ∀ (h : Heap K V) (reg) (R), WF h R → RegOk f h reg →
    ∃ h' reg' a, loadVec f h reg p = some (h', reg', a) ∧ (∀ pre val, WF h' (⟨pre, val, .arc a⟩ :: R)) ∧
      (∀ pre val, Den h' ⟨pre, val, .arc a⟩ ⟨pre, val, ts⟩) ∧
      LoadRes f h h' reg reg' (fun i => ∀ pre val, NReach h' ⟨pre, val, .arc a⟩ i) (1 + Tree.counts ts) ∧ (p, a) ∈ reg'
  | p, ts, .vec (as := as) hp hn, h, reg, R, hw, hr => by
    rw [loadVec]
    cases hl : reg.lookup p with
    | some a =>
      obtain ⟨r, ns, us, h1, h2, h3⟩ := hr p a (lookup_mem hl)
      have hs := sameVecs_inc h a
      obtain ⟨r', h1'⟩ := hs _ _ _ h1
      have : ts = us := (ADen.vec hp hn).det h3
      subst this
      exact ⟨h.inc a, reg, a, rfl, fun pre val => hw.inc h1 pre val, fun pre val => .arc pre val h1' (h2.mono hs),
        ⟨hs, hr.mono hs, fun hl => loaded_inc hl a, fun _ _ h => .inl h, fun _ h => h, fun h => h.mono hr hs, fun h => h, fun h => h⟩, lookup_mem hl⟩
    | none =>
      obtain ⟨h1, reg1, ns, e1, w1, d1, n1, l1, t1⟩ := loadNodes_ok hn h reg R hw hr
      have hno : reg1.lookup p = none := by
        cases hx : reg1.lookup p with
        | none => rfl
        | some a =>
          rcases l1.new p a (lookup_mem hx) with hx | ⟨-, us, k2, k3⟩
          · have : (reg.lookup p).isSome := by
              rw [List.lookup_isSome_iff]; exact ⟨(p, a), hx, by simp⟩
            rw [hl] at this; cases this
          · rw [← (ADen.vec hp hn).det k2] at k3; omega
      simp only [hp, e1, Option.bind_eq_bind, Option.bind_some, hno, Option.isSome_none, Bool.false_eq_true, if_false]
      have hs := sameVecs_alloc w1 ns
      have hc : (h1.alloc ns).cell h1.next = some (1, ns) := by simp [Heap.alloc]
      refine ⟨_, _, _, rfl, fun pre val => w1.alloc pre val d1, fun pre val => .arc pre val hc (d1.mono hs), ⟨l1.same.trans hs, ?_, fun hl => loaded_alloc (l1.loaded hl) n1, ?_, fun x hx => List.mem_cons_of_mem _ (l1.mono x hx), ?_, ?_, ?_⟩, List.mem_cons_self ..⟩
      · intro q b hx
        rcases List.mem_cons.1 hx with hx | hx
        · cases hx; exact ⟨1, ns, ts, hc, d1.mono hs, .vec hp hn⟩
        · exact l1.regOk.mono hs q b hx
      · intro q b hx
        rcases List.mem_cons.1 hx with hx | hx
        · cases hx; exact .inr ⟨fun _ _ => .here rfl, ts, .vec hp hn, by omega⟩
        · rcases l1.new q b hx with hx | ⟨⟨m, hm, k1⟩, us, k2, k3⟩
          · exact .inl hx
          · exact .inr ⟨fun _ _ => .deeper rfl hc hm (k1.mono hs), us, k2, by omega⟩
      · intro hcl q b hx r' ns' hcell m hm j hj
        rcases List.mem_cons.1 hx with hx | hx
        · cases hx
          rw [hc] at hcell; cases hcell
          obtain ⟨q', hq⟩ := t1 m hm j hj
          exact ⟨q', List.mem_cons_of_mem _ hq⟩
        · obtain ⟨q', hq⟩ := (l1.closed hcl).mono l1.regOk hs q b hx r' ns' hcell m hm j hj
          exact ⟨q', List.mem_cons_of_mem _ hq⟩
      · intro hk
        simp only [List.map_cons, List.nodup_cons]
        refine ⟨fun hm => ?_, l1.keys hk⟩
        obtain ⟨x, hx, he⟩ := List.mem_map.1 hm
        rw [List.lookup_eq_none_iff] at hno
        have := hno x hx
        simp [he] at this
      · intro hk
        simp only [List.map_cons, List.nodup_cons]
        refine ⟨fun hm => ?_, l1.addrs hk⟩
        obtain ⟨x, hx, he⟩ := List.mem_map.1 hm
        obtain ⟨r, ns, us, k1, -⟩ := l1.regOk x.1 x.2 hx
        have := w1.lt k1
        omega
theorem loadNodes_ok {f : File K V} : ∀ {p as ts}, ANodes f p as ts → ∀ (h : Heap K V) (reg) (R), WF h R → RegOk f h reg →
    ∃ h' reg' ns, loadNodes f h reg p as = some (h', reg', ns) ∧ WF h' (ns ++ R) ∧ Dens h' ns ts ∧ (∀ m ∈ ns, m.loaded) ∧
      LoadRes f h h' reg reg' (fun i => ∃ m ∈ ns, NReach h' m i) (Tree.counts ts) ∧ ∀ m ∈ ns, ∀ j, m.kids = .arc j → ∃ q, (q, j) ∈ reg'
  | _, _, _, .nil p, h, reg, R, hw, hr => by
    rw [loadNodes]
    exact ⟨h, reg, [], rfl, hw, .nil, by simp, ⟨.refl h, hr, fun h => h, fun _ _ h => .inl h, fun _ h => h, fun h => h, fun h => h, fun h => h⟩, by simp⟩
  | p, _, _, .cons (as := as) (ts := ts) (us := us) a hle ha hn, h, reg, R, hw, hr => by
    obtain ⟨h1, reg1, b, e1, w1, d1, l1, m1⟩ := loadVec_ok ha h reg R hw hr
    obtain ⟨h2, reg2, ns, e2, w2, d2, n2, l2, t2⟩ := loadNodes_ok hn h1 reg1 _ (w1 a.pre a.val) l1.regOk
    rw [loadNodes, loadNode]
    simp only [e1, e2, Option.bind_eq_bind, Option.bind_some, if_pos hle]
    refine ⟨_, _, _, rfl, w2.perm (by simpa using List.perm_middle.symm), .cons ((d1 a.pre a.val).mono l2.same) d2, ?_,
      ⟨l1.same.trans l2.same, l2.regOk, fun hl => l2.loaded (l1.loaded hl), ?_, fun x hx => l2.mono x (l1.mono x hx), fun h => l2.closed (l1.closed h),
        fun h => l2.keys (l1.keys h), fun h => l2.addrs (l1.addrs h)⟩, ?_⟩
    rotate_left 2
    · intro m hm j hj
      rcases List.mem_cons.1 hm with rfl | hm
      · cases hj; exact ⟨_, l2.mono _ m1⟩
      · exact t2 m hm j hj
    · intro m hm
      rcases List.mem_cons.1 hm with rfl | hm
      · exact ⟨_, rfl⟩
      · exact n2 m hm
    intro q x hx
    rcases l2.new q x hx with hx | ⟨⟨m, hm, k1⟩, ws, k2, k3⟩
    · rcases l1.new q x hx with hx | ⟨k1, ws, k2, k3⟩
      · exact .inl hx
      · exact .inr ⟨⟨_, List.mem_cons_self .., (k1 a.pre a.val).mono l2.same⟩, ws, k2, by simp only [Tree.counts, Tree.count]; omega⟩
    · exact .inr ⟨⟨m, List.mem_cons_of_mem _ hm, k1⟩, ws, k2, by simp only [Tree.counts]; omega⟩
end

/-! ## the invariant -/
/-- the registry of a database, empty if it was taken -/
def Db.map (d : Db K V) : List (Nat × Nat) := (d.ser.getD ([], [])).1
/-- the held `Arc`s of a database -/
def Db.arcs (d : Db K V) : List Nat := (d.ser.getD ([], [])).2

/-- the part of the file the positions refer to: its last `pos` slots -/
def Db.body (d : Db K V) : File K V := d.name.drop (d.name.length - d.pos)

structure DbOk (d : Db K V) (σ : SpecDb K V) : Prop where
  ok : ∃ F, F.map Prod.fst = d.arcs.map holder ∧ Ok d.st F σ.vars
  pos : d.pos ≤ d.name.length
  map : MapOk d.st.heap d.body d.map
  held : ∀ id p, (id, p) ∈ d.map → id ∈ d.arcs
  file : ∀ t, σ.durable = some t → FileDen d.name t
  static : d.st.static.isSome

/-- the memory of the process is fully loaded -/
def Db.loaded (d : Db K V) : Prop := d.st.loaded

theorem Db.body_length {d : Db K V} (h : d.pos ≤ d.name.length) : d.body.length = d.pos := by
  simp only [Db.body, List.length_drop]; omega

theorem MapOk.heap {h h' : Heap K V} {f : File K V} {map} (hm : MapOk h f map)
    (hx : ∀ id p, (id, p) ∈ map → ∀ us, Den h (holder id) ⟨[], none, us⟩ → Den h' (holder id) ⟨[], none, us⟩) : MapOk h' f map := fun id p hmem => by
  obtain ⟨r, ns, us, h1, h2, h3⟩ := hm id p hmem
  cases hx id p hmem us (.arc [] none h1 h2) with
  | arc _ _ h1' h2' => exact ⟨_, _, us, h1', h2', h3⟩

theorem roots_eq {d : Db K V} {F} (hF : F.map Prod.fst = d.arcs.map holder) :
    (d.st.roots F).Perm (d.arcs.map holder ++ (d.st.roots [])) := by
  simp only [St.roots, others, List.map_append, hF, List.append_nil]
  rw [← List.append_assoc]
  exact List.perm_append_comm

/-- the state of a database with another heap and other held arcs -/
theorem ok_heap {s : St K V} {ts F F'} (ho : Ok s F ts) {h' : Heap K V} (hF : ∀ x ∈ F', Den h' x.1 x.2)
    (hw : WF h' (F'.map Prod.fst ++ s.roots [])) (hx : ∀ m ∈ s.roots [], ∀ u, Den s.heap m u → Den h' m u) : Ok { s with heap := h' } F' ts := by
  refine ⟨hw.perm ?_, ho.regs.heap fun m hm => hx m (List.mem_append_left _ hm), ?_⟩
  · show (s.regs.filterMap id ++ (others { s with heap := h' } F').map Prod.fst).Perm _
    simp only [St.roots, others, List.map_append, List.append_nil]
    rw [← List.append_assoc]
    exact List.perm_append_comm
  · intro x hxm
    simp only [others, List.mem_append] at hxm
    rcases hxm with hxm | hxm
    · have : x ∈ others s F := by simp only [others, List.mem_append]; exact .inl hxm
      refine hx _ ?_ _ (ho.frame x this)
      simp only [St.roots, others, List.append_nil]
      exact List.mem_append_right _ (List.mem_map_of_mem hxm)
    · exact hF x hxm

theorem DbOk.wf {d : Db K V} {σ} (hd : DbOk d σ) : WF d.st.heap (d.arcs.map holder ++ d.st.roots []) := by
  obtain ⟨F, h1, h2⟩ := hd.ok
  exact h2.wf.perm (roots_eq h1).symm

theorem prog_ok {d : Db K V} {σ : SpecDb K V} (hd : DbOk d σ) (p : Prog K V) :
    DbOk { d with st := (d.st.run p).1 } { σ with vars := (σ.vars.run p).1 } ∧ (d.st.run p).2 = (σ.vars.run p).2 := by
  obtain ⟨F, h1, h2⟩ := hd.ok
  obtain ⟨k1, k2, k3⟩ := run_ok p h2
  refine ⟨⟨⟨F, h1, k1⟩, hd.pos, ?_, hd.held, hd.file, by rw [k3]; exact hd.static⟩, k2⟩
  refine MapOk.heap hd.map fun id q hq us hden => ?_
  have : (holder id : Node K V) ∈ F.map Prod.fst := by rw [h1]; exact List.mem_map_of_mem (hd.held id q hq)
  obtain ⟨x, hx, hxe⟩ := List.mem_map.1 this
  have a1 := h2.frame x (List.mem_append_right _ hx)
  have a2 := k1.frame x (List.mem_append_right _ hx)
  rw [hxe] at a1 a2
  rw [hden.det a1]; exact a2
end Verif.Shared
