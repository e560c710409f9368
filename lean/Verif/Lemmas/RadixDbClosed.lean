import Verif.Lemmas.RadixDbCount
import Verif.Lemmas.SharedKeep
/-! # The registry contains everything that was saved, and below it everything -/
namespace Verif.Shared
variable {K V : Type _}

theorem mapClosed_keep {h h' : Heap K V} {map} (hx : ∀ id p, (id, p) ∈ map → (∃ c, h.cell id = some c) ∧ KeepAt id h h') (hc : MapClosed h map) :
    MapClosed h' map := by
  intro id p hm r ns hcell m hmem j hj
  obtain ⟨⟨⟨r0, ns0⟩, h1⟩, h2⟩ := hx id p hm
  obtain ⟨r', h3⟩ := h2 r0 ns0 h1
  rw [hcell] at h3; cases h3
  exact hc id p hm r0 ns h1 m hmem j hj

theorem mapOk_cell {h : Heap K V} {f : File K V} {map} (hm : MapOk h f map) {id p} (hx : (id, p) ∈ map) : ∃ c, h.cell id = some c := by
  obtain ⟨r, ns, us, h1, -⟩ := hm id p hx; exact ⟨_, h1⟩

theorem refs_holder {id : Nat} {arcs : List Nat} (h : id ∈ arcs) : 0 < refs id (arcs.map (holder (K := K) (V := V))) := by
  simp only [refs, List.countP_pos_iff]
  exact ⟨holder id, List.mem_map_of_mem h, by simp [holder, Node.isArc]⟩

def Db.closed (d : Db K V) : Prop := MapClosed d.st.heap d.map

/-- everything reachable from `db.tree` is registered -/
def Db.saved (d : Db K V) : Prop := ∀ n, d.st.regs[0]? = some (some n) → ∀ id, NReach d.st.heap n id → ∃ q, (id, q) ∈ d.map

theorem NReach.back {h h' : Heap K V} (hs : SameVecs h h') {n : Node K V} {t} (hd : Den h n t) {id} (hr : NReach h' n id) : NReach h n id := by
  induction hr generalizing t with
  | here hk => exact .here hk
  | @deeper n j r ns m id hk hc hm hr ih =>
    cases hd with
    | raw => cases hk
    | arc p v hc0 hds =>
      cases hk
      obtain ⟨r', h1⟩ := hs _ _ _ hc0
      rw [hc] at h1; cases h1
      obtain ⟨u, hu⟩ : ∃ u, Den h m u := Dens.all (P := fun m => ∃ u, Den h m u) hds (fun n _ t hd => ⟨t, hd⟩) m hm
      exact .deeper rfl hc0 hm (ih hu)

theorem prog_closed {d : Db K V} {σ : SpecDb K V} (hd : DbOk d σ) (hl : d.loaded) (hc : d.closed) {p : Prog K V} (hp : p.arcOnly) :
    Db.closed { d with st := (d.st.run p).1 } := by
  obtain ⟨F, hF, ho⟩ := hd.ok
  refine mapClosed_keep (fun id q hx => ⟨mapOk_cell hd.map hx, ?_⟩) hc
  exact run_keep p ho hl hd.static hp (by rw [hF]; exact refs_holder (hd.held id q hx))

theorem flush_closed {d d' : Db K V} {σ : SpecDb K V} (hd : DbOk d σ) (hc : d.closed) {io : FlushIo} (hf : d.flush io = some d') :
    d'.closed ∧ (io = .ok → d'.saved) := by
  obtain ⟨F, hF, ho⟩ := hd.ok
  rcases var0 ho with ⟨n, t, hn, ht, hden⟩ | ⟨hn, ht⟩
  · obtain ⟨map', vecs, a, e1, -⟩ := serialize_ok (Db.body_length hd.pos) hden hd.map
    obtain ⟨h', into', q1, q2⟩ := allArcs_ok hden d.st.heap d.arcs (d.st.roots []) (.refl _) hd.wf
    obtain ⟨news, g1, g2, g3, g4, g5, g6⟩ := serialize_grow hden e1
    have e1' : serialize d.st.heap d.pos (d.ser.getD ([], [])).1 n = some (map', vecs ++ [Slot.root a]) := e1
    have q1' : allArcs d.st.heap (d.ser.getD ([], [])).2 n = some (h', into') := q1
    simp only [Db.flush, hn, e1', q1', Option.bind_eq_bind, Option.bind_some] at hf
    cases io with
    | fail k => cases hf; exact ⟨fun id p hx => by simp [Db.map] at hx, fun h => by cases h⟩
    | ok =>
      cases hf
      refine ⟨?_, fun _ n' hn' id hr => ?_⟩
      · refine mapClosed_keep (h := d.st.heap) (fun id p hx => ⟨?_, q2.same.keep id⟩) (g6 hc)
        simp only [Db.map, Option.getD_some, g1] at hx
        rcases List.mem_append.1 hx with hx | hx
        · exact hden.reach_cell (g3 _ hx).2
        · exact mapOk_cell hd.map hx
      · simp only at hn' hr
        rw [hn] at hn'; cases hn'
        exact g5 hc id (hr.back q2.same hden)
  · have : d.flush io = some d := by simp only [Db.flush]
    rw [this] at hf; cases hf
    exact ⟨hc, fun _ n hn' => absurd hn' (hn n)⟩

theorem vacuum_closed {d d' : Db K V} {σ : SpecDb K V} (hd : DbOk d σ) (hc : d.closed) {io : VacuumIo} (hf : d.vacuum io = some d') :
    d'.closed ∧ (io = .ok → d'.saved) := by
  obtain ⟨F, hF, ho⟩ := hd.ok
  rcases var0 ho with ⟨n, t, hn, ht, hden⟩ | ⟨hn, ht⟩
  · obtain ⟨map', vecs, a, e1, -⟩ := serialize_ok (body := []) (base := 0) rfl hden (map := []) (by intro id p h; cases h)
    obtain ⟨h', into', q1, q2⟩ := allArcs_ok hden d.st.heap [] (d.arcs.map holder ++ d.st.roots []) (.refl _) hd.wf
    obtain ⟨news, g1, g2, g3, g4, g5, g6⟩ := serialize_grow hden e1
    have hnil : MapClosed d.st.heap [] := by intro id p h; cases h
    simp only [Db.vacuum, hn, e1, q1, Option.bind_eq_bind, Option.bind_some] at hf
    have hw : WF h' (d.arcs.map holder ++ (into'.map holder ++ d.st.roots [])) := by
      refine q2.wf.perm ?_
      rw [← List.append_assoc, ← List.append_assoc]
      exact List.perm_append_comm.append_right _
    have failed : MapClosed (h'.drop (into'.map holder)) d.map := by
      refine mapClosed_keep (h := d.st.heap) (fun id p hx => ⟨mapOk_cell hd.map hx, (q2.same.keep id).trans ?_⟩) hc
      refine dropAll_keep _ _ _ _ q2.wf ?_
      rw [refs_append]
      have := refs_holder (K := K) (V := V) (hd.held id p hx); omega
    cases io with
    | fail k => cases hf; exact ⟨failed, fun h => by cases h⟩
    | failMv => cases hf; exact ⟨failed, fun h => by cases h⟩
    | ok =>
      cases hf
      have hkeep : ∀ id, NReach d.st.heap n id → KeepAt id d.st.heap (h'.drop (d.arcs.map holder)) := by
        intro id hr
        refine (q2.same.keep id).trans (dropAll_keep _ _ _ _ hw ?_)
        rw [refs_append]
        have := refs_holder (K := K) (V := V) (q2.all id hr); omega
      have hreach : ∀ {m id}, NReach (h'.drop (d.arcs.map holder)) m id → (∀ i, NReach d.st.heap m i → NReach d.st.heap n i) → (∃ u, Den d.st.heap m u) →
          NReach d.st.heap m id := by
        intro m id hr
        induction hr with
        | here hk => intro _ _; exact .here hk
        | @deeper m j r ns c id hk hcj hm hr ih =>
          intro hsub hu
          obtain ⟨u, hu⟩ := hu
          cases hu with
          | raw => cases hk
          | arc p v hc0 hds =>
            cases hk
            obtain ⟨r', h1⟩ := hkeep _ (hsub _ (.here rfl)) _ _ hc0
            rw [hcj] at h1; cases h1
            exact .deeper rfl hc0 hm (ih (fun i hi => hsub i (.deeper rfl hc0 hm hi))
              (Dens.all (P := fun m => ∃ u, Den d.st.heap m u) hds (fun n _ t hd => ⟨t, hd⟩) c hm))
      refine ⟨?_, fun _ n' hn' id hr => ?_⟩
      · refine mapClosed_keep (h := d.st.heap) (fun id p hx => ?_) (g6 hnil)
        simp only [Db.map, Option.getD_some, g1, List.append_nil] at hx
        exact ⟨hden.reach_cell (g3 _ hx).2, hkeep id (g3 _ hx).2⟩
      · simp only at hn' hr
        rw [hn] at hn'; cases hn'
        exact g5 hnil id (hreach hr (fun _ h => h) ⟨t, hden⟩)
  · have : d.vacuum io = some d := by simp only [Db.vacuum]
    rw [this] at hf; cases hf
    exact ⟨hc, fun _ n hn' => absurd hn' (hn n)⟩

theorem load_closed {name tmp : File K V} {t : Tree K V} (hf : FileDen name t) {d : Db K V} (hd : Db.load name tmp = some d) :
    d.closed ∧ (name ≠ [] → d.saved ∧ (d.map.map Prod.fst).Nodup ∧ (d.map.map Prod.snd).Nodup ∧
      ∀ n, d.st.regs[0]? = some (some n) → ∀ id p, (id, p) ∈ d.map → NReach d.st.heap n id ∧ ∃ as, name[p]? = some (.vec as)) := by
  have hst := ok_start (K := K) (V := V) true
  rcases hf with ⟨rfl, rfl⟩ | ⟨a, us, h1, h2, h3, rfl⟩
  · cases hd
    exact ⟨fun id p hx => by simp [Db.map] at hx, fun h => absurd rfl h⟩
  · obtain ⟨h', reg', b, e1, w1, d1, l1, m1⟩ := loadVec_ok h3 (St.start true : St K V).heap [] ((St.start true : St K V).roots []) hst.wf (by intro p a h; cases h)
    have hn := d1 a.pre a.val
    have hw := w1 a.pre a.val
    obtain ⟨h'', into', q1, q2⟩ := allArcs_ok hn h' [] _ (.refl _) hw
    simp only [Db.load, h1, loadNode, if_pos h2, e1, Option.bind_eq_bind, Option.bind_some, q1, Option.some.injEq] at hd
    subst hd
    have hcl := l1.closed (by intro p a h; cases h)
    have hclosed : MapClosed h' (reg'.map (fun x => (x.2, x.1))) := by
      intro id p hx r ns hc m hm j hj
      obtain ⟨⟨p', a'⟩, hx', he⟩ := List.mem_map.1 hx
      cases he
      obtain ⟨q, hq⟩ := hcl _ _ hx' r ns hc m hm j hj
      exact ⟨q, List.mem_map.2 ⟨_, hq, rfl⟩⟩
    refine ⟨?_, fun _ => ⟨?_, ?_, ?_, ?_⟩⟩
    · refine mapClosed_keep (h := h') (fun id p hx => ⟨?_, q2.same.keep id⟩) hclosed
      obtain ⟨⟨p', a'⟩, hx', he⟩ := List.mem_map.1 hx
      cases he
      obtain ⟨r, ns, ws, k1, -⟩ := l1.regOk _ _ hx'
      exact ⟨_, k1⟩
    · intro n hn' id hr
      simp only [List.length_cons, List.length_nil, List.getElem?_cons_zero, Option.some.injEq] at hn'
      subst hn'
      refine hclosed.reach (hr.back q2.same hn) fun j hj => ?_
      cases hj
      exact ⟨_, List.mem_map.2 ⟨_, m1, rfl⟩⟩
    · have := l1.addrs (by simp)
      simpa only [Db.map, Option.getD_some, List.map_map, Function.comp_def] using this
    · have := l1.keys (by simp)
      simpa only [Db.map, Option.getD_some, List.map_map, Function.comp_def] using this
    · intro n hn' id p hx
      simp only [List.length_cons, List.length_nil, List.getElem?_cons_zero, Option.some.injEq] at hn'
      subst hn'
      simp only [Db.map, Option.getD_some, List.mem_map] at hx
      obtain ⟨⟨p', a'⟩, hx, he⟩ := hx
      cases he
      rcases l1.new _ _ hx with hx | ⟨k1, ws, k2, -⟩
      · cases hx
      · refine ⟨(k1 a.pre a.val).mono q2.same, ?_⟩
        cases k2 with
        | vec hp _ => exact ⟨_, hp⟩

theorem dbStep_closed {d d' : Db K V} {σ σ' : SpecDb K V} (hd : DbOk d σ) (hl : d.loaded) (hc : d.closed) (op : DbOp K V) {obs}
    (hs : σ.step op = some (σ', obs)) (ha : arcOps [op]) {o} (h : d.step op = some (d', o)) : d'.closed := by
  cases op with
  | prog p =>
    simp only [Db.step, Option.some.injEq, Prod.mk.injEq] at h
    obtain ⟨rfl, -⟩ := h
    exact prog_closed hd hl hc (ha p (by simp))
  | flush io =>
    simp only [Db.step] at h
    split at h
    · rename_i d1 h1; cases h; exact (flush_closed hd hc h1).1
    · cases h
  | vacuum io =>
    simp only [Db.step] at h
    split at h
    · rename_i d1 h1; cases h; exact (vacuum_closed hd hc h1).1
    · cases h
  | restart =>
    simp only [Db.step] at h
    split at h
    · rename_i d1 h1
      cases h
      simp only [SpecDb.step] at hs
      split at hs
      · rename_i t ht; exact (load_closed (hd.file t ht) h1).1
      · cases hs
    · cases h

theorem dbHistory_closed : ∀ (ops : List (DbOp K V)) {d d' : Db K V} {σ σ' : SpecDb K V} {obs o}, DbOk d σ → d.loaded → d.closed → arcOps ops →
    σ.history ops = some (σ', obs) → d.history ops = some (d', o) → d'.closed
  | [], d, d', σ, σ', obs, o, hd, hl, hc, ha, hs, h => by
    simp only [Db.history, Option.some.injEq, Prod.mk.injEq] at h
    obtain ⟨rfl, -⟩ := h; exact hc
  | op :: ops, d, d', σ, σ', obs, o, hd, hl, hc, ha, hs, h => by
    simp only [SpecDb.history] at hs
    split at hs
    · cases hs
    · rename_i σ1 o1 h1
      split at hs
      · cases hs
      · rename_i σ2 os h2
        cases hs
        have ha1 : arcOps [op] := fun p hp => ha p (by simp at hp; simp [hp])
        have ha2 : arcOps ops := fun p hp => ha p (List.mem_cons_of_mem _ hp)
        obtain ⟨d1, k1, k2, k3⟩ := dbStep_ok hd op h1
        simp only [Db.history, k1] at h
        split at h
        · cases h
        · rename_i d2 os2 h3
          cases h
          exact dbHistory_closed ops k2 (k3 hl ha1) (dbStep_closed hd hl hc op h1 ha1 k1) ha2 h2 h3
end Verif.Shared
