import Verif.Lemmas.RadixDbStep
namespace Verif.Shared
variable {K V : Type _}

theorem NReach.deeper' {h : Heap K V} {n : Node K V} {j r ns id} (hk : n.kids = .arc j) (hc : h.cell j = some (r, ns))
    (hr : ∃ m ∈ ns, NReach h m id) : NReach h n id := by
  obtain ⟨m, hm, hr⟩ := hr; exact .deeper hk hc hm hr

/-- what can be reached from a readable node is allocated -/
theorem Den.reach_cell {h : Heap K V} {n : Node K V} {t} (hd : Den h n t) {id} (hr : NReach h n id) : ∃ c, h.cell id = some c := by
  induction hr generalizing t with
  | here hk =>
    cases hd with
    | raw => cases hk
    | arc p v hc _ => cases hk; exact ⟨_, hc⟩
  | @deeper n j r ns m id hk hc hm hr ih =>
    cases hd with
    | raw => cases hk
    | arc p v hc0 hds =>
      cases hk
      rw [hc] at hc0; cases hc0
      obtain ⟨u, hu⟩ : ∃ u, Den h m u := Dens.all (P := fun m => ∃ u, Den h m u) hds (fun n _ t hd => ⟨t, hd⟩) m hm
      exact ih hu

theorem NoRaw.child {h : Heap K V} {n m : Node K V} {j r ns} (hn : NoRaw h n) (hk : n.kids = .arc j) (hc : h.cell j = some (r, ns)) (hm : m ∈ ns) :
    NoRaw h m :=
  ⟨hn.2 j (.here hk) r ns hc m hm, fun id hr => hn.2 id (.deeper hk hc hm hr)⟩

/-- with a registered vector, the vectors of its elements are registered -/
def MapClosed (h : Heap K V) (map : List (Nat × Nat)) : Prop :=
  ∀ id p, (id, p) ∈ map → ∀ r ns, h.cell id = some (r, ns) → ∀ m ∈ ns, ∀ j, m.kids = .arc j → ∃ q, (j, q) ∈ map

theorem MapClosed.reach {h : Heap K V} {map} (hc : MapClosed h map) {n : Node K V} {id} (hr : NReach h n id) :
    (∀ j, n.kids = .arc j → ∃ q, (j, q) ∈ map) → ∃ q, (id, q) ∈ map := by
  induction hr with
  | here hk => intro h; exact h _ hk
  | deeper hk hcj hm _ ih =>
    intro h
    obtain ⟨q, hq⟩ := h _ hk
    exact ih (fun j hj => hc _ q hq _ _ hcj _ hm j hj)

/-- how the registry and the buffer grow -/
structure Grow (h : Heap K V) (σ σ' : Ser K V) (news : List (Nat × Nat)) (Q : Nat → Prop) (raw : Prop) (top : Nat → Prop) : Prop where
  map : σ'.map = news ++ σ.map
  nodup : (news.map Prod.fst).Nodup
  fresh : ∀ x ∈ news, σ.map.lookup x.1 = none ∧ Q x.1
  len : raw → σ'.buf.length = σ.buf.length + news.length
  closed : MapClosed h σ.map → MapClosed h σ'.map
  top : ∀ j, top j → ∃ q, (j, q) ∈ σ'.map

theorem lookup_append_none {a b : List (Nat × Nat)} {k : Nat} (h : (a ++ b).lookup k = none) : b.lookup k = none ∧ k ∉ a.map Prod.fst := by
  rw [List.lookup_eq_none_iff] at h
  constructor
  · rw [List.lookup_eq_none_iff]; intro x hx; exact h x (List.mem_append_right _ hx)
  · intro hm
    obtain ⟨x, hx, rfl⟩ := List.mem_map.1 hm
    have := h x (List.mem_append_left _ hx)
    simp at this

mutual
theorem serKids_grow {h : Heap K V} {base : Nat} : ∀ {n t}, Den h n t → ∀ (σ σ' : Ser K V) (p : Nat), serKids h base σ n = some (σ', p) →
    ∃ news, Grow h σ σ' news (NReach h n) (NoRaw h n) (fun j => n.kids = .arc j)
  | _, _, .raw pr v ts, σ, σ', p, he => by
    rw [serKids] at he
    obtain ⟨h1, h2, h3⟩ := serRawKids_ok (body := List.replicate base (.vec [])) (base := base) (List.length_replicate ..) ⟨pr, v, ts⟩ σ
    simp only [Option.some.injEq] at he
    rw [he] at h1
    exact ⟨[], by simpa using h1, by simp, by simp, fun hr => absurd rfl (hr.1 ts), fun hc => by rw [h1]; exact hc, fun j hj => by cases hj⟩
  | _, _, .arc (id := id) (r := r) (ns := ns) (ts := ts) pr v hc hd, σ, σ', p, he => by
    rw [serKids] at he
    simp only at he
    rw [serArc] at he
    cases hl : σ.map.lookup id with
    | some q =>
      rw [hl] at he
      simp only [Option.some.injEq, Prod.mk.injEq] at he
      obtain ⟨rfl, -⟩ := he
      exact ⟨[], rfl, by simp, by simp, fun _ => rfl, fun hc => hc, fun j hj => by cases hj; exact ⟨q, lookup_mem hl⟩⟩
    | none =>
      rw [hl] at he
      simp only [hc, Option.bind_eq_bind] at he
      cases hs : serNodes h base σ ns with
      | none => rw [hs] at he; cases he
      | some x =>
        obtain ⟨σ1, ps⟩ := x
        rw [hs] at he
        simp only [Option.bind_some] at he
        split at he
        · cases he
        · rename_i hno
          have hno : σ1.map.lookup id = none := by
            cases hx : σ1.map.lookup id with
            | none => rfl
            | some q => rw [hx] at hno; simp at hno
          cases he
          obtain ⟨news, g⟩ := serNodes_grow hd σ σ1 ps hs
          refine ⟨(id, base + σ1.buf.length) :: news, by simp [g.map], ?_, ?_, ?_, ?_, ?_⟩
          · rw [g.map] at hno
            simp only [List.map_cons, List.nodup_cons]
            exact ⟨(lookup_append_none hno).2, g.nodup⟩
          · intro x hx
            rcases List.mem_cons.1 hx with rfl | hx
            · exact ⟨hl, .here rfl⟩
            · exact ⟨(g.fresh x hx).1, .deeper' rfl hc (g.fresh x hx).2⟩
          · intro hr
            have := g.len (fun m hm => hr.child rfl hc hm)
            simp only [List.length_append, List.length_cons, List.length_nil, this]; omega
          · intro hcl id' p' hx r' ns' hc' m hm j hj
            rcases List.mem_cons.1 hx with hx | hx
            · cases hx
              rw [hc] at hc'; cases hc'
              obtain ⟨q, hq⟩ := g.top j ⟨m, hm, hj⟩
              exact ⟨q, List.mem_cons_of_mem _ hq⟩
            · obtain ⟨q, hq⟩ := g.closed hcl id' p' hx r' ns' hc' m hm j hj
              exact ⟨q, List.mem_cons_of_mem _ hq⟩
          · intro j hj; cases hj; exact ⟨_, List.mem_cons_self ..⟩
theorem serNodes_grow {h : Heap K V} {base : Nat} : ∀ {ns ts}, Dens h ns ts → ∀ (σ σ' : Ser K V) (ps : List Nat), serNodes h base σ ns = some (σ', ps) →
    ∃ news, Grow h σ σ' news (fun i => ∃ m ∈ ns, NReach h m i) (∀ m ∈ ns, NoRaw h m) (fun j => ∃ m ∈ ns, m.kids = .arc j)
  | _, _, .nil, σ, σ', ps, he => by
    rw [serNodes] at he
    cases he
    exact ⟨[], rfl, by simp, by simp, fun _ => rfl, fun hc => hc, by rintro j ⟨m, hm, _⟩; cases hm⟩
  | _, _, .cons (n := n) (t := t) (ns := ns) (ts := ts) d1 d2, σ, σ', ps, he => by
    rw [serNodes] at he
    simp only [Option.bind_eq_bind] at he
    cases h1 : serKids h base σ n with
    | none => rw [h1] at he; cases he
    | some x =>
      obtain ⟨σ1, p1⟩ := x
      rw [h1] at he
      simp only [Option.bind_some] at he
      cases h2 : serNodes h base σ1 ns with
      | none => rw [h2] at he; cases he
      | some y =>
        obtain ⟨σ2, ps2⟩ := y
        rw [h2] at he
        cases he
        obtain ⟨n1, g1⟩ := serKids_grow d1 σ σ1 p1 h1
        obtain ⟨n2, g2⟩ := serNodes_grow d2 σ1 σ2 ps2 h2
        refine ⟨n2 ++ n1, by rw [g2.map, g1.map, List.append_assoc], ?_, ?_, ?_, fun hc => g2.closed (g1.closed hc), ?_⟩
        · rw [List.map_append, List.nodup_append]
          refine ⟨g2.nodup, g1.nodup, ?_⟩
          intro a ha b hb e
          subst e
          obtain ⟨x, hx, rfl⟩ := List.mem_map.1 ha
          have := (g2.fresh x hx).1
          rw [g1.map] at this
          exact (lookup_append_none this).2 hb
        · intro x hx
          rcases List.mem_append.1 hx with hx | hx
          · obtain ⟨k1, m, hm, k2⟩ := g2.fresh x hx
            rw [g1.map] at k1
            exact ⟨(lookup_append_none k1).1, m, List.mem_cons_of_mem _ hm, k2⟩
          · obtain ⟨k1, k2⟩ := g1.fresh x hx
            exact ⟨k1, n, List.mem_cons_self .., k2⟩
        · intro hr
          have a1 := g1.len (hr n (List.mem_cons_self ..))
          have a2 := g2.len (fun m hm => hr m (List.mem_cons_of_mem _ hm))
          simp only [List.length_append]; omega
        · rintro j ⟨m, hm, hj⟩
          rcases List.mem_cons.1 hm with rfl | hm
          · obtain ⟨q, hq⟩ := g1.top j hj
            exact ⟨q, by rw [g2.map]; exact List.mem_append_right _ hq⟩
          · exact g2.top j ⟨m, hm, hj⟩
end

/-- `serialize_value` writes one slot for each vector that was not registered, and the root -/
theorem serialize_grow {h : Heap K V} {base : Nat} {n : Node K V} {t : Tree K V} (hd : Den h n t) {map map' : List (Nat × Nat)} {f : File K V}
    (he : serialize h base map n = some (map', f)) : ∃ news, map' = news ++ map ∧ (news.map Prod.fst).Nodup ∧
      (∀ x ∈ news, map.lookup x.1 = none ∧ NReach h n x.1) ∧ (NoRaw h n → f.length = news.length + 1) ∧
      (MapClosed h map → ∀ id, NReach h n id → ∃ q, (id, q) ∈ map') ∧ (MapClosed h map → MapClosed h map') := by
  simp only [serialize, Option.bind_eq_bind] at he
  cases h1 : serKids h base ⟨map, []⟩ n with
  | none => rw [h1] at he; cases he
  | some x =>
    obtain ⟨σ', p⟩ := x
    rw [h1] at he
    cases he
    obtain ⟨news, g⟩ := serKids_grow hd _ _ _ h1
    refine ⟨news, g.map, g.nodup, g.fresh, fun hr => ?_, fun hc id hr => (g.closed hc).reach hr g.top, g.closed⟩
    have := g.len hr
    simp only [List.length_append, List.length_singleton, this, List.length_nil]; omega

/-- if the child vector of the root is registered, only the root is written -/
theorem serialize_registered {h : Heap K V} {base : Nat} {n : Node K V} {id q} {map : List (Nat × Nat)} (hk : n.kids = .arc id)
    (hl : map.lookup id = some q) : serialize h base map n = some (map, [.root ⟨n.pre, n.val, base - q⟩]) := by
  simp only [serialize, Option.bind_eq_bind]
  rw [serKids]
  simp only [hk]
  rw [serArc]
  simp only [hl, Option.bind_some, List.length_nil, Nat.add_zero, List.nil_append]
end Verif.Shared
