import Verif.Lemmas.SharedStep
import Verif.Spec.RadixDb
namespace Verif.Shared
variable {K V : Type _}

/-! ## files -/
mutual
theorem ADen.mono {f : File K V} (g : File K V) : ∀ {p ts}, ADen f p ts → ADen (f ++ g) p ts
  | _, _, .vec h1 h2 => by
    refine .vec ?_ (ANodes.mono g h2)
    rw [List.getElem?_append_left (lt_of_getElem? h1)]; exact h1
theorem ANodes.mono {f : File K V} (g : File K V) : ∀ {p as ts}, ANodes f p as ts → ANodes (f ++ g) p as ts
  | _, _, _, .nil p => .nil p
  | _, _, _, .cons a h1 h2 h3 => .cons a h1 (ADen.mono g h2) (ANodes.mono g h3)
end

mutual
theorem ADen.shift {f : File K V} (j : File K V) : ∀ {p ts}, ADen f p ts → ADen (j ++ f) (j.length + p) ts
  | _, _, .vec h1 h2 => by
    refine .vec ?_ (ANodes.shift j h2)
    rw [List.getElem?_append_right (Nat.le_add_right ..), Nat.add_sub_cancel_left]; exact h1
theorem ANodes.shift {f : File K V} (j : File K V) : ∀ {p as ts}, ANodes f p as ts → ANodes (j ++ f) (j.length + p) as ts
  | _, _, _, .nil p => .nil _
  | p, _, _, .cons a h1 h2 h3 => by
    refine .cons a (by omega) ?_ (ANodes.shift j h3)
    have := ADen.shift j h2
    rwa [show j.length + p - a.off = j.length + (p - a.off) by omega]
end

theorem ADen.lt {f : File K V} {p ts} (h : ADen f p ts) : p < f.length := by
  cases h with | vec h1 _ => exact lt_of_getElem? h1

mutual
theorem ADen.det {f : File K V} : ∀ {p ts ts'}, ADen f p ts → ADen f p ts' → ts = ts'
  | _, _, _, .vec h1 h2, .vec g1 g2 => by rw [h1] at g1; cases g1; exact ANodes.det h2 g2
theorem ANodes.det {f : File K V} : ∀ {p as ts ts'}, ANodes f p as ts → ANodes f p as ts' → ts = ts'
  | _, _, _, _, .nil _, .nil _ => rfl
  | _, _, _, _, .cons a _ h2 h3, .cons _ _ g2 g3 => by rw [ADen.det h2 g2, ANodes.det h3 g3]
end

/-- pointwise: the child vectors of the trees are at the positions -/
inductive PAll (f : File K V) : List Nat → List (Tree K V) → Prop
  | nil : PAll f [] []
  | cons {p ps t ts} : ADen f p t.kids → PAll f ps ts → PAll f (p :: ps) (t :: ts)

theorem PAll.mono {f : File K V} (g) : ∀ {ps ts}, PAll f ps ts → PAll (f ++ g) ps ts
  | _, _, .nil => .nil
  | _, _, .cons h1 h2 => .cons (h1.mono g) (h2.mono g)

theorem archive_ok {f : File K V} {h : Heap K V} {pos : Nat} (hp : f.length ≤ pos) : ∀ {ns ts ps}, Dens h ns ts → PAll f ps ts →
    ∀ g, ANodes (f ++ g) pos (archive pos ns ps) ts
  | _, _, _, .nil, .nil, g => .nil _
  | _, _, _, .cons (t := t) h1 h2, .cons (p := p) h3 h4, g => by
    have e1 := h1.pre
    have e2 := h1.val
    have hlt := h3.lt
    cases t
    simp only at e1 e2 h3
    simp only [archive]
    rw [e1, e2]
    refine .cons _ (Nat.sub_le ..) ?_ (archive_ok hp h2 h4 g)
    rw [show pos - (pos - p) = p by omega]; exact h3.mono g

theorem NReach.mono {h h' : Heap K V} (hs : SameVecs h h') {n id} (hr : NReach h n id) : NReach h' n id := by
  induction hr with
  | here hk => exact .here hk
  | deeper hk hc hm _ ih => obtain ⟨r', hc'⟩ := hs _ _ _ hc; exact .deeper hk hc' hm ih

theorem lookup_mem {l : List (Nat × Nat)} {a b : Nat} (h : l.lookup a = some b) : (a, b) ∈ l := by
  induction l with
  | nil => simp at h
  | cons x l ih =>
    obtain ⟨y, z⟩ := x
    rw [List.lookup_cons] at h
    split at h
    · rename_i e; cases h; rw [beq_iff_eq] at e; subst e; exact List.mem_cons_self ..
    · exact List.mem_cons_of_mem _ (ih h)

/-! ## serialisation -/
/-- every registered address holds a vector that is in the file at the registered position -/
def MapOk (h : Heap K V) (f : File K V) (map : List (Nat × Nat)) : Prop :=
  ∀ id p, (id, p) ∈ map → ∃ r ns us, h.cell id = some (r, ns) ∧ Dens h ns us ∧ ADen f p us

theorem MapOk.mono {h : Heap K V} {f : File K V} {map} (g) (hm : MapOk h f map) : MapOk h (f ++ g) map := fun id p hx => by
  obtain ⟨r, ns, us, h1, h2, h3⟩ := hm id p hx; exact ⟨r, ns, us, h1, h2, h3.mono g⟩

/-- only child vectors -/
def OnlyVecs (f : File K V) : Prop := ∀ s ∈ f, ∃ as, s = .vec as

mutual
theorem serRaw_ok {body : File K V} {base : Nat} (hb : body.length = base) : ∀ (ts : List (Tree K V)) (σ : Ser K V),
    (serRaw base σ ts).1.map = σ.map ∧ (∃ e, (serRaw base σ ts).1.buf = σ.buf ++ e ∧ OnlyVecs e) ∧
    PAll (body ++ (serRaw base σ ts).1.buf) (serRaw base σ ts).2 ts
  | [], σ => ⟨rfl, ⟨[], by simp [serRaw], by simp [OnlyVecs]⟩, .nil⟩
  | t :: ts, σ => by
    obtain ⟨h1, ⟨e, h2, h2'⟩, h3⟩ := serRawKids_ok hb t σ
    obtain ⟨k1, ⟨e', k2, k2'⟩, k3⟩ := serRaw_ok hb ts (serRawKids base σ t).1
    simp only [serRaw]
    refine ⟨k1.trans h1, ⟨e ++ e', by rw [k2, h2, List.append_assoc], ?_⟩, .cons ?_ k3⟩
    · intro s hs
      rcases List.mem_append.1 hs with hs | hs
      · exact h2' s hs
      · exact k2' s hs
    · rw [k2, ← List.append_assoc]; exact h3.mono _
theorem serRawKids_ok {body : File K V} {base : Nat} (hb : body.length = base) : ∀ (t : Tree K V) (σ : Ser K V),
    (serRawKids base σ t).1.map = σ.map ∧ (∃ e, (serRawKids base σ t).1.buf = σ.buf ++ e ∧ OnlyVecs e) ∧
    ADen (body ++ (serRawKids base σ t).1.buf) (serRawKids base σ t).2 t.kids
  | ⟨p, v, ks⟩, σ => by
    obtain ⟨h1, ⟨e, h2, h2'⟩, h3⟩ := serRaw_ok hb ks σ
    simp only [serRawKids, Ser.push]
    refine ⟨h1, ⟨e ++ [_], by rw [h2, List.append_assoc], ?_⟩, ?_⟩
    · intro s hs
      rcases List.mem_append.1 hs with hs | hs
      · exact h2' s hs
      · simp only [List.mem_singleton] at hs; exact ⟨_, hs⟩
    · have hl : (body ++ (serRaw base σ ks).1.buf).length = base + (serRaw base σ ks).1.buf.length := by rw [List.length_append, hb]
      rw [← List.append_assoc]
      refine .vec (as := archive (base + (serRaw base σ ks).1.buf.length) (ks.map rawNode) (serRaw base σ ks).2) ?_ ?_
      · rw [← hl]; simp
      · exact archive_ok (h := ⟨fun _ => none, 0⟩) (Nat.le_of_eq hl) (dens_rawNodes _ ks) h3 _
end

/-- the result of serialising something reachable as `R` with size below `c` -/
structure SerRes (h : Heap K V) (body : File K V) (σ σ' : Ser K V) (R : Nat → Prop) (c : Nat) : Prop where
  map : MapOk h (body ++ σ'.buf) σ'.map
  ext : ∃ e, σ'.buf = σ.buf ++ e ∧ OnlyVecs e
  old : ∀ x ∈ σ.map, x ∈ σ'.map
  new : ∀ id p, (id, p) ∈ σ'.map → (id, p) ∈ σ.map ∨
    (R id ∧ ∃ r ns us, h.cell id = some (r, ns) ∧ Dens h ns us ∧ Tree.counts us < c)

theorem SerRes.trans {h : Heap K V} {body : File K V} {σ σ' σ'' : Ser K V} {R R' R'' : Nat → Prop} {c c' c'' : Nat}
    (h1 : SerRes h body σ σ' R c) (h2 : SerRes h body σ' σ'' R' c') (r1 : ∀ i, R i → R'' i) (r2 : ∀ i, R' i → R'' i) (e1 : c ≤ c'') (e2 : c' ≤ c'') :
    SerRes h body σ σ'' R'' c'' := by
  obtain ⟨e, x1, x2⟩ := h1.ext
  obtain ⟨e', y1, y2⟩ := h2.ext
  refine ⟨h2.map, ⟨e ++ e', by rw [y1, x1, List.append_assoc], ?_⟩, fun x hx => h2.old x (h1.old x hx), ?_⟩
  · intro s hs
    rcases List.mem_append.1 hs with hs | hs
    · exact x2 s hs
    · exact y2 s hs
  · intro id p hx
    rcases h2.new id p hx with hx | ⟨k1, r, ns, us, k2, k3, k4⟩
    · rcases h1.new id p hx with hx | ⟨k1, r, ns, us, k2, k3, k4⟩
      · exact .inl hx
      · exact .inr ⟨r1 _ k1, r, ns, us, k2, k3, by omega⟩
    · exact .inr ⟨r2 _ k1, r, ns, us, k2, k3, by omega⟩

mutual
theorem serKids_ok {h : Heap K V} {body : File K V} {base : Nat} (hb : body.length = base) : ∀ {n t}, Den h n t → ∀ (σ : Ser K V),
    MapOk h (body ++ σ.buf) σ.map → ∃ σ' p, serKids h base σ n = some (σ', p) ∧ SerRes h body σ σ' (NReach h n) (Tree.count t) ∧
      ADen (body ++ σ'.buf) p t.kids ∧ ∀ id, n.kids = .arc id → ∃ q, σ'.map.lookup id = some q
  | _, _, .raw p v ts, σ, hm => by
    obtain ⟨h1, h2, h3⟩ := serRawKids_ok hb ⟨p, v, ts⟩ σ
    rw [serKids]
    refine ⟨(serRawKids base σ ⟨p, v, ts⟩).1, (serRawKids base σ ⟨p, v, ts⟩).2, rfl, ?_, h3, fun id e => by cases e⟩
    refine ⟨?_, h2, fun x hx => by rw [h1]; exact hx, fun id p hx => .inl (by rw [h1] at hx; exact hx)⟩
    obtain ⟨e, h2, -⟩ := h2
    rw [h1, h2, ← List.append_assoc]; exact hm.mono _
  | _, _, .arc (id := id) (r := r) (ns := ns) (ts := ts) p v hc hd, σ, hm => by
    rw [serKids]
    simp only
    rw [serArc]
    cases hl : σ.map.lookup id with
    | some q =>
      refine ⟨σ, q, rfl, ⟨hm, ⟨[], by simp, by simp [OnlyVecs]⟩, fun _ h => h, fun _ _ h => .inl h⟩, ?_, fun id' e => by cases e; exact ⟨q, hl⟩⟩
      obtain ⟨r', ns', us, h1, h2, h3⟩ := hm id q (lookup_mem hl)
      rw [hc] at h1; cases h1
      rw [hd.det h2]; exact h3
    | none =>
      obtain ⟨σ', ps, h1, h2, h3⟩ := serNodes_ok hb hd σ hm
      simp only [hc, h1, Option.bind_eq_bind, Option.bind_some]
      have hno : σ'.map.lookup id = none := by
        cases hx : σ'.map.lookup id with
        | none => rfl
        | some q =>
          rcases h2.new id q (lookup_mem hx) with hx | ⟨-, r', ns', us, k2, k3, k4⟩
          · have : (σ.map.lookup id).isSome := by
              rw [List.lookup_isSome_iff]; exact ⟨(id, q), hx, by simp⟩
            rw [hl] at this; cases this
          · rw [hc] at k2; cases k2
            rw [hd.det k3] at k4; omega
      simp only [hno, Option.isSome_none, Bool.false_eq_true, if_false]
      have hlen : (body ++ σ'.buf).length = base + σ'.buf.length := by rw [List.length_append, hb]
      have hA : ADen (body ++ (σ'.buf ++ [.vec (archive (base + σ'.buf.length) ns ps)])) (base + σ'.buf.length) ts := by
        rw [← List.append_assoc]
        refine .vec (as := archive (base + σ'.buf.length) ns ps) ?_ ?_
        · rw [← hlen]; simp
        · exact archive_ok (Nat.le_of_eq hlen) hd h3 _
      refine ⟨_, _, rfl, ⟨?_, ?_, ?_, ?_⟩, hA, ?_⟩
      · intro id' p' hx
        rcases List.mem_cons.1 hx with hx | hx
        · cases hx; exact ⟨r, ns, ts, hc, hd, hA⟩
        · obtain ⟨r', ns', us, k1, k2, k3⟩ := h2.map id' p' hx
          exact ⟨r', ns', us, k1, k2, by rw [← List.append_assoc]; exact k3.mono _⟩
      · obtain ⟨e, k1, k2⟩ := h2.ext
        refine ⟨e ++ [.vec (archive (base + σ'.buf.length) ns ps)], by rw [← List.append_assoc, ← k1], ?_⟩
        intro s hs
        rcases List.mem_append.1 hs with hs | hs
        · exact k2 s hs
        · simp only [List.mem_singleton] at hs; exact ⟨_, hs⟩
      · intro x hx; exact List.mem_cons_of_mem _ (h2.old x hx)
      · intro id' p' hx
        rcases List.mem_cons.1 hx with hx | hx
        · cases hx; exact .inr ⟨.here rfl, r, ns, ts, hc, hd, by simp [Tree.count]⟩
        · rcases h2.new id' p' hx with hx | ⟨⟨m, hm1, hm2⟩, r', ns', us, k2, k3, k4⟩
          · exact .inl hx
          · exact .inr ⟨.deeper rfl hc hm1 hm2, r', ns', us, k2, k3, by simp only [Tree.count]; omega⟩
      · intro id' e; cases e
        exact ⟨base + σ'.buf.length, by simp [List.lookup_cons]⟩
theorem serNodes_ok {h : Heap K V} {body : File K V} {base : Nat} (hb : body.length = base) : ∀ {ns ts}, Dens h ns ts → ∀ (σ : Ser K V),
    MapOk h (body ++ σ.buf) σ.map → ∃ σ' ps, serNodes h base σ ns = some (σ', ps) ∧
      SerRes h body σ σ' (fun id => ∃ m ∈ ns, NReach h m id) (Tree.counts ts) ∧ PAll (body ++ σ'.buf) ps ts
  | _, _, .nil, σ, hm => by
    rw [serNodes]
    exact ⟨σ, [], rfl, ⟨hm, ⟨[], by simp, by simp [OnlyVecs]⟩, fun _ h => h, fun _ _ h => .inl h⟩, .nil⟩
  | _, _, .cons (n := n) (t := t) (ns := ns) (ts := ts) d1 d2, σ, hm => by
    obtain ⟨σ1, p, h1, h2, h3, -⟩ := serKids_ok hb d1 σ hm
    obtain ⟨σ2, ps, k1, k2, k3⟩ := serNodes_ok hb d2 σ1 h2.map
    rw [serNodes]
    simp only [h1, k1, Option.bind_eq_bind, Option.bind_some]
    refine ⟨σ2, p :: ps, rfl, h2.trans k2 (fun i hi => ⟨n, List.mem_cons_self .., hi⟩) ?_ ?_ ?_, .cons ?_ k3⟩
    · rintro i ⟨m, hm, hi⟩; exact ⟨m, List.mem_cons_of_mem _ hm, hi⟩
    · simp only [Tree.counts]; omega
    · simp only [Tree.counts]; omega
    · obtain ⟨e, k4, -⟩ := k2.ext
      rw [k4, ← List.append_assoc]; exact h3.mono _
end

/-- `serialize_value` in a file `body`: the written chunk, appended to `body`, stands for the tree -/
theorem serialize_ok {h : Heap K V} {body : File K V} {base : Nat} (hb : body.length = base) {n : Node K V} {t : Tree K V} (hd : Den h n t)
    {map : List (Nat × Nat)} (hm : MapOk h body map) : ∃ map' vecs a, serialize h base map n = some (map', vecs ++ [.root a]) ∧
      OnlyVecs vecs ∧ MapOk h (body ++ (vecs ++ [.root a])) map' ∧
      (∀ id p, (id, p) ∈ map' → (id, p) ∈ map ∨ NReach h n id) ∧
      (∀ id, n.kids = .arc id → ∃ q, map'.lookup id = some q) ∧
      a.pre = t.pre ∧ a.val = t.val ∧ a.off ≤ base + vecs.length ∧ ADen (body ++ (vecs ++ [.root a])) (base + vecs.length - a.off) t.kids := by
  obtain ⟨σ', p, h1, h2, h3, h4⟩ := serKids_ok hb hd ⟨map, []⟩ (by simpa using hm)
  obtain ⟨e, e1, e2⟩ := h2.ext
  simp only [List.nil_append] at e1
  refine ⟨σ'.map, σ'.buf, ⟨n.pre, n.val, base + σ'.buf.length - p⟩, ?_, by rw [e1]; exact e2, ?_, ?_, h4, hd.pre, hd.val, Nat.sub_le .., ?_⟩
  · simp only [serialize, h1, Option.bind_eq_bind, Option.bind_some]
  · rw [← List.append_assoc]; exact h2.map.mono _
  · intro id p hx
    rcases h2.new id p hx with hx | ⟨hx, -⟩
    · exact .inl hx
    · exact .inr hx
  · have := h3.lt
    rw [List.length_append, hb] at this
    rw [show base + σ'.buf.length - (base + σ'.buf.length - p) = p by omega, ← List.append_assoc]
    exact h3.mono _
end Verif.Shared
