import Verif.Lemmas.ArcArchiveLoad
/-!
# Lemmas about archives with shared vectors: writing
-/
namespace Verif
namespace ArcArchive
open Std Verif.Archive
section
variable {K V : Type _} {l : ALayout} {b : ABuf K V} {H : Nat → List (ATree K V)}

/-! ### Addresses -/

theorem HasAddr.smaller {t : ATree K V} {x : Nat} (h : HasAddr t x) (ht : InHeap H t) : sizeOf (H x) < sizeOf t := by
  induction h with
  | here =>
    cases ht with
    | mk h1 h2 =>
      rw [h1]
      simp only [ATree.mk.sizeOf_spec]
      omega
  | @there p v x y ks c hc _ ih =>
    cases ht with
    | mk h1 h2 =>
      have h3 := ih (h2 c hc)
      have h4 := List.sizeOf_lt_of_mem hc
      simp only [ATree.mk.sizeOf_spec]
      omega

theorem InHeap.irrefl {p : List K} {v : Option V} {x : Nat} {ks : List (ATree K V)} (h : InHeap H ⟨p, v, x, ks⟩) {c : ATree K V} (hc : c ∈ ks) : ¬HasAddr c x := by
  intro hx
  cases h with
  | mk h1 h2 =>
    have h3 := hx.smaller (h2 c hc)
    have h4 := List.sizeOf_lt_of_mem hc
    rw [h1] at h3
    omega

/-! ### The serializer -/

theorem slice_reg {α : Type _} (o : Out K V) (size align : Nat) (f : α → Obj K V) (xs : List α) : (o.slice size align f xs).reg = o.reg := rfl
theorem slice_objs {α : Type _} (o : Out K V) (size align : Nat) (f : α → Obj K V) (xs : List α) :
    (o.slice size align f xs).objs = o.objs ++ place size f (alignUp align o.pos) xs := rfl
theorem slice_pos {α : Type _} (o : Out K V) (size align : Nat) (f : α → Obj K V) (xs : List α) :
    (o.slice size align f xs).pos = alignUp align o.pos + xs.length * size := rfl

theorem slice_le {α : Type _} (o : Out K V) (size align : Nat) (f : α → Obj K V) (xs : List α) : o.pos ≤ (o.slice size align f xs).pos := by
  have := alignUp_le align o.pos
  rw [slice_pos]
  omega

/-- the node of a tree whose `Arc` points to `q` -/
def hdrAt (l : ALayout) (o : Out K V) (p : List K) (v : Option V) (q : Nat) : AHdr V := ⟨⟨(alignUp l.keyAlign o.pos : Nat), p.length⟩, some v, q⟩

/-- after the prefix -/
abbrev afterPre (l : ALayout) (o : Out K V) (p : List K) : Out K V := o.slice l.keySize l.keyAlign .key p
/-- after the nodes of a vector -/
abbrev afterNodes (l : ALayout) (o : Out K V) (hs : List (AHdr V)) : Out K V := o.slice l.nodeSize l.nodeAlign .node hs

theorem emit_hit {p : List K} {v : Option V} {x : Nat} {ks : List (ATree K V)} {o : Out K V} {q : Nat} (h : o.reg.lookup x = some q) :
    emit l ⟨p, v, x, ks⟩ o = (afterPre l o p, hdrAt l o p v q) := by
  rw [emit, slice_reg, h]
  rfl

theorem emit_miss {p : List K} {v : Option V} {x : Nat} {ks : List (ATree K V)} {o : Out K V} (h : o.reg.lookup x = none) :
    emit l ⟨p, v, x, ks⟩ o = (emitArc l x (emitAll l ks (afterPre l o p)).1 (emitAll l ks (afterPre l o p)).2,
      hdrAt l o p v (alignUp l.vecAlign (afterNodes l (emitAll l ks (afterPre l o p)).1 (emitAll l ks (afterPre l o p)).2).pos)) := by
  rw [emit, slice_reg, h]
  rfl

theorem emitAll_cons (t : ATree K V) (ts : List (ATree K V)) (o : Out K V) :
    emitAll l (t :: ts) o = ((emitAll l ts (emit l t o).1).1, (emit l t o).2 :: (emitAll l ts (emit l t o).1).2) := by
  rw [emitAll]

theorem emitAll_length (ts : List (ATree K V)) (o : Out K V) : (emitAll l ts o).2.length = ts.length := by
  induction ts generalizing o with
  | nil => rw [emitAll]; rfl
  | cons t ts ih => rw [emitAll_cons]; simp [ih]

/-- the registry of the serializer is in order; `H` is the memory -/
structure RegInv (H : Nat → List (ATree K V)) (l : ALayout) (o : Out K V) : Prop where
  apart : o.reg.Pairwise (fun e e' => e'.1 ≠ e.1 ∧ e'.2 ≠ e.2)
  ends : ∀ e ∈ o.reg, e.2 + l.vecSize ≤ o.pos
  closed : ∀ e ∈ o.reg, ∀ c ∈ H e.1, ∀ y, HasAddr c y → ∃ r, (y, r) ∈ o.reg

/-- what writing something with the addresses `A` does to the serializer -/
structure Did (H : Nat → List (ATree K V)) (l : ALayout) (A : Nat → Prop) (o o' : Out K V) : Prop where
  objs : ∃ more, o'.objs = o.objs ++ more
  pos : o.pos ≤ o'.pos
  ext : ∃ nr, o'.reg = nr ++ o.reg
  inv : RegInv H l o'
  new : ∀ e ∈ o'.reg, e ∈ o.reg ∨ A e.1 ∧ o.pos ≤ e.2
  all : ∀ x, A x → ∃ q, (x, q) ∈ o'.reg

theorem Did.reg {A : Nat → Prop} {o o' : Out K V} (h : Did H l A o o') : ∀ e ∈ o.reg, e ∈ o'.reg := by
  obtain ⟨nr, hn⟩ := h.ext
  intro e he
  rw [hn]
  exact List.mem_append_right _ he

theorem Did.trans {A B C : Nat → Prop} {o o1 o2 : Out K V} (h : Did H l A o o1) (h' : Did H l B o1 o2) (hc : ∀ x, C x ↔ A x ∨ B x) : Did H l C o o2 := by
  obtain ⟨m, hm⟩ := h.objs
  obtain ⟨m', hm'⟩ := h'.objs
  obtain ⟨r, hr⟩ := h.ext
  obtain ⟨r', hr'⟩ := h'.ext
  refine ⟨⟨m ++ m', by rw [hm', hm, List.append_assoc]⟩, Nat.le_trans h.pos h'.pos, ⟨r' ++ r, by rw [hr', hr, List.append_assoc]⟩, h'.inv, fun e he => ?_, fun x hx => ?_⟩
  · rcases h'.new e he with h1 | ⟨h1, h2⟩
    · rcases h.new e h1 with h3 | ⟨h3, h4⟩
      · exact .inl h3
      · exact .inr ⟨(hc _).2 (.inl h3), h4⟩
    · exact .inr ⟨(hc _).2 (.inr h1), Nat.le_trans h.pos h2⟩
  · rcases (hc x).1 hx with h1 | h1
    · obtain ⟨q, hq⟩ := h.all x h1
      exact ⟨q, h'.reg _ hq⟩
    · exact h'.all x h1

theorem Did.slice {α : Type _} {o : Out K V} (h : RegInv H l o) (size align : Nat) (f : α → Obj K V) (xs : List α) :
    Did H l (fun _ => False) o (o.slice size align f xs) := by
  have hp := slice_le o size align f xs
  exact ⟨⟨_, rfl⟩, hp, ⟨[], rfl⟩, ⟨h.apart, fun e he => Nat.le_trans (h.ends e he) hp, h.closed⟩, fun _ h => .inl h, fun _ h => h.elim⟩

theorem emitArc_reg (x : Nat) (o : Out K V) (hs : List (AHdr V)) :
    (emitArc l x o hs).reg = (x, alignUp l.vecAlign (afterNodes l o hs).pos) :: o.reg := rfl
theorem emitArc_pos (x : Nat) (o : Out K V) (hs : List (AHdr V)) :
    (emitArc l x o hs).pos = alignUp l.vecAlign (afterNodes l o hs).pos + l.vecSize := by
  rw [emitArc]
  simp only [slice_pos, List.length_singleton, Nat.one_mul]
theorem emitArc_objs (x : Nat) (o : Out K V) (hs : List (AHdr V)) :
    (emitArc l x o hs).objs = o.objs ++ place l.nodeSize .node (alignUp l.nodeAlign o.pos) hs ++
      [(alignUp l.vecAlign (afterNodes l o hs).pos, .vec ⟨(alignUp l.nodeAlign o.pos : Nat), hs.length⟩)] := rfl

theorem emitArc_did {x : Nat} {o : Out K V} {hs : List (AHdr V)} (hl : 0 < l.vecSize) (h : RegInv H l o) (hx : ∀ e ∈ o.reg, e.1 ≠ x)
    (hc : ∀ c ∈ H x, ∀ y, HasAddr c y → ∃ r, (y, r) ∈ o.reg) : Did H l (fun y => y = x) o (emitArc l x o hs) := by
  have h1 : o.pos ≤ (afterNodes l o hs).pos := slice_le ..
  have h2 := alignUp_le l.vecAlign (afterNodes l o hs).pos
  refine ⟨⟨_, by rw [emitArc_objs, List.append_assoc]⟩, by rw [emitArc_pos]; omega, ⟨[_], rfl⟩, ⟨?_, ?_, ?_⟩, ?_, ?_⟩
  · rw [emitArc_reg]
    refine List.pairwise_cons.2 ⟨fun e he => ⟨hx e he, ?_⟩, h.apart⟩
    have := h.ends e he
    simp only []
    omega
  · intro e he
    rw [emitArc_pos]
    rw [emitArc_reg] at he
    rcases List.mem_cons.1 he with rfl | he
    · exact Nat.le_refl _
    · have := h.ends e he
      omega
  · intro e he c hcm y hy
    rw [emitArc_reg] at he ⊢
    have : ∃ r, (y, r) ∈ o.reg := by
      rcases List.mem_cons.1 he with rfl | he
      · exact hc c hcm y hy
      · exact h.closed e he c hcm y hy
    obtain ⟨r, hr⟩ := this
    exact ⟨r, List.mem_cons_of_mem _ hr⟩
  · intro e he
    rw [emitArc_reg] at he
    rcases List.mem_cons.1 he with rfl | he
    · exact .inr ⟨rfl, by simp only []; omega⟩
    · exact .inl he
  · rintro _ rfl
    exact ⟨_, List.mem_cons_self ..⟩

theorem hasAddr_mk {p : List K} {v : Option V} {x : Nat} {ks : List (ATree K V)} {y : Nat} : HasAddr ⟨p, v, x, ks⟩ y ↔ y = x ∨ ∃ c ∈ ks, HasAddr c y := by
  constructor
  · intro h
    cases h with
    | here => exact .inl rfl
    | there h1 h2 => exact .inr ⟨_, h1, h2⟩
  · rintro (rfl | ⟨c, h1, h2⟩)
    · exact .here
    · exact .there h1 h2

theorem emitAll_did_of {ts : List (ATree K V)} (ht : ∀ t ∈ ts, InHeap H t)
    (ih : ∀ t ∈ ts, ∀ o : Out K V, RegInv H l o → InHeap H t → Did H l (HasAddr t) o (emit l t o).1) :
    ∀ o : Out K V, RegInv H l o → Did H l (fun y => ∃ t ∈ ts, HasAddr t y) o (emitAll l ts o).1 := by
  induction ts with
  | nil =>
    intro o ho
    rw [emitAll]
    exact ⟨⟨[], by simp⟩, Nat.le_refl _, ⟨[], rfl⟩, ho, fun _ h => .inl h, fun x ⟨t, h, _⟩ => by cases h⟩
  | cons t ts ih2 =>
    intro o ho
    rw [emitAll_cons]
    have h1 := ih t (List.mem_cons_self ..) o ho (ht t (List.mem_cons_self ..))
    have h2 := ih2 (fun t h => ht t (List.mem_cons_of_mem _ h)) (fun t h => ih t (List.mem_cons_of_mem _ h)) (emit l t o).1 h1.inv
    exact h1.trans h2 (fun x => by simp)

/-- the two parts of writing a tree whose vector is not registered -/
theorem miss_did (hl : 0 < l.vecSize) {p : List K} {v : Option V} {x : Nat} {ks : List (ATree K V)} (ht : InHeap H ⟨p, v, x, ks⟩) {o : Out K V} (ho : RegInv H l o)
    (hk : o.reg.lookup x = none) (ih : ∀ t ∈ ks, ∀ o : Out K V, RegInv H l o → InHeap H t → Did H l (HasAddr t) o (emit l t o).1) :
    Did H l (fun y => ∃ c ∈ ks, HasAddr c y) (afterPre l o p) (emitAll l ks (afterPre l o p)).1 ∧
    Did H l (fun y => y = x) (emitAll l ks (afterPre l o p)).1 (emitArc l x (emitAll l ks (afterPre l o p)).1 (emitAll l ks (afterPre l o p)).2) := by
  have hpre := Did.slice ho l.keySize l.keyAlign Obj.key p
  have hirr := fun (c : ATree K V) (hc : c ∈ ks) => ht.irrefl hc
  cases ht with
  | mk h1 h2 =>
    have hkids := emitAll_did_of h2 ih (afterPre l o p) hpre.inv
    refine ⟨hkids, emitArc_did hl hkids.inv ?_ (fun c hc y hy => hkids.all y ⟨c, h1 ▸ hc, hy⟩)⟩
    intro e he hx
    rcases hkids.new e he with h3 | ⟨⟨c, hc, h3⟩, -⟩
    · exact lookup_none hk e h3 hx
    · rw [hx] at h3
      exact hirr c hc h3

theorem emit_did (hl : 0 < l.vecSize) (t : ATree K V) : ∀ o : Out K V, RegInv H l o → InHeap H t → Did H l (HasAddr t) o (emit l t o).1 := by
  refine ATree.induct (P := fun t => ∀ o : Out K V, RegInv H l o → InHeap H t → Did H l (HasAddr t) o (emit l t o).1) ?_ t
  intro p v x ks ih o ho ht
  have hpre := Did.slice ho l.keySize l.keyAlign Obj.key p
  have ht' := ht
  cases ht' with
  | mk h1 h2 =>
    cases hk : o.reg.lookup x with
    | some q =>
      rw [emit_hit hk]
      have hm := lookup_mem hk
      refine ⟨hpre.objs, hpre.pos, hpre.ext, hpre.inv, fun _ h => .inl h, fun y hy => ?_⟩
      rcases hasAddr_mk.1 hy with rfl | ⟨c, hc, hy⟩
      · exact ⟨q, hm⟩
      · exact ho.closed _ hm c (by rw [h1]; exact hc) y hy
    | none =>
      rw [emit_miss hk]
      obtain ⟨hkids, harc⟩ := miss_did hl ht ho hk ih
      refine (hpre.trans hkids (C := fun y => ∃ c ∈ ks, HasAddr c y) (fun y => by simp)).trans harc (fun y => ?_)
      rw [hasAddr_mk]
      exact or_comm

theorem emitAll_did (hl : 0 < l.vecSize) {ts : List (ATree K V)} (ht : ∀ t ∈ ts, InHeap H t) (o : Out K V) (ho : RegInv H l o) :
    Did H l (fun y => ∃ t ∈ ts, HasAddr t y) o (emitAll l ts o).1 := emitAll_did_of ht (fun t _ => emit_did hl t) o ho

/-- the registry as a relation -/
def regRel (reg : List (Nat × Nat)) (x q : Nat) : Prop := (x, q) ∈ reg

theorem RegInv.oneToOne {o : Out K V} (h : RegInv H l o) : OneToOne (regRel o.reg) := by
  intro x q x' q' h1 h2
  have key : ∀ (es : List (Nat × Nat)), es.Pairwise (fun e e' => e'.1 ≠ e.1 ∧ e'.2 ≠ e.2) → ∀ e ∈ es, ∀ e' ∈ es, (e.1 = e'.1 ↔ e.2 = e'.2) := by
    intro es hes
    induction hes with
    | nil => intro e he; cases he
    | cons h1 _ ih =>
      intro e he e' he'
      rcases List.mem_cons.1 he with h2 | h2 <;> rcases List.mem_cons.1 he' with h3 | h3
      · subst h2; subst h3; simp
      · subst h2
        have := h1 e' h3
        exact ⟨fun h => absurd h.symm this.1, fun h => absurd h.symm this.2⟩
      · subst h3
        have := h1 e h2
        exact ⟨fun h => absurd h this.1, fun h => absurd h this.2⟩
      · exact ih e h2 e' h3
  exact key _ h.apart _ h1 _ h2

/-! ### What is written can be read -/

theorem Holds.left {xs ys : List (Nat × Obj K V)} (h : Holds b (xs ++ ys)) : Holds b xs := fun x hx => h x (List.mem_append_left _ hx)
theorem Holds.right {xs ys : List (Nat × Obj K V)} (h : Holds b (xs ++ ys)) : Holds b ys := fun x hx => h x (List.mem_append_right _ hx)

theorem Did.holds {A : Nat → Prop} {o o' : Out K V} (h : Did H l A o o') (hb : Holds b o'.objs) : Holds b o.objs := by
  obtain ⟨m, hm⟩ := h.objs
  rw [hm] at hb
  exact hb.left

/-- one object in the buffer -/
def Holds1 (b : ABuf K V) (a : Nat) : Obj K V → Prop
  | .key k => b.key a = some k
  | .node h => b.node a = h
  | .vec p => b.vec a = p

theorem Holds.mem {objs : List (Nat × Obj K V)} (h : Holds b objs) {a : Nat} {x : Obj K V} (hx : (a, x) ∈ objs) : Holds1 b a x := by
  have := h _ hx
  cases x <;> exact this

theorem all2_place {α : Type _} {size : Nat} {f : α → Obj K V} {s : Nat} {xs : List α} (h : Holds b (place size f s xs)) :
    All2 (fun c x => Holds1 b c (f x)) ((List.range xs.length).map (fun i => s + i * size)) xs := by
  induction xs generalizing s with
  | nil => exact .nil
  | cons x xs ih =>
    rw [List.length_cons, range_map_succ]
    rw [place] at h
    exact .cons (h.mem (List.mem_cons_self ..)) (ih (fun y hy => h y (List.mem_cons_of_mem _ hy)))

theorem keysAt_all2 {xs : List Nat} {ks : List K} (h : All2 (fun c k => Holds1 b c (.key k)) xs ks) : KeysAt b.flat xs ks := by
  induction h with
  | nil => exact trivial
  | cons h1 _ ih => exact ⟨h1, ih⟩

/-- the vectors that are registered are in the buffer -/
def RegAt (H : Nat → List (ATree K V)) (l : ALayout) (b : ABuf K V) (reg : List (Nat × Nat)) : Prop :=
  ∀ e ∈ reg, ∃ cs, VecAt l b e.2 cs ∧ LocatedL (regRel reg) l b cs (H e.1)

/-- what has been written is in the buffer -/
def Writes (H : Nat → List (ATree K V)) (l : ALayout) (b : ABuf K V) (t : ATree K V) : Prop :=
  ∀ o : Out K V, RegInv H l o → RegAt H l b o.reg → Holds b (emit l t o).1.objs → (emit l t o).1.pos ≤ b.len →
    RegAt H l b (emit l t o).1.reg ∧ ∀ a, b.node a = (emit l t o).2 → a + l.nodeSize ≤ b.len → a % l.nodeAlign = 0 →
      Located (regRel (emit l t o).1.reg) l b a t

theorem writes_all (hl : 0 < l.vecSize) {ts : List (ATree K V)} (ht : ∀ t ∈ ts, InHeap H t) (ih : ∀ t ∈ ts, Writes H l b t) :
    ∀ o : Out K V, RegInv H l o → RegAt H l b o.reg → Holds b (emitAll l ts o).1.objs → (emitAll l ts o).1.pos ≤ b.len →
      RegAt H l b (emitAll l ts o).1.reg ∧ ∀ cs, All2 (fun c h => b.node c = h) cs (emitAll l ts o).2 →
        (∀ c ∈ cs, c + l.nodeSize ≤ b.len ∧ c % l.nodeAlign = 0) → LocatedL (regRel (emitAll l ts o).1.reg) l b cs ts := by
  induction ts with
  | nil =>
    intro o ho hr hb hlen
    rw [emitAll] at *
    refine ⟨hr, fun cs hcs _ => ?_⟩
    cases hcs
    exact trivial
  | cons t ts ih2 =>
    intro o ho hr hb hlen
    rw [emitAll_cons] at *
    simp only [] at *
    have ht1 := ht t (List.mem_cons_self ..)
    have ht2 := fun t h => ht t (List.mem_cons_of_mem _ h)
    have d1 := emit_did hl t o ho ht1
    have d2 := emitAll_did hl ht2 (emit l t o).1 d1.inv
    obtain ⟨h1, h2⟩ := ih t (List.mem_cons_self ..) o ho hr (d2.holds hb) (Nat.le_trans d2.pos hlen)
    obtain ⟨h3, h4⟩ := ih2 ht2 (fun t h => ih t (List.mem_cons_of_mem _ h)) _ d1.inv h1 hb hlen
    refine ⟨h3, fun cs hcs hin => ?_⟩
    cases hcs with
    | @cons c _ cs _ k1 k2 =>
      have hc := hin c (List.mem_cons_self ..)
      exact ⟨(h2 c k1 hc.1 hc.2).mono (fun x q hq => d2.reg _ hq) t c, h4 cs k2 (fun d hd => hin d (List.mem_cons_of_mem _ hd))⟩

/-- the prefix slice of a node that has been written -/
theorem pre_written (hl : l.Ok) {o : Out K V} {p : List K} {v : Option V} {q a : Nat} (hb : Holds b (afterPre l o p).objs) (hlen : (afterPre l o p).pos ≤ b.len)
    (ha : b.node a = hdrAt l o p v q) : ∃ xs, SliceAt b.flat l.keySize l.keyAlign (b.node a).pre xs ∧ KeysAt b.flat xs p := by
  have hpl := hb.right (xs := o.objs)
  refine ⟨_, ⟨alignUp l.keyAlign o.pos, by rw [ha]; rfl, alignUp_mod hl.flat.keyAlign _, ?_, ?_⟩, keysAt_all2 (all2_place hpl)⟩
  · rw [ha]
    exact hlen
  · rw [ha]
    rfl

/-- the vector that has been written -/
theorem vec_written (hl : l.Ok) {o : Out K V} {x : Nat} {hs : List (AHdr V)} (hb : Holds b (emitArc l x o hs).objs) (hlen : (emitArc l x o hs).pos ≤ b.len) :
    ∃ cs, VecAt l b (alignUp l.vecAlign (afterNodes l o hs).pos) cs ∧ All2 (fun c h => b.node c = h) cs hs ∧ (∀ c ∈ cs, c + l.nodeSize ≤ b.len ∧ c % l.nodeAlign = 0) ∧
      b.vec (alignUp l.vecAlign (afterNodes l o hs).pos) = ⟨(alignUp l.nodeAlign o.pos : Nat), hs.length⟩ := by
  rw [emitArc_objs] at hb
  rw [emitArc_pos] at hlen
  have hv : b.vec (alignUp l.vecAlign (afterNodes l o hs).pos) = ⟨(alignUp l.nodeAlign o.pos : Nat), hs.length⟩ := hb.right.mem (List.mem_cons_self ..)
  have h2 := alignUp_le l.vecAlign (afterNodes l o hs).pos
  have h3 : (afterNodes l o hs).pos = alignUp l.nodeAlign o.pos + hs.length * l.nodeSize := slice_pos ..
  have hs1 : SliceAt b.flat l.nodeSize l.nodeAlign (b.vec (alignUp l.vecAlign (afterNodes l o hs).pos))
      ((List.range hs.length).map (fun i => alignUp l.nodeAlign o.pos + i * l.nodeSize)) := by
    rw [hv]
    refine ⟨_, rfl, alignUp_mod hl.flat.nodeAlign _, ?_, rfl⟩
    show _ ≤ b.len
    simp only []
    omega
  refine ⟨_, ⟨hlen, alignUp_mod hl.vecAlign _, hs1⟩, ?_, fun c hc => ?_, hv⟩
  · exact (all2_place hb.left.right).imp (fun _ _ _ _ h => h)
  · have := SliceAt.mem hs1 hl.flat.nodeSize hc
    exact ⟨this.2.2.1, this.2.2.2⟩

theorem writes (hl : l.Ok) (t : ATree K V) : InHeap H t → Writes H l b t := by
  refine ATree.induct (P := fun t => InHeap H t → Writes H l b t) ?_ t
  intro p v x ks ih ht o ho hr hb hlen
  have hpre := Did.slice ho l.keySize l.keyAlign Obj.key p
  have ht' := ht
  cases ht' with
  | mk h1 h2 =>
    cases hk : o.reg.lookup x with
    | some q =>
      rw [emit_hit hk] at hb hlen ⊢
      have hm := lookup_mem hk
      refine ⟨hr, fun a ha ha1 ha2 => ?_⟩
      obtain ⟨cs, k1, k2⟩ := hr _ hm
      rw [h1] at k2
      exact ⟨q, cs, hm, ⟨ha1, ha2, pre_written hl hb hlen ha, by rw [ha]; rfl, by rw [ha]; rfl, k1⟩, k2⟩
    | none =>
      rw [emit_miss hk] at hb hlen ⊢
      obtain ⟨hkids, harc⟩ := miss_did hl.vec ht ho hk (fun t _ => emit_did hl.vec t)
      obtain ⟨k1, k2⟩ := writes_all hl.vec h2 (fun t hm => ih t hm (h2 t hm)) (afterPre l o p) hpre.inv hr (harc.holds hb) (Nat.le_trans harc.pos hlen)
      obtain ⟨cs, v1, v2, v3, -⟩ := vec_written hl hb hlen
      have hmono : ∀ y r, regRel (emitAll l ks (afterPre l o p)).1.reg y r →
          regRel (emitArc l x (emitAll l ks (afterPre l o p)).1 (emitAll l ks (afterPre l o p)).2).reg y r := fun y r h => harc.reg _ h
      have hloc := (k2 cs v2 v3).mono hmono
      refine ⟨fun e he => ?_, fun a ha ha1 ha2 => ?_⟩
      · rw [emitArc_reg] at he
        rcases List.mem_cons.1 he with rfl | he
        · exact ⟨cs, v1, by rw [h1]; exact hloc⟩
        · obtain ⟨ds, d1, d2⟩ := k1 e he
          exact ⟨ds, d1, d2.mono hmono⟩
      · refine ⟨_, cs, List.mem_cons_self .., ⟨ha1, ha2, ?_, by rw [ha]; rfl, by rw [ha]; rfl, v1⟩, hloc⟩
        exact pre_written hl (hkids.holds (harc.holds hb)) (Nat.le_trans hkids.pos (Nat.le_trans harc.pos hlen)) ha

/-! ### Validation of what has been written -/

theorem Stored.flat (t : Tree K V) : ∀ a, Stored l b a t → Archive.Stored l.toLayout b.flat a t := by
  have hlist : ∀ {cs : List Nat} {ts : List (Tree K V)}, All2 (Archive.Stored l.toLayout b.flat) cs ts → Archive.StoredList l.toLayout b.flat cs ts := by
    intro cs ts h
    induction h with
    | nil => exact trivial
    | cons h1 _ ih => exact ⟨h1, ih⟩
  refine Tree.induct (P := fun t => ∀ a, Stored l b a t → Archive.Stored l.toLayout b.flat a t) ?_ t
  rintro p v ts ih a ⟨q, cs, h1, h2⟩
  refine ⟨h1.inside, h1.aligned, h1.pre, h1.val, cs, ?_, hlist ((storedL_iff.1 h2).imp (fun c _ t ht k => ih t ht c k))⟩
  show SliceAt b.flat l.nodeSize l.nodeAlign (b.vec (b.node a).kids.toNat) cs
  rw [h1.arc, Int.toNat_natCast]
  exact h1.vec.slice

theorem StoredL.flat {cs : List Nat} {ts : List (Tree K V)} (h : StoredL l b cs ts) : Archive.StoredList l.toLayout b.flat cs ts := by
  have h' := storedL_iff.1 h
  clear h
  induction h' with
  | nil => exact trivial
  | cons h1 _ ih => exact ⟨h1.flat _ _, ih⟩

variable [Ord K] [TransOrd K]

/-- the check of a node up to the children -/
theorem checkNode_step {fuel a : Nat} {c : Ctx} {p : List K} {v : Option V} {q : Nat} {cs : List Nat} {ts : List (Tree K V)} (h : NodeAt l b a p v q cs)
    (hs : StoredL l b cs ts) (hv : Tree.Valid ⟨p, v, ts⟩) (h1 : c.rng.lo ≤ (b.node a).pre.target.toNat)
    (h2 : (b.node a).pre.target.toNat + (b.node a).pre.len * l.keySize ≤ c.rng.hi) :
    checkNode l b (fuel + 1) a c = checkArc l b (checkNode l b fuel) ⟨c.rng.pop l.keySize (b.node a).pre, c.seen⟩ (q : Int) := by
  obtain ⟨xs, x1, x2⟩ := h.pre
  have hc : checkPtr b.flat l.keySize l.keyAlign c.rng (b.node a).pre = true := checkPtr_iff.2 ⟨by rw [x1.slots]; exact x1, h1, h2⟩
  have hk : (slots l.keySize (b.node a).pre).all (fun x => (b.key x).isSome) = true := by
    rw [x1.slots]
    exact x2.all
  have hf := hs.flat
  have hvn : (∀ c ∈ ts, c.pre ≠ []) ∧ AscendingBy (fun c : Tree K V => c.pre.head?) ts := by
    cases hv with
    | mk k1 k2 k3 => exact ⟨k1, k2⟩
  have hne : cs.all (fun x => decide ((b.node x).pre.len ≠ 0)) = true := by
    have h3 := nonempty_stored hf
    have h4 : ts.all (fun t => !t.pre.isEmpty) = true := by
      rw [List.all_eq_true]
      intro t ht
      have := hvn.1 t ht
      cases hp : t.pre with
      | nil => exact absurd hp this
      | cons => rfl
    rw [h4] at h3
    exact h3
  have ho : ordered l.toLayout b.flat cs = .ok true := by
    rw [ordered_stored hf hvn.1, (Tree.ascendingHeads_iff ts).2 hvn.2]
  have hd : derefArc l b (b.node a).kids = some cs := h.children
  rw [checkNode, if_neg (by simp [h.inside, h.aligned]), if_neg (by rw [hc]; decide), if_neg (by rw [hk]; decide), if_neg (by rw [h.val]; simp), hd]
  simp only []
  rw [if_neg (by rw [hne]; decide), ho, h.arc]

/-- the registry of the validator below the current range is that of the serializer -/
def Agree (c : Ctx) (reg : List (Nat × Nat)) : Prop := ∀ q, q < c.rng.hi → (q ∈ c.seen ↔ ∃ x, (x, q) ∈ reg)

/-- the validator follows the serializer -/
def Follows (H : Nat → List (ATree K V)) (l : ALayout) (b : ABuf K V) (t : ATree K V) : Prop :=
  ∀ (fuel a : Nat) (o : Out K V) (c : Ctx), t.erase.Valid → RegInv H l o → RegAt H l b o.reg → Holds b (emit l t o).1.objs → (emit l t o).1.pos ≤ b.len →
    b.node a = (emit l t o).2 → a + l.nodeSize ≤ b.len → a % l.nodeAlign = 0 → c.rng.lo ≤ o.pos → (emit l t o).1.pos ≤ c.rng.hi → c.rng.hi < fuel →
    Agree c o.reg → ∃ c', checkNode l b fuel a c = .ok c' ∧ c'.rng.lo ≤ (emit l t o).1.pos ∧ c'.rng.hi = c.rng.hi ∧ Agree c' (emit l t o).1.reg

theorem follows_all (hl : l.Ok) {fuel : Nat} {ts : List (ATree K V)} (ht : ∀ t ∈ ts, InHeap H t) (hv : ∀ t ∈ ts, t.erase.Valid) (ih : ∀ t ∈ ts, Follows H l b t) :
    ∀ (cs : List Nat) (o : Out K V) (c : Ctx), RegInv H l o → RegAt H l b o.reg → Holds b (emitAll l ts o).1.objs → (emitAll l ts o).1.pos ≤ b.len →
      All2 (fun c h => b.node c = h) cs (emitAll l ts o).2 → (∀ c ∈ cs, c + l.nodeSize ≤ b.len ∧ c % l.nodeAlign = 0) → c.rng.lo ≤ o.pos →
      (emitAll l ts o).1.pos ≤ c.rng.hi → c.rng.hi < fuel → Agree c o.reg →
      ∃ c', checkEach (checkNode l b fuel) cs c = .ok c' ∧ Agree c' (emitAll l ts o).1.reg ∧ c'.rng.hi = c.rng.hi := by
  induction ts with
  | nil =>
    intro cs o c ho hr hb hlen hcs hin h1 h2 h3 h4
    rw [emitAll] at *
    cases hcs
    exact ⟨c, rfl, h4, rfl⟩
  | cons t ts ih2 =>
    intro cs o c ho hr hb hlen hcs hin h1 h2 h3 h4
    rw [emitAll_cons] at *
    simp only [] at *
    have ht1 := ht t (List.mem_cons_self ..)
    have ht2 := fun t h => ht t (List.mem_cons_of_mem _ h)
    have d1 := emit_did hl.vec t o ho ht1
    have d2 := emitAll_did hl.vec ht2 (emit l t o).1 d1.inv
    cases hcs with
    | @cons x _ xs _ k1 k2 =>
      have hc := hin x (List.mem_cons_self ..)
      have hb1 := d2.holds hb
      have hl1 := Nat.le_trans d2.pos hlen
      obtain ⟨c1, e1, e2, e3, e4⟩ := ih t (List.mem_cons_self ..) fuel x o c (hv t (List.mem_cons_self ..)) ho hr hb1 hl1 k1 hc.1 hc.2 h1
        (Nat.le_trans d2.pos h2) h3 h4
      have hw := (writes hl t ht1 o ho hr hb1 hl1).1
      obtain ⟨c2, f1, f2, f3⟩ := ih2 ht2 (fun t h => hv t (List.mem_cons_of_mem _ h)) (fun t h => ih t (List.mem_cons_of_mem _ h)) xs (emit l t o).1 c1 d1.inv hw hb hlen
        k2 (fun d hd => hin d (List.mem_cons_of_mem _ hd)) e2 (by rw [e3]; exact h2) (by rw [e3]; exact h3) e4
      refine ⟨c2, ?_, f2, by rw [f3, e3]⟩
      rw [checkEach, e1]
      exact f1

theorem follows (hl : l.Ok) (t : ATree K V) : InHeap H t → Follows H l b t := by
  refine ATree.induct (P := fun t => InHeap H t → Follows H l b t) ?_ t
  intro p v x ks ih ht fuel a o c hv ho hr hb hlen ha ha1 ha2 h1 h2 h3 h4
  have hpre := Did.slice ho l.keySize l.keyAlign Obj.key p
  obtain ⟨hw, hw2⟩ := writes hl _ ht o ho hr hb hlen
  obtain ⟨q, cs, hq, hn, hkids⟩ := hw2 a ha ha1 ha2
  have al := alignUp_le l.keyAlign o.pos
  rw [erase_mk] at hv
  cases fuel with
  | zero => omega
  | succ fuel =>
    have ht' := ht
    cases ht' with
    | mk g1 g2 =>
      cases hk : o.reg.lookup x with
      | some q' =>
        rw [emit_hit hk] at *
        simp only [] at h2 hlen ha hb
        have hm := lookup_mem hk
        have hqq : q' = q := (ho.oneToOne x q' x q hm hq).1 rfl
        subst hqq
        have hnp : (b.node a).pre = ⟨(alignUp l.keyAlign o.pos : Nat), p.length⟩ := by rw [ha]; rfl
        have hpos : (afterPre l o p).pos = alignUp l.keyAlign o.pos + p.length * l.keySize := rfl
        rw [checkNode_step hn hkids.stored hv (by rw [hnp]; simp only [Int.toNat_natCast]; omega) (by rw [hnp]; simp only [Int.toNat_natCast]; omega)]
        have hlt := ho.ends _ hm
        simp only [] at hlt
        have hvs := hl.vec
        have hseen : q' ∈ c.seen := (h4 q' (by omega)).2 ⟨x, hm⟩
        rw [checkArc, if_neg (by rw [arcOk_of hn.vec.inside hn.vec.aligned]; decide), if_pos (by rw [Int.toNat_natCast]; simpa using hseen)]
        refine ⟨_, rfl, ?_, rfl, h4⟩
        simp only [Range.pop, hnp, Int.toNat_natCast]
        omega
      | none =>
        rw [emit_miss hk] at *
        obtain ⟨hkd, harc⟩ := miss_did hl.vec ht ho hk (fun t _ => emit_did hl.vec t)
        generalize ho1 : (emitAll l ks (afterPre l o p)).1 = o1 at *
        generalize hhs : (emitAll l ks (afterPre l o p)).2 = hs at *
        simp only [] at h2 hlen ha hb hw hq
        obtain ⟨cs', v1, v2, v3, v4⟩ := vec_written hl hb hlen
        have hqq : q = alignUp l.vecAlign (afterNodes l o1 hs).pos := by
          have := hn.arc
          rw [ha] at this
          exact (Int.ofNat.inj this).symm
        have hpos := emitArc_pos (l := l) x o1 hs
        have hreg := emitArc_reg (l := l) x o1 hs
        have al2 := alignUp_le l.vecAlign (afterNodes l o1 hs).pos
        have al3 := alignUp_le l.nodeAlign o1.pos
        have hnodes : (afterNodes l o1 hs).pos = alignUp l.nodeAlign o1.pos + hs.length * l.nodeSize := rfl
        rw [← hqq] at v1 v4 hpos hreg al2
        cases hn.vec.unique v1
        have hnp : (b.node a).pre = ⟨(alignUp l.keyAlign o.pos : Nat), p.length⟩ := by rw [ha]; rfl
        have hpp : (afterPre l o p).pos = alignUp l.keyAlign o.pos + p.length * l.keySize := rfl
        have p1 := hkd.pos
        have p2 := hpre.pos
        have hvs := hl.vec
        rw [checkNode_step hn hkids.stored hv (by rw [hnp]; simp only [Int.toNat_natCast]; omega) (by rw [hnp]; simp only [Int.toNat_natCast]; omega)]
        have hnot : q ∉ c.seen := by
          intro hin
          obtain ⟨y, hy⟩ := (h4 q (by omega)).1 hin
          have := ho.ends _ hy
          simp only [] at this
          omega
        rw [checkArc, if_neg (by rw [arcOk_of hn.vec.inside hn.vec.aligned]; decide), Int.toNat_natCast, if_neg (by simpa using hnot)]
        simp only [Range.pop, hnp, Int.toNat_natCast]
        rw [if_neg (by simp; omega)]
        rw [if_neg (by
          rw [checkPtr_iff.2 ⟨by rw [v1.slice.slots]; exact v1.slice, by rw [v4]; simp only [Int.toNat_natCast]; omega, by rw [v4]; simp only [Int.toNat_natCast]; omega⟩]
          decide)]
        rw [v1.slice.slots]
        have hs' : (b.vec q).target.toNat = alignUp l.nodeAlign o1.pos := by rw [v4]; rfl
        rw [hs']
        have hvk : ∀ t ∈ ks, t.erase.Valid := by
          intro t ht
          cases hv with
          | mk _ _ k3 => exact k3 _ (List.mem_map_of_mem ht)
        obtain ⟨c2, f1, f2, f3⟩ := follows_all hl (fuel := fuel) g2 hvk (fun t hm => ih t hm (g2 t hm)) cs (afterPre l o p)
          ⟨⟨alignUp l.keyAlign o.pos + p.length * l.keySize, alignUp l.nodeAlign o1.pos⟩, q :: c.seen⟩ hpre.inv hr (by rw [ho1]; exact harc.holds hb)
          (by rw [ho1]; omega) (by rw [hhs]; exact v2) v3 (by simp only []; omega) (by rw [ho1]; simp only []; omega) (by simp only []; omega) (by
            intro r hr
            simp only [] at hr
            rw [List.mem_cons]
            exact (or_iff_right (by omega)).trans (h4 r (by omega)))
        have hgrew := (checkEach_grew (fun a c c' h => ⟨(checkNode_grew _ _ _ _ h).1.weaken (by have := (checkNode_grew _ _ _ _ h).2.1; omega),
          (checkNode_grew _ _ _ _ h).2.2⟩) _ _ _ f1).1
        rw [ho1] at f2
        rw [f1]
        refine ⟨_, rfl, by simp only []; omega, rfl, ?_⟩
        intro r hr
        simp only [] at hr ⊢
        rw [hreg]
        simp only [List.mem_cons, Prod.mk.injEq]
        by_cases hrs : r < alignUp l.nodeAlign o1.pos
        · have := f2 r (by rw [f3]; exact hrs)
          rw [this]
          constructor
          · rintro ⟨y, hy⟩
            exact ⟨y, .inr hy⟩
          · rintro ⟨y, ⟨-, rfl⟩ | hy⟩
            · omega
            · exact ⟨y, hy⟩
        · constructor
          · intro hin
            rcases hgrew.new r hin with h5 | ⟨-, h5, -⟩
            · simp only [] at h5
              rcases List.mem_cons.1 h5 with rfl | h5
              · exact ⟨x, .inl ⟨rfl, rfl⟩⟩
              · obtain ⟨y, hy⟩ := (h4 r hr).1 h5
                have := ho.ends _ hy
                simp only [] at this
                omega
            · simp only [] at h5
              omega
          · rintro ⟨y, ⟨-, rfl⟩ | hy⟩
            · exact hgrew.seen r (List.mem_cons_self ..)
            · have := hkd.inv.ends _ hy
              simp only [] at this
              omega

end
end ArcArchive
end Verif
