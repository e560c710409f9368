import Verif.Lemmas.ArcArchiveWrite
/-!
# Lemmas about archives with shared vectors: what is written, where, and how much
-/
namespace Verif
namespace ArcArchive
open Std Verif.Archive
section
variable {K V : Type _} {l : ALayout} {b : ABuf K V} {H : Nat → List (ATree K V)}

/-! ### Roots -/

theorem emitRoot_fst (t : ATree K V) (o : Out K V) : (emitRoot l t o).1 = (emit l t o).1.slice l.nodeSize l.nodeAlign .node [(emit l t o).2] := by rw [emitRoot]
theorem emitRoot_snd (t : ATree K V) (o : Out K V) : (emitRoot l t o).2 = alignUp l.nodeAlign (emit l t o).1.pos := by rw [emitRoot]
theorem emitRoot_pos (t : ATree K V) (o : Out K V) : (emitRoot l t o).1.pos = (emitRoot l t o).2 + l.nodeSize := by
  rw [emitRoot_fst, emitRoot_snd, slice_pos, List.length_singleton, Nat.one_mul]
theorem emitRoot_reg (t : ATree K V) (o : Out K V) : (emitRoot l t o).1.reg = (emit l t o).1.reg := by rw [emitRoot_fst, slice_reg]

theorem emitRoot_did (hl : 0 < l.vecSize) (t : ATree K V) (o : Out K V) (ho : RegInv H l o) (ht : InHeap H t) : Did H l (HasAddr t) o (emitRoot l t o).1 := by
  rw [emitRoot_fst]
  have h1 := emit_did hl t o ho ht
  exact h1.trans (Did.slice h1.inv _ _ _ _) (fun x => by simp)

theorem RegInv.fresh (pos : Nat) : RegInv H l (fresh pos : Out K V) := ⟨.nil, fun _ h => (by cases h), fun _ h => (by cases h)⟩

theorem root_written (hl : l.Ok) {t : ATree K V} (ht : InHeap H t) {o : Out K V} (ho : RegInv H l o) (hr : RegAt H l b o.reg) (hb : Holds b (emitRoot l t o).1.objs)
    (hlen : (emitRoot l t o).1.pos ≤ b.len) : RegAt H l b (emitRoot l t o).1.reg ∧ Located (regRel (emitRoot l t o).1.reg) l b (emitRoot l t o).2 t ∧
      b.node (emitRoot l t o).2 = (emit l t o).2 ∧ (emitRoot l t o).2 + l.nodeSize ≤ b.len ∧ (emitRoot l t o).2 % l.nodeAlign = 0 := by
  have d := emit_did hl.vec t o ho ht
  have hlen' := hlen
  rw [emitRoot_pos] at hlen'
  rw [emitRoot_fst] at hb
  have hb' := hb
  rw [slice_objs] at hb'
  have hnode : b.node (emitRoot l t o).2 = (emit l t o).2 := by
    rw [emitRoot_snd]
    exact hb'.right.mem (List.mem_cons_self ..)
  have hp : (emit l t o).1.pos ≤ b.len := by
    have := alignUp_le l.nodeAlign (emit l t o).1.pos
    rw [emitRoot_snd] at hlen'
    omega
  have hal : (emitRoot l t o).2 % l.nodeAlign = 0 := by rw [emitRoot_snd]; exact alignUp_mod hl.flat.nodeAlign _
  obtain ⟨h1, h2⟩ := writes hl t ht o ho hr hb'.left hp
  rw [emitRoot_reg]
  exact ⟨h1, h2 _ hnode hlen' hal, hnode, hlen', hal⟩

theorem root_accepted [Ord K] [TransOrd K] (hl : l.Ok) {t : ATree K V} (ht : InHeap H t) (hv : t.erase.Valid) (pos : Nat) (hb : Holds b (emitRoot l t (fresh pos)).1.objs)
    (hlen : (emitRoot l t (fresh pos)).1.pos ≤ b.len) : ∃ c, checkRoot l b (emitRoot l t (fresh pos)).2 = some (.ok c) := by
  have hr : RegAt H l b (fresh pos : Out K V).reg := fun e he => by cases he
  obtain ⟨h1, h2, h3, h4, h5⟩ := root_written hl ht (.fresh pos) hr hb hlen
  rw [checkRoot, if_pos ⟨h4, h5⟩]
  rw [emitRoot_fst, slice_objs] at hb
  have hs := emitRoot_snd (l := l) t (fresh pos)
  have al := alignUp_le l.nodeAlign (emit l t (fresh pos)).1.pos
  obtain ⟨c, hc, -⟩ := follows hl t ht (b.len + 1) (emitRoot l t (fresh pos)).2 (fresh pos) ⟨⟨0, (emitRoot l t (fresh pos)).2⟩, []⟩ hv (.fresh pos) hr hb.left
    (by omega) h3 h4 h5 (Nat.zero_le _) (by simp only []; omega) (by simp only []; omega) (fun q _ => by simp [fresh])
  exact ⟨c, by rw [hc]⟩

theorem emitRoots_cons (t : ATree K V) (ts : List (ATree K V)) (o : Out K V) :
    emitRoots l (t :: ts) o = ((emitRoots l ts (emitRoot l t o).1).1, (emitRoot l t o).2 :: (emitRoots l ts (emitRoot l t o).1).2) := by
  rw [emitRoots]

theorem emitRoots_did (hl : 0 < l.vecSize) {ts : List (ATree K V)} (ht : ∀ t ∈ ts, InHeap H t) (o : Out K V) (ho : RegInv H l o) :
    Did H l (fun y => ∃ t ∈ ts, HasAddr t y) o (emitRoots l ts o).1 := by
  induction ts generalizing o with
  | nil =>
    rw [emitRoots]
    exact ⟨⟨[], by simp⟩, Nat.le_refl _, ⟨[], rfl⟩, ho, fun _ h => .inl h, fun x ⟨t, h, _⟩ => by cases h⟩
  | cons t ts ih =>
    rw [emitRoots_cons]
    have h1 := emitRoot_did hl t o ho (ht t (List.mem_cons_self ..))
    exact h1.trans (ih (fun t h => ht t (List.mem_cons_of_mem _ h)) _ h1.inv) (fun x => by simp)

theorem roots_written (hl : l.Ok) {ts : List (ATree K V)} (ht : ∀ t ∈ ts, InHeap H t) : ∀ (o : Out K V), RegInv H l o → RegAt H l b o.reg →
    Holds b (emitRoots l ts o).1.objs → (emitRoots l ts o).1.pos ≤ b.len →
    RegAt H l b (emitRoots l ts o).1.reg ∧ All2 (Located (regRel (emitRoots l ts o).1.reg) l b) (emitRoots l ts o).2 ts := by
  induction ts with
  | nil =>
    intro o _ hr _ _
    rw [emitRoots]
    exact ⟨hr, .nil⟩
  | cons t ts ih =>
    intro o ho hr hb hlen
    rw [emitRoots_cons] at *
    simp only [] at *
    have ht1 := ht t (List.mem_cons_self ..)
    have ht2 := fun t h => ht t (List.mem_cons_of_mem _ h)
    have d1 := emitRoot_did hl.vec t o ho ht1
    have d2 := emitRoots_did hl.vec ht2 _ d1.inv
    obtain ⟨h1, h2, -⟩ := root_written hl ht1 ho hr (d2.holds hb) (Nat.le_trans d2.pos hlen)
    obtain ⟨h3, h4⟩ := ih ht2 _ d1.inv h1 hb hlen
    exact ⟨h3, .cons (h2.mono (fun x q hq => d2.reg _ hq) t _) h4⟩

/-! ### Positions -/

/-- objects at ascending positions from `lo` to `hi` -/
def Span (lo hi : Nat) (objs : List (Nat × Obj K V)) : Prop := objs.Pairwise (fun x y => x.1 < y.1) ∧ ∀ x ∈ objs, lo ≤ x.1 ∧ x.1 < hi

theorem Span.append {lo mid mid' hi : Nat} {xs ys : List (Nat × Obj K V)} (h1 : Span lo mid xs) (h2 : Span mid' hi ys) (h : lo ≤ mid) (hm : mid ≤ mid') (h' : mid' ≤ hi) :
    Span lo hi (xs ++ ys) := by
  refine ⟨List.pairwise_append.2 ⟨h1.1, h2.1, fun x hx y hy => ?_⟩, fun x hx => ?_⟩
  · have := h1.2 x hx
    have := h2.2 y hy
    omega
  · rcases List.mem_append.1 hx with hx | hx
    · have := h1.2 x hx
      omega
    · have := h2.2 x hx
      omega

theorem span_place {α : Type _} {size : Nat} (hs : 0 < size) (f : α → Obj K V) (s : Nat) (xs : List α) : Span s (s + xs.length * size) (place size f s xs) := by
  induction xs generalizing s with
  | nil => exact ⟨.nil, fun x hx => (by cases hx)⟩
  | cons x xs ih =>
    have h := ih (s + size)
    rw [place, List.length_cons, Nat.succ_mul]
    refine ⟨List.pairwise_cons.2 ⟨fun y hy => ?_, h.1⟩, fun y hy => ?_⟩
    · have := h.2 y hy
      simp only []
      omega
    · rcases List.mem_cons.1 hy with rfl | hy
      · simp only []
        omega
      · have := h.2 y hy
        omega

/-- what has been added is behind what was there -/
def Behind (o o' : Out K V) : Prop := o.pos ≤ o'.pos ∧ ∃ more, o'.objs = o.objs ++ more ∧ Span o.pos o'.pos more

theorem Behind.refl (o : Out K V) : Behind o o := ⟨Nat.le_refl _, [], by simp, .nil, fun x hx => (by cases hx)⟩

theorem Behind.trans {o o1 o2 : Out K V} (h : Behind o o1) (h' : Behind o1 o2) : Behind o o2 := by
  obtain ⟨h1, m, h2, h3⟩ := h
  obtain ⟨h4, m', h5, h6⟩ := h'
  exact ⟨Nat.le_trans h1 h4, m ++ m', by rw [h5, h2, List.append_assoc], h3.append h6 h1 (Nat.le_refl _) h4⟩

theorem Behind.slice {α : Type _} (o : Out K V) {size : Nat} (hs : 0 < size) (align : Nat) (f : α → Obj K V) (xs : List α) : Behind o (o.slice size align f xs) := by
  have h := span_place (K := K) (V := V) hs f (alignUp align o.pos) xs
  have h1 := alignUp_le align o.pos
  refine ⟨slice_le .., _, slice_objs .., h.1, fun x hx => ?_⟩
  have := h.2 x hx
  rw [slice_pos]
  omega

/-- sizes are positive -/
structure Sized (l : ALayout) : Prop where
  key : 0 < l.keySize
  node : 0 < l.nodeSize
  vec : 0 < l.vecSize

theorem emit_behind (hl : Sized l) (t : ATree K V) : ∀ o : Out K V, Behind o (emit l t o).1 := by
  refine ATree.induct (P := fun t => ∀ o : Out K V, Behind o (emit l t o).1) ?_ t
  intro p v x ks ih o
  have hkids : ∀ (us : List (ATree K V)), (∀ u ∈ us, ∀ o : Out K V, Behind o (emit l u o).1) → ∀ o : Out K V, Behind o (emitAll l us o).1 := by
    intro us
    induction us with
    | nil => intro _ o; rw [emitAll]; exact .refl o
    | cons u us ih2 =>
      intro hu o
      rw [emitAll_cons]
      exact (hu u (List.mem_cons_self ..) o).trans (ih2 (fun u h => hu u (List.mem_cons_of_mem _ h)) _)
  cases hk : o.reg.lookup x with
  | some q =>
    rw [emit_hit hk]
    exact .slice o hl.key ..
  | none =>
    rw [emit_miss hk]
    have h1 := (Behind.slice o hl.key l.keyAlign Obj.key p).trans (hkids ks ih _)
    have h2 := (h1.trans (Behind.slice _ hl.node l.nodeAlign Obj.node (emitAll l ks (afterPre l o p)).2)).trans
      (Behind.slice _ hl.vec l.vecAlign Obj.vec [⟨(alignUp l.nodeAlign (emitAll l ks (afterPre l o p)).1.pos : Nat), (emitAll l ks (afterPre l o p)).2.length⟩])
    exact h2

theorem emitRoots_behind (hl : Sized l) (ts : List (ATree K V)) : ∀ o : Out K V, Behind o (emitRoots l ts o).1 := by
  induction ts with
  | nil => intro o; rw [emitRoots]; exact .refl o
  | cons t ts ih =>
    intro o
    rw [emitRoots_cons]
    refine Behind.trans ?_ (ih _)
    rw [emitRoot_fst]
    exact (emit_behind hl t o).trans (.slice _ hl.node ..)

theorem exists_buf {objs : List (Nat × Obj K V)} (h : objs.Pairwise (fun x y => x.1 < y.1)) (len : Nat) : ∃ b : ABuf K V, b.len = len ∧ Holds b objs := by
  have key : ∀ (objs : List (Nat × Obj K V)), objs.Pairwise (fun x y => x.1 < y.1) → ∀ x ∈ objs, objs.find? (fun y => y.1 == x.1) = some x := by
    intro objs h
    induction objs with
    | nil => intro x hx; cases hx
    | cons o os ih =>
      intro x hx
      rw [List.pairwise_cons] at h
      rcases List.mem_cons.1 hx with rfl | hx
      · simp
      · have := h.1 x hx
        rw [List.find?_cons_of_neg (by simp; omega)]
        exact ih h.2 x hx
  refine ⟨⟨len, fun a => match objs.find? (fun y => y.1 == a) with | some (_, .key k) => some k | _ => none,
    fun a => match objs.find? (fun y => y.1 == a) with | some (_, .node h) => h | _ => ⟨⟨0, 0⟩, none, 0⟩,
    fun a => match objs.find? (fun y => y.1 == a) with | some (_, .vec p) => p | _ => ⟨0, 0⟩⟩, rfl, ?_⟩
  intro x hx
  have := key objs h x hx
  obtain ⟨a, o⟩ := x
  simp only [] at this
  cases o with
  | key k => simp only [this]
  | node h => simp only [this]
  | vec p => simp only [this]

/-! ### Amounts -/

/-- nodes in the vectors that are registered -/
def nodesOf (H : Nat → List (ATree K V)) (reg : List (Nat × Nat)) : Nat := (reg.map (fun e => (H e.1).length)).sum
/-- key components of the nodes in the vectors that are registered -/
def keysOf (H : Nat → List (ATree K V)) (reg : List (Nat × Nat)) : Nat := (reg.map (fun e => ((H e.1).map (fun c => c.pre.length)).sum)).sum

theorem keysIn_append (xs ys : List (Nat × Obj K V)) : keysIn (xs ++ ys) = keysIn xs + keysIn ys := List.countP_append
theorem nodesIn_append (xs ys : List (Nat × Obj K V)) : nodesIn (xs ++ ys) = nodesIn xs + nodesIn ys := List.countP_append
theorem vecsIn_append (xs ys : List (Nat × Obj K V)) : vecsIn (xs ++ ys) = vecsIn xs + vecsIn ys := List.countP_append

theorem in_place_key (size s : Nat) (p : List K) : keysIn (place size (Obj.key : K → Obj K V) s p) = p.length ∧
    nodesIn (place size (Obj.key : K → Obj K V) s p) = 0 ∧ vecsIn (place size (Obj.key : K → Obj K V) s p) = 0 := by
  induction p generalizing s with
  | nil => exact ⟨rfl, rfl, rfl⟩
  | cons k p ih =>
    obtain ⟨h1, h2, h3⟩ := ih (s + size)
    rw [place]
    simp only [keysIn, nodesIn, vecsIn] at *
    simp [List.countP_cons, h1, h2, h3]

theorem in_place_node (size s : Nat) (p : List (AHdr V)) : keysIn (place size (Obj.node : AHdr V → Obj K V) s p) = 0 ∧
    nodesIn (place size (Obj.node : AHdr V → Obj K V) s p) = p.length ∧ vecsIn (place size (Obj.node : AHdr V → Obj K V) s p) = 0 := by
  induction p generalizing s with
  | nil => exact ⟨rfl, rfl, rfl⟩
  | cons k p ih =>
    obtain ⟨h1, h2, h3⟩ := ih (s + size)
    rw [place]
    simp only [keysIn, nodesIn, vecsIn] at *
    simp [List.countP_cons, h1, h2, h3]

/-- how much writing something with `n` key components of its own (not in the vectors below) adds -/
structure Adds (H : Nat → List (ATree K V)) (n : Nat) (o o' : Out K V) : Prop where
  keys : keysIn o'.objs + keysOf H o.reg = keysIn o.objs + n + keysOf H o'.reg
  nodes : nodesIn o'.objs + nodesOf H o.reg = nodesIn o.objs + nodesOf H o'.reg
  vecs : vecsIn o'.objs + o.reg.length = vecsIn o.objs + o'.reg.length

theorem Adds.trans {m n : Nat} {o o1 o2 : Out K V} (h : Adds H m o o1) (h' : Adds H n o1 o2) : Adds H (m + n) o o2 := by
  have h1 := h.keys
  have h2 := h.nodes
  have h3 := h.vecs
  have h4 := h'.keys
  have h5 := h'.nodes
  have h6 := h'.vecs
  exact ⟨by omega, by omega, by omega⟩

theorem Adds.pre (o : Out K V) (p : List K) : Adds H p.length o (afterPre l o p) := by
  obtain ⟨h1, h2, h3⟩ := in_place_key (V := V) l.keySize (alignUp l.keyAlign o.pos) p
  refine ⟨?_, ?_, ?_⟩
  · rw [slice_objs, slice_reg, keysIn_append, h1]
  · rw [slice_objs, slice_reg, nodesIn_append, h2]
    rfl
  · rw [slice_objs, slice_reg, vecsIn_append, h3]
    rfl

theorem emit_adds (t : ATree K V) : InHeap H t → ∀ o : Out K V, Adds H t.pre.length o (emit l t o).1 := by
  refine ATree.induct (P := fun t => InHeap H t → ∀ o : Out K V, Adds H t.pre.length o (emit l t o).1) ?_ t
  intro p v x ks ih ht o
  have hkids : ∀ (us : List (ATree K V)), (∀ u ∈ us, ∀ o : Out K V, Adds H u.pre.length o (emit l u o).1) →
      ∀ o : Out K V, Adds H ((us.map (fun c => c.pre.length)).sum) o (emitAll l us o).1 := by
    intro us
    induction us with
    | nil => intro _ o; rw [emitAll]; exact ⟨rfl, rfl, rfl⟩
    | cons u us ih2 =>
      intro hu o
      rw [emitAll_cons, List.map_cons, List.sum_cons]
      exact (hu u (List.mem_cons_self ..) o).trans (ih2 (fun u h => hu u (List.mem_cons_of_mem _ h)) _)
  cases ht with
  | mk g1 g2 =>
    cases hk : o.reg.lookup x with
    | some q =>
      rw [emit_hit hk]
      exact .pre o p
    | none =>
      rw [emit_miss hk]
      have h1 := (Adds.pre (l := l) (H := H) o p).trans (hkids ks (fun u hu => ih u hu (g2 u hu)) _)
      generalize ho1 : (emitAll l ks (afterPre l o p)).1 = o1 at *
      have hlen := emitAll_length (l := l) ks (afterPre l o p)
      generalize hhs : (emitAll l ks (afterPre l o p)).2 = hs at *
      obtain ⟨p1, p2, p3⟩ := in_place_node (K := K) l.nodeSize (alignUp l.nodeAlign o1.pos) hs
      refine ⟨?_, ?_, ?_⟩
      · simp only [emitArc_objs, emitArc_reg, keysIn_append, p1]
        have := h1.keys
        rw [show keysOf H ((x, alignUp l.vecAlign (afterNodes l o1 hs).pos) :: o1.reg) = (ks.map (fun c => c.pre.length)).sum + keysOf H o1.reg by
          simp [keysOf, g1]]
        rw [show (ATree.mk p v x ks).pre = p from rfl]
        rw [show keysIn [(alignUp l.vecAlign (afterNodes l o1 hs).pos, (Obj.vec ⟨(alignUp l.nodeAlign o1.pos : Nat), hs.length⟩ : Obj K V))] = 0 from rfl]
        omega
      · simp only [emitArc_objs, emitArc_reg, nodesIn_append, p2]
        have := h1.nodes
        rw [show nodesOf H ((x, alignUp l.vecAlign (afterNodes l o1 hs).pos) :: o1.reg) = ks.length + nodesOf H o1.reg by simp [nodesOf, g1]]
        rw [show nodesIn [(alignUp l.vecAlign (afterNodes l o1 hs).pos, (Obj.vec ⟨(alignUp l.nodeAlign o1.pos : Nat), hs.length⟩ : Obj K V))] = 0 from rfl]
        omega
      · simp only [emitArc_objs, emitArc_reg, vecsIn_append, p3]
        have := h1.vecs
        rw [show vecsIn [(alignUp l.vecAlign (afterNodes l o1 hs).pos, (Obj.vec ⟨(alignUp l.nodeAlign o1.pos : Nat), hs.length⟩ : Obj K V))] = 1 from rfl,
          List.length_cons]
        omega

/-! ### Vectors that are reached -/

theorem Located.hasAddr {R : Nat → Nat → Prop} {root : Nat} (t : ATree K V) : ∀ a, Reach l b root a → Located R l b a t → ∀ x, HasAddr t x →
    ∃ a' p v q cs, Reach l b root a' ∧ R x q ∧ NodeAt l b a' p v q cs := by
  refine ATree.induct (P := fun t => ∀ a, Reach l b root a → Located R l b a t → ∀ x, HasAddr t x → ∃ a' p v q cs, Reach l b root a' ∧ R x q ∧ NodeAt l b a' p v q cs) ?_ t
  rintro p v x ks ih a ha ⟨q, cs, h1, h2, h3⟩ y hy
  rcases hasAddr_mk.1 hy with rfl | ⟨c, hc, hy⟩
  · exact ⟨a, p, v, q, cs, ha, h1, h2⟩
  · obtain ⟨d, hd, hcd⟩ := (locatedL_iff.1 h3).right hc
    exact ih c hc d (.child ha h2.children hd) hcd y hy

/-! ### Reopening -/

theorem sliceAt_extends {b' : ABuf K V} (h : b.len ≤ b'.len) {size align : Nat} {p : VecPtr} {xs : List Nat} (hs : SliceAt b.flat size align p xs) :
    SliceAt b'.flat size align p xs := by
  obtain ⟨s, h1, h2, h3, h4⟩ := hs
  exact ⟨s, h1, h2, Nat.le_trans h3 h, h4⟩

theorem VecAt.extends {b' : ABuf K V} (h : Extends l b b') {q : Nat} {cs : List Nat} (hv : VecAt l b q cs) : VecAt l b' q cs :=
  ⟨Nat.le_trans hv.inside h.len, hv.aligned, by rw [h.vec q hv.inside]; exact sliceAt_extends h.len hv.slice⟩

theorem keysAt_extends {b' : ABuf K V} {xs : List Nat} (h : ∀ x ∈ xs, b'.key x = b.key x) {ks : List K} (hk : KeysAt b.flat xs ks) : KeysAt b'.flat xs ks := by
  induction xs generalizing ks with
  | nil => cases ks with
    | nil => exact trivial
    | cons => cases hk
  | cons x xs ih => cases ks with
    | nil => cases hk
    | cons k ks => exact ⟨(h x (List.mem_cons_self ..)).trans hk.1, ih (fun y hy => h y (List.mem_cons_of_mem _ hy)) hk.2⟩

theorem NodeAt.extends {b' : ABuf K V} (hl : l.keySize % l.keyAlign = 0) (h : Extends l b b') {a : Nat} {p : List K} {v : Option V} {q : Nat} {cs : List Nat} (hn : NodeAt l b a p v q cs) :
    NodeAt l b' a p v q cs := by
  obtain ⟨xs, h1, h2⟩ := hn.pre
  have e := h.node a hn.inside
  refine ⟨Nat.le_trans hn.inside h.len, hn.aligned, ⟨xs, by rw [e]; exact sliceAt_extends h.len h1, keysAt_extends (fun x hx => ?_) h2⟩, by rw [e]; exact hn.val, by rw [e]; exact hn.arc,
    hn.vec.extends h⟩
  exact h.key x (SliceAt.mem h1 hl hx).2.2.1

theorem Located.extends {b' : ABuf K V} (hl : l.keySize % l.keyAlign = 0) (h : Extends l b b') {R : Nat → Nat → Prop} (t : ATree K V) :
    ∀ a, Located R l b a t → Located R l b' a t := by
  refine ATree.induct (P := fun t => ∀ a, Located R l b a t → Located R l b' a t) ?_ t
  rintro p v x ts ih a ⟨q, cs, h1, h2, h3⟩
  exact ⟨q, cs, h1, h2.extends hl h, locatedL_iff.2 ((locatedL_iff.1 h3).imp (fun a _ t ht k => ih t ht a k))⟩

end
end ArcArchive
end Verif
