import Verif.Lemmas.ArcArchiveRoots
import Verif.Props.Archive
/-!
# Archives with shared vectors of children: C87

`ArcRadixTree` and `LazyRadixTree` are archived with their sharing. A buffer (`ABuf`) is arbitrary. `Stored l b a t`: starting at position `a` and following
pointers one finds the tree `t`, never leaving the buffer. `Located R l b a t`: the same for a tree with addresses, where `R` relates the addresses of vectors of
children to positions in the buffer. `InHeap H t`: the tree `t` is in the memory `H`.

Two things one would want are false, because of how `check_bytes` and rkyv 0.7 work (assumptions about rkyv: head of Model/ArcArchive.lean): validation can read outside
the buffer (`C87_hostile_counterexample`), and it accepts archives that are not trees but go round in circles (`C87_finding_cycle`).
-/
namespace Verif
namespace ArcArchive
open Std Verif.Archive
section
variable {K V : Type} [Ord K] [TransOrd K]

/-! ## Validation -/

omit [TransOrd K] in
/-- **C87.** Validation always ends, also for archives that go round in circles: the recursion is never deeper than the buffer is long. -/
theorem C87_terminates (l : ALayout) (hl : 0 < l.nodeSize) (b : ABuf K V) (a : Nat) : checkRoot l b a ≠ some .deep := by
  rw [checkRoot]
  split
  · intro e
    exact checkNode_deep hl (b.len + 1) a ⟨⟨0, a⟩, []⟩ (by simp only []; omega) (Option.some.inj e)
  · exact fun h => by cases h

/-- **C87.** What validation accepts can be used: going down from the root, however far, one only comes across nodes inside the buffer, and the children of each have
non-empty prefixes and are in order. No condition on the buffer. -/
theorem C87_accepted_safe (l : ALayout) (b : ABuf K V) (a : Nat) (c : Ctx) (h : checkRoot l b a = some (.ok c)) : Safe l b a ∧ OrderedBelow l b a := by
  refine ⟨fun a' ha => ?_, fun a' cs ha hcs => ?_⟩
  · obtain ⟨p, v, q, cs, h1, -⟩ := accepted_node h ha
    exact ⟨p, v, q, cs, h1⟩
  · obtain ⟨p, v, q, cs', h1, -, h2, h3⟩ := accepted_node h ha
    rw [h1.children] at hcs
    cases hcs
    exact ordered_heads (fun x hx => by
      obtain ⟨p, v, q, ds, k, -⟩ := accepted_node h (.child ha h1.children hx)
      exact ⟨p, v, q, ds, k⟩) h2 h3

/-- **C87.** If what is accepted does not go round in circles (paths down are not arbitrarily long) it is a valid tree, and can be deserialized. -/
theorem C87_accepted_acyclic (l : ALayout) (b : ABuf K V) (a n : Nat) (c : Ctx) (h : checkRoot l b a = some (.ok c)) (hn : ¬Path l b n a) :
    ∃ t : Tree K V, Stored l b a t ∧ t.Valid ∧ ∃ t' g, load l b t.nodes a ⟨[], 0⟩ = some (t', g) ∧ t'.erase = t := by
  obtain ⟨t, h1, h2⟩ := stored_of_accepted h n a .root hn
  obtain ⟨t', g, k1, -, -, -, -, k2, -⟩ := load_ok t t.nodes a (Nat.le_refl _) h1 _ .start
  exact ⟨t, h1, h2, t', g, k1, k2⟩

omit [TransOrd K] in
/-- **C87 (partial).** Validation does not read outside the buffer if the pointers lead nowhere outside it. Missing, because it is false: the same for arbitrary
buffers. -/
theorem C87_no_undefined_behaviour_partial (l : ALayout) (hl : 0 < l.nodeSize) (b : ABuf K V) (a : Nat) (h : Safe l b a) :
    ∃ x, checkRoot l b a = some x ∧ ((∃ c, x = .ok c) ∨ ∃ e, x = .err e) := by
  obtain ⟨p, v, q, cs, hn⟩ := h a .root
  have h1 := C87_terminates l hl b a
  rw [checkRoot, if_pos ⟨hn.inside, hn.aligned⟩] at h1 ⊢
  have h2 := checkNode_ub h (b.len + 1) a ⟨⟨0, a⟩, []⟩ .root
  refine ⟨_, rfl, ?_⟩
  cases hx : checkNode l b (b.len + 1) a ⟨⟨0, a⟩, []⟩ with
  | ok r => exact .inl ⟨r, rfl⟩
  | err e => exact .inr ⟨e, rfl⟩
  | ub => exact absurd hx h2
  | deep => exact absurd (congrArg some hx) h1

/-! ## Reading -/

omit [Ord K] [TransOrd K] in
/-- **C87.** Reading a tree stored in a buffer gives the tree: the accessors that all reading operations use return its prefix, its value and the positions of its
children, without leaving the buffer; there is at most one tree at a position. -/
theorem C87_reading (l : ALayout) (b : ABuf K V) (a : Nat) (t : Tree K V) (h : Stored l b a t) :
    prefixAt l b a = some t.pre ∧ valueAt b a = some t.val ∧ (∃ cs, childrenAt l b a = some cs ∧ StoredL l b cs t.kids) ∧ ∀ t', Stored l b a t' → t' = t := by
  have h' := h
  obtain ⟨p, v, ts⟩ := t
  obtain ⟨q, cs, h1, h2⟩ := h
  exact ⟨h1.prefixAt, h1.val, ⟨cs, h1.children, h2⟩, fun t' ht' => Stored.unique t' a _ ht' h'⟩

omit [Ord K] [TransOrd K] in
/-- **C87.** Deserializing gives the tree in the buffer, with its sharing: two nodes of the result have the same vector of children if and only if the archived nodes
point to the same vector (`R`, from addresses of new allocations to positions, is one-to-one). -/
theorem C87_loading (l : ALayout) (b : ABuf K V) (a fuel : Nat) (t : Tree K V) (h : Stored l b a t) (hf : t.nodes ≤ fuel) :
    ∃ t' g R, load l b fuel a ⟨[], 0⟩ = some (t', g) ∧ t'.erase = t ∧ OneToOne R ∧ Located R l b a t' := by
  obtain ⟨t', g, k1, k2, -, -, k3, k4, -⟩ := load_ok t fuel a hf h _ .start
  exact ⟨t', g, _, k1, k4, k2.oneToOne, k3⟩

/-! ## Writing -/

/-- **C87.** An archive of a valid tree written with a fresh serializer (after whatever else is in the buffer) is accepted, and deserializing it gives the tree that
was written, with the same sharing. -/
theorem C87_written (l : ALayout) (hl : l.Ok) (H : Nat → List (ATree K V)) (t : ATree K V) (ht : InHeap H t) (hv : t.erase.Valid) (pos : Nat) (b : ABuf K V)
    (hb : Holds b (emitRoot l t (fresh pos)).1.objs) (hlen : (emitRoot l t (fresh pos)).1.pos ≤ b.len) :
    (∃ c, checkRoot l b (emitRoot l t (fresh pos)).2 = some (.ok c)) ∧ Stored l b (emitRoot l t (fresh pos)).2 t.erase ∧
    ∃ t' g, load l b t.erase.nodes (emitRoot l t (fresh pos)).2 ⟨[], 0⟩ = some (t', g) ∧ SameSharing t t' := by
  have d := emitRoot_did hl.vec t _ (.fresh (H := H) (l := l) pos) ht
  obtain ⟨-, h1, -⟩ := root_written hl ht (.fresh pos) (fun e he => (by cases he)) hb hlen
  have h2 := h1.stored t _
  obtain ⟨t', g, R, k1, -, k2, k3⟩ := C87_loading l b _ _ _ h2 (Nat.le_refl _)
  exact ⟨root_accepted hl ht hv pos hb hlen, h2, t', g, k1, Located.sameSharing d.inv.oneToOne k2 h1 k3⟩

omit [Ord K] [TransOrd K] in
/-- **C87.** Any number of trees written one after the other with one serializer: afterwards all of them can be read from the same buffer, each at its root, and
deserialized with its sharing. -/
theorem C87_written_many (l : ALayout) (hl : l.Ok) (H : Nat → List (ATree K V)) (ts : List (ATree K V)) (ht : ∀ t ∈ ts, InHeap H t) (pos : Nat) (b : ABuf K V)
    (hb : Holds b (emitRoots l ts (fresh pos)).1.objs) (hlen : (emitRoots l ts (fresh pos)).1.pos ≤ b.len) :
    (emitRoots l ts (fresh pos)).2.length = ts.length ∧ ∀ (i a : Nat) (t : ATree K V), (emitRoots l ts (fresh pos)).2[i]? = some a → ts[i]? = some t →
      Stored l b a t.erase ∧ ∃ t' g, load l b t.erase.nodes a ⟨[], 0⟩ = some (t', g) ∧ SameSharing t t' := by
  have d := emitRoots_did hl.vec ht _ (.fresh (H := H) (l := l) pos)
  obtain ⟨-, h1⟩ := roots_written hl ht (fresh pos) (.fresh pos) (fun e he => (by cases he)) hb hlen
  have hget : ∀ {R : Nat → ATree K V → Prop} {as : List Nat} {us : List (ATree K V)}, All2 R as us → ∀ (i : Nat) (a : Nat) (t : ATree K V),
      as[i]? = some a → us[i]? = some t → R a t := by
    intro R as us h
    induction h with
    | nil => intro i a t h; simp at h
    | cons h1 _ ih =>
      intro i a t ha ht
      cases i with
      | zero =>
        simp only [List.getElem?_cons_zero, Option.some.injEq] at ha ht
        rw [← ha, ← ht]
        exact h1
      | succ i => exact ih i a t (by simpa using ha) (by simpa using ht)
  refine ⟨h1.length, fun i a t ha hti => ?_⟩
  have h2 := hget h1 i a t ha hti
  have h3 := h2.stored t _
  obtain ⟨t', g, R, k1, -, k2, k3⟩ := C87_loading l b _ _ _ h3 (Nat.le_refl _)
  exact ⟨h3, t', g, k1, Located.sameSharing d.inv.oneToOne k2 h2 k3⟩

omit [Ord K] [TransOrd K] in
/-- **C87.** What is written is written to different places behind what is in the buffer already, the root of the last tree at the very end, and a buffer can hold it. -/
theorem C87_written_apart (l : ALayout) (hl : l.Ok) (hk : 0 < l.keySize) (ts : List (ATree K V)) (pos : Nat) :
    (∀ x ∈ (emitRoots l ts (fresh pos)).1.objs, pos ≤ x.1 ∧ x.1 < (emitRoots l ts (fresh pos)).1.pos) ∧
    (emitRoots l ts (fresh pos)).1.objs.Pairwise (fun x y => x.1 < y.1) ∧
    (∀ a, (emitRoots l ts (fresh pos)).2.getLast? = some a → a + l.nodeSize = (emitRoots l ts (fresh pos)).1.pos) ∧
    ∃ b : ABuf K V, b.len = (emitRoots l ts (fresh pos)).1.pos ∧ Holds b (emitRoots l ts (fresh pos)).1.objs := by
  obtain ⟨-, more, h1, h2⟩ := emitRoots_behind ⟨hk, hl.flat.node, hl.vec⟩ ts (fresh pos)
  have h3 : (emitRoots l ts (fresh pos)).1.objs = more := h1
  rw [h3]
  refine ⟨h2.2, h2.1, ?_, exists_buf h2.1 _⟩
  have : ∀ (ts : List (ATree K V)) (o : Out K V) a, (emitRoots l ts o).2.getLast? = some a → a + l.nodeSize = (emitRoots l ts o).1.pos := by
    intro ts
    induction ts with
    | nil => intro o a h; rw [emitRoots] at h; cases h
    | cons t ts ih =>
      intro o a h
      rw [emitRoots_cons] at h ⊢
      simp only [] at h ⊢
      cases ts with
      | nil =>
        rw [emitRoots] at h ⊢
        simp only [List.getLast?_singleton, Option.some.injEq] at h
        rw [← h]
        exact (emitRoot_pos t o).symm
      | cons u us =>
        refine ih _ a ?_
        rw [emitRoots_cons] at h ⊢
        simpa [List.getLast?_cons_cons] using h
  exact this ts _

omit [Ord K] [TransOrd K] in
/-- **C87.** Sharing is preserved in the archive: writing a tree (with a serializer that has written other trees before) writes exactly the vectors that are not in the
buffer yet, each once, and apart from them only the root. `xs` are the addresses of these vectors. -/
theorem C87_written_once (l : ALayout) (hl : l.Ok) (H : Nat → List (ATree K V)) (us : List (ATree K V)) (t : ATree K V) (hu : ∀ u ∈ us, InHeap H u) (ht : InHeap H t)
    (pos : Nat) : ∃ (more : List (Nat × Obj K V)) (xs : List Nat), (emitRoots l (us ++ [t]) (fresh pos)).1.objs = (emitRoots l us (fresh pos)).1.objs ++ more ∧ xs.Nodup ∧
      (∀ x, x ∈ xs ↔ HasAddr t x ∧ ¬∃ u ∈ us, HasAddr u x) ∧ vecsIn more = xs.length ∧ nodesIn more = 1 + (xs.map (fun x => (H x).length)).sum ∧
      keysIn more = t.pre.length + (xs.map (fun x => ((H x).map (fun c => c.pre.length)).sum)).sum := by
  have happ : ∀ (us : List (ATree K V)) (o : Out K V), (emitRoots l (us ++ [t]) o).1 = (emitRoot l t (emitRoots l us o).1).1 := by
    intro us
    induction us with
    | nil => intro o; rw [List.nil_append, emitRoots_cons, emitRoots, emitRoots]
    | cons u us ih => intro o; rw [List.cons_append, emitRoots_cons, emitRoots_cons]; exact ih _
  rw [happ]
  have d0 := emitRoots_did hl.vec hu _ (.fresh (H := H) (l := l) pos)
  generalize ho : (emitRoots l us (fresh pos)).1 = o at *
  have d1 := emit_did hl.vec t o d0.inv ht
  have d2 := emitRoot_did hl.vec t o d0.inv ht
  have a1 := emit_adds (l := l) t ht o
  obtain ⟨more, hm⟩ := d2.objs
  obtain ⟨nr, hn⟩ := d2.ext
  have hn' := hn
  rw [emitRoot_reg] at hn'
  have hlast : (emitRoot l t o).1.objs = (emit l t o).1.objs ++ [((emitRoot l t o).2, .node (emit l t o).2)] := by
    rw [emitRoot_fst, emitRoot_snd]
    rfl
  refine ⟨more, nr.map Prod.fst, hm, ?_, fun x => ?_, ?_, ?_, ?_⟩
  · have := d2.inv.apart
    rw [hn, List.pairwise_append] at this
    exact List.pairwise_map.2 (this.1.imp (fun h => fun e => h.1 e.symm))
  · have hreg : ∀ y, (∃ u ∈ us, HasAddr u y) ↔ ∃ q, (y, q) ∈ o.reg := by
      intro y
      refine ⟨d0.all y, fun ⟨q, hq⟩ => ?_⟩
      rcases d0.new _ hq with h1 | ⟨h1, -⟩
      · cases h1
      · exact h1
    have hdis : ∀ e ∈ nr, ∀ e' ∈ o.reg, e.1 ≠ e'.1 := by
      have := d2.inv.apart
      rw [hn, List.pairwise_append] at this
      intro e he e' he' h
      exact (this.2.2 e he e' he').1 h.symm
    rw [hreg, List.mem_map]
    constructor
    · rintro ⟨e, he, rfl⟩
      refine ⟨?_, fun ⟨q, hq⟩ => hdis e he _ hq rfl⟩
      rcases d2.new e (by rw [hn]; exact List.mem_append_left _ he) with h1 | ⟨h1, -⟩
      · exact absurd rfl (hdis e he e h1)
      · exact h1
    · rintro ⟨h1, h2⟩
      obtain ⟨q, hq⟩ := d2.all x h1
      rw [hn] at hq
      rcases List.mem_append.1 hq with hq | hq
      · exact ⟨_, hq, rfl⟩
      · exact absurd ⟨q, hq⟩ h2
  · have h1 := a1.vecs
    have h2 : vecsIn (emitRoot l t o).1.objs = vecsIn (emit l t o).1.objs := by rw [hlast, vecsIn_append]; rfl
    rw [hm, vecsIn_append] at h2
    rw [hn', List.length_append] at h1
    rw [List.length_map]
    omega
  · have h1 := a1.nodes
    have h2 : nodesIn (emitRoot l t o).1.objs = nodesIn (emit l t o).1.objs + 1 := by rw [hlast, nodesIn_append]; rfl
    rw [hm, nodesIn_append] at h2
    rw [hn', nodesOf, nodesOf, List.map_append, List.sum_append] at h1
    rw [List.map_map]
    simp only [Function.comp_def]
    omega
  · have h1 := a1.keys
    have h2 : keysIn (emitRoot l t o).1.objs = keysIn (emit l t o).1.objs := by rw [hlast, keysIn_append]; rfl
    rw [hm, keysIn_append] at h2
    rw [hn', keysOf, keysOf, List.map_append, List.sum_append] at h1
    rw [List.map_map]
    simp only [Function.comp_def]
    omega

omit [TransOrd K] in
/-- **C87, finding.** A tree written after another one with the same serializer, as `RadixDb::flush` does, is *rejected* by validation if it shares any vector of
children with what was written before (all leaves of all `ArcRadixTree`s do: they share one empty vector, arc_radix_tree.rs:16-21), although it is stored correctly:
rkyv expects the shared vector behind what has been checked already. (The validating call is commented out in `RadixDb::load`, examples/radix_db.rs:319-321.) -/
theorem C87_finding_second_tree_rejected (l : ALayout) (hl : l.Ok) (H : Nat → List (ATree K V)) (us : List (ATree K V)) (t : ATree K V)
    (hu : ∀ u ∈ us, InHeap H u) (ht : InHeap H t) (pos : Nat) (x : Nat) (hx : HasAddr t x) (hx' : ∃ u ∈ us, HasAddr u x) (b : ABuf K V)
    (hb : Holds b (emitRoot l t (emitRoots l us (fresh pos)).1).1.objs) (hlen : (emitRoot l t (emitRoots l us (fresh pos)).1).1.pos ≤ b.len) :
    Stored l b (emitRoot l t (emitRoots l us (fresh pos)).1).2 t.erase ∧ ∃ e, checkRoot l b (emitRoot l t (emitRoots l us (fresh pos)).1).2 = some (.err e) := by
  have d0 := emitRoots_did hl.vec hu _ (.fresh (H := H) (l := l) pos)
  have d1 := emitRoot_did hl.vec t _ d0.inv ht
  obtain ⟨h1, -⟩ := roots_written hl hu (fresh pos) (.fresh pos) (fun e he => (by cases he)) (d1.holds hb) (Nat.le_trans d1.pos hlen)
  obtain ⟨-, h2, h3, h4, h5⟩ := root_written hl ht d0.inv h1 hb hlen
  obtain ⟨q, hq⟩ := d0.all x hx'
  generalize (emitRoots l us (fresh pos)).1 = o at *
  generalize hroot : (emitRoot l t o).2 = root at *
  have hs := h2.stored t _
  obtain ⟨y, hy, hz⟩ := C87_no_undefined_behaviour_partial l hl.flat.node b root hs.safe
  refine ⟨hs, ?_⟩
  rcases hz with ⟨c, rfl⟩ | ⟨e, rfl⟩
  · exfalso
    obtain ⟨a', p, v, q', cs, k1, k2, k3⟩ := h2.hasAddr t root .root x hx
    have hqq : q = q' := (d1.inv.oneToOne x q x q' (d1.reg _ hq) k2).1 rfl
    obtain ⟨p', v', q'', cs', k4, k5, -⟩ := accepted_node hy k1
    obtain ⟨-, -, e1, -⟩ := k3.unique k4
    have h6 := ((accepted hy).2.2 q'' k5).1
    have h7 := d0.inv.ends _ hq
    have h8 : (b.node root).pre.target.toNat = alignUp l.keyAlign o.pos := by
      rw [h3]
      obtain ⟨p, v, x, ks⟩ := t
      cases hk : o.reg.lookup x with
      | some r => rw [emit_hit hk]; rfl
      | none => rw [emit_miss hk]; rfl
    have h9 := alignUp_le l.keyAlign o.pos
    have := hl.vec
    simp only [] at h7
    omega
  · exact ⟨e, hy⟩

omit [Ord K] [TransOrd K] in
/-- **C87.** Closing and opening again (`RadixDb::load`, `flush`, examples/radix_db.rs:302-342 and 396-414): deserializing also yields a registry from addresses to
positions. With this registry more trees can be written behind the end of the buffer: afterwards each can be read at its root, what was in the buffer is still there,
and writing the deserialized tree again writes nothing but its root. `H` is the memory; it contains the deserialized vectors. -/
theorem C87_reopened (l : ALayout) (hl : l.Ok) (b : ABuf K V) (a fuel : Nat) (t : Tree K V) (h : Stored l b a t) (hf : t.nodes ≤ fuel) :
    ∃ t' g, load l b fuel a ⟨[], 0⟩ = some (t', g) ∧ t'.erase = t ∧
      ∀ H : Nat → List (ATree K V), (∀ q x us, (q, x, us) ∈ g.known → H x = us) →
        InHeap H t' ∧
        (vecsIn (emitRoot l t' ⟨[], g.known.map (fun e => (e.2.1, e.1)), b.len⟩).1.objs = 0 ∧
          nodesIn (emitRoot l t' ⟨[], g.known.map (fun e => (e.2.1, e.1)), b.len⟩).1.objs = 1 ∧
          keysIn (emitRoot l t' ⟨[], g.known.map (fun e => (e.2.1, e.1)), b.len⟩).1.objs = t.pre.length) ∧
        ∀ (ts : List (ATree K V)) (b' : ABuf K V), (∀ t ∈ ts, InHeap H t) → Extends l b b' →
          Holds b' (emitRoots l ts ⟨[], g.known.map (fun e => (e.2.1, e.1)), b.len⟩).1.objs →
          (emitRoots l ts ⟨[], g.known.map (fun e => (e.2.1, e.1)), b.len⟩).1.pos ≤ b'.len →
          Stored l b' a t ∧ All2 (fun r u => Stored l b' r u.erase) (emitRoots l ts ⟨[], g.known.map (fun e => (e.2.1, e.1)), b.len⟩).2 ts := by
  obtain ⟨t', g, k1, k2, -, -, k3, k4, -⟩ := load_ok t fuel a hf h _ .start
  refine ⟨t', g, k1, k4, fun H hH => ?_⟩
  have hrel : ∀ x q, g.rel x q → regRel (g.known.map (fun e => (e.2.1, e.1))) x q := by
    rintro x q ⟨us, hu⟩
    exact List.mem_map.2 ⟨_, hu, rfl⟩
  have haddr : ∀ (u : ATree K V) (c : Nat), Located g.rel l b c u → (∀ y, HasAddr u y → ∃ q, g.rel y q) ∧ InHeap H u := by
    intro u
    refine ATree.induct (P := fun u => ∀ c, Located g.rel l b c u → (∀ y, HasAddr u y → ∃ q, g.rel y q) ∧ InHeap H u) ?_ u
    rintro p v x ks ih c ⟨q, cs, h1, h2, h3⟩
    have hk : ∀ u ∈ ks, (∀ y, HasAddr u y → ∃ q, g.rel y q) ∧ InHeap H u := by
      intro u hu
      obtain ⟨d, -, hd⟩ := (locatedL_iff.1 h3).right hu
      exact ih u hu d hd
    refine ⟨fun y hy => ?_, .mk ?_ (fun u hu => (hk u hu).2)⟩
    · rcases hasAddr_mk.1 hy with rfl | ⟨u, hu, hy⟩
      · exact ⟨q, h1⟩
      · exact (hk u hu).1 y hy
    · obtain ⟨us, hu⟩ := h1
      rw [hH _ _ _ hu]
      obtain ⟨cs', j1, j2⟩ := k2.vec _ _ _ hu
      cases j1.unique h2.vec
      exact LocatedL.unique k2.oneToOne j2 h3
  have hinv : RegInv H l (⟨[], g.known.map (fun e => (e.2.1, e.1)), b.len⟩ : Out K V) := by
    refine ⟨?_, fun e he => ?_, fun e he c hc y hy => ?_⟩
    · refine List.pairwise_map.2 (k2.apart.imp (fun h => ⟨?_, ?_⟩))
      · simp only []; omega
      · exact h.1
    · obtain ⟨⟨q, x, us⟩, he1, rfl⟩ := List.mem_map.1 he
      obtain ⟨cs, j1, -⟩ := k2.vec _ _ _ he1
      exact j1.inside
    · obtain ⟨⟨q, x, us⟩, he1, rfl⟩ := List.mem_map.1 he
      obtain ⟨cs, j1, j2⟩ := k2.vec _ _ _ he1
      simp only [] at hc
      rw [hH _ _ _ he1] at hc
      obtain ⟨d, -, hd⟩ := (locatedL_iff.1 j2).right hc
      obtain ⟨r, hr⟩ := (haddr c d hd).1 y hy
      exact ⟨r, hrel _ _ hr⟩
  have ht := (haddr t' a k3).2
  refine ⟨ht, ?_, fun ts b' hts hext hb hlen => ?_⟩
  · have d := emit_did hl.vec t' _ hinv ht
    have ad := emit_adds (l := l) t' ht ⟨[], g.known.map (fun e => (e.2.1, e.1)), b.len⟩
    obtain ⟨nr, hn⟩ := d.ext
    have hnil : nr = [] := by
      cases nr with
      | nil => rfl
      | cons e nr =>
        exfalso
        have hap := d.inv.apart
        rw [hn, List.pairwise_append] at hap
        have hdis := fun e' he' => hap.2.2 e (List.mem_cons_self ..) e' he'
        rcases d.new e (by rw [hn]; simp) with h1 | ⟨h1, -⟩
        · exact (hdis e h1).1 rfl
        · obtain ⟨r, hr⟩ := (haddr t' a k3).1 _ h1
          exact (hdis _ (hrel _ _ hr)).1 rfl
    rw [hnil, List.nil_append] at hn
    have h1 := ad.keys
    have h2 := ad.nodes
    have h3 := ad.vecs
    rw [hn] at h1 h2 h3
    have hlast : ∀ o : Out K V, (emitRoot l t' o).1.objs = (emit l t' o).1.objs ++ [((emitRoot l t' o).2, .node (emit l t' o).2)] := by
      intro o
      rw [emitRoot_fst, emitRoot_snd]
      rfl
    have hp : t.pre = t'.pre := by
      rw [← k4]
      cases t'
      rw [erase_mk]
      rfl
    rw [hlast, vecsIn_append, nodesIn_append, keysIn_append, hp]
    have e1 : keysIn ([] : List (Nat × Obj K V)) = 0 := rfl
    have e2 : nodesIn ([] : List (Nat × Obj K V)) = 0 := rfl
    have e3 : vecsIn ([] : List (Nat × Obj K V)) = 0 := rfl
    simp only [e1, e2, e3] at h1 h2 h3
    refine ⟨?_, ?_, ?_⟩
    · simp [vecsIn] at h3 ⊢; omega
    · simp [nodesIn] at h2 ⊢; omega
    · simp [keysIn] at h1 ⊢; omega
  · have hat : RegAt H l b' (g.known.map (fun e => (e.2.1, e.1))) := by
      intro e he
      obtain ⟨⟨q, x, us⟩, he1, rfl⟩ := List.mem_map.1 he
      obtain ⟨cs, j1, j2⟩ := k2.vec _ _ _ he1
      refine ⟨cs, j1.extends hext, ?_⟩
      simp only []
      rw [hH _ _ _ he1]
      exact locatedL_iff.2 ((locatedL_iff.1 j2).imp (fun c _ u _ k => (k.mono hrel u c).extends hl.flat.keySize hext u c))
    obtain ⟨-, h1⟩ := roots_written hl hts _ hinv hat hb hlen
    refine ⟨?_, h1.imp (fun r _ u _ k => k.stored u r)⟩
    have := (k3.extends hl.flat.keySize hext t' a).stored t' a
    rwa [k4] at this

end

/-! ## Counterexamples and findings -/

/-- sizes and alignments for key components and values of one byte -/
def demoLayoutA : ALayout := { keySize := 1, keyAlign := 1, nodeSize := 16, nodeAlign := 4, vecSize := 8, vecAlign := 4 }

theorem demoLayoutA_ok : demoLayoutA.Ok := ⟨⟨by decide, by decide, by decide, by decide, by decide⟩, by decide, by decide, by decide⟩

/-- 16 bytes: a node without prefix and value whose vector of children is said to be behind the end of the buffer -/
def hostileA : ABuf Nat Char :=
  { len := 16, key := fun a => if a < 16 then some a else none, node := fun _ => ⟨⟨0, 0⟩, some none, 1000⟩, vec := fun _ => ⟨0, 0⟩ }

/-- **C87.** A buffer of 16 bytes, all of whose positions hold valid key components and values, for which validation reads outside the buffer. -/
theorem C87_hostile_counterexample : checkRoot demoLayoutA hostileA 0 = some .ub ∧ ¬∃ t, Stored demoLayoutA hostileA 0 t := by
  have h : checkRoot demoLayoutA hostileA 0 = some .ub := by decide +kernel
  refine ⟨h, fun ⟨t, ht⟩ => ?_⟩
  obtain ⟨x, h1, h2⟩ := C87_no_undefined_behaviour_partial demoLayoutA (by decide) hostileA 0 ht.safe
  rw [h] at h1
  cases h1
  rcases h2 with ⟨_, h2⟩ | ⟨_, h2⟩ <;> cases h2

/-- 44 bytes: a key component at 0, a node at 4, a vector with this node at 20, the root at 28. The node and the root have the same vector of children. -/
def cyclic : ABuf Nat Char :=
  { len := 44, key := fun a => if a = 0 then some 7 else none,
    node := fun a => if a = 4 then ⟨⟨0, 1⟩, some (some 'a'), 20⟩ else ⟨⟨0, 0⟩, some none, 20⟩,
    vec := fun _ => ⟨4, 1⟩ }

theorem cyclic_child : childrenAt demoLayoutA cyclic 4 = some [4] := by decide +kernel

theorem cyclic_path (n : Nat) : Path demoLayoutA cyclic n 4 := by
  induction n with
  | zero => exact .zero
  | succ n ih => exact .succ cyclic_child (List.mem_singleton.2 rfl) ih

theorem cyclic_load (fuel n : Nat) : load demoLayoutA cyclic fuel 4 ⟨[], n⟩ = none := by
  induction fuel with
  | zero => rfl
  | succ fuel ih =>
    have h1 : prefixAt demoLayoutA cyclic 4 = some [7] := by decide +kernel
    have h2 : valueAt cyclic 4 = some (some 'a') := by decide +kernel
    rw [load, h1, h2, cyclic_child]
    simp only [List.lookup_nil, loadEach, ih]

/-- **C87, finding.** Validation accepts an archive in which a node is a child of itself: there are paths down of every length, no tree is stored in it, and
deserializing it (or iterating over it) never ends. -/
theorem C87_finding_cycle : (∃ c, checkRoot demoLayoutA cyclic 28 = some (.ok c)) ∧ (∀ n, Path demoLayoutA cyclic n 28) ∧
    (¬∃ t, Stored demoLayoutA cyclic 28 t) ∧ ∀ fuel, load demoLayoutA cyclic fuel 28 ⟨[], 0⟩ = none := by
  have hc : childrenAt demoLayoutA cyclic 28 = some [4] := by decide +kernel
  have hload : ∀ fuel, load demoLayoutA cyclic fuel 28 ⟨[], 0⟩ = none := by
    intro fuel
    cases fuel with
    | zero => rfl
    | succ fuel =>
      have h1 : prefixAt demoLayoutA cyclic 28 = some [] := by decide +kernel
      have h2 : valueAt cyclic 28 = some none := by decide +kernel
      rw [load, h1, h2, hc]
      simp only [List.lookup_nil, loadEach, cyclic_load]
  refine ⟨⟨⟨⟨28, 28⟩, [20]⟩, by decide +kernel⟩, fun n => ?_, fun ⟨t, ht⟩ => ?_, hload⟩
  · cases n with
    | zero => exact .zero
    | succ n => exact .succ hc (List.mem_singleton.2 rfl) (cyclic_path n)
  · obtain ⟨t', g, R, k1, -⟩ := C87_loading _ _ _ _ t ht (Nat.le_refl _)
    rw [hload] at k1
    cases k1

/-- the vector at address `n`: two children, both with the vector at address `n - 1` -/
def kidsOf : Nat → List (ATree Nat Char)
  | 0 => []
  | n + 1 => [⟨[0], some 'a', n, kidsOf n⟩, ⟨[1], some 'b', n, kidsOf n⟩]

/-- a tree with `n` levels below the root -/
def doubling (n : Nat) : ATree Nat Char := ⟨[], none, n, kidsOf n⟩

theorem kidsOf_nodes (n : Nat) : Tree.nodes.nodesL (ATree.eraseL (kidsOf n)) + 2 = 2 ^ (n + 1) := by
  induction n with
  | zero => rfl
  | succ n ih =>
    rw [kidsOf, ATree.eraseL, ATree.eraseL, ATree.eraseL, ATree.erase, ATree.erase, Tree.nodes.nodesL, Tree.nodes.nodesL, Tree.nodes.nodesL, Tree.nodes, Tree.nodes, Nat.pow_succ]
    omega

theorem kidsOf_inHeap (n : Nat) : ∀ c ∈ kidsOf n, InHeap kidsOf c := by
  induction n with
  | zero => intro c hc; cases hc
  | succ n ih =>
    intro c hc
    rw [kidsOf] at hc
    rcases List.mem_cons.1 hc with rfl | hc
    · exact .mk rfl ih
    · cases List.mem_singleton.1 hc
      exact .mk rfl ih

theorem hasAddr_doubling {x : Nat} : ∀ (n : Nat) (p : List Nat) (v : Option Char), HasAddr (⟨p, v, n, kidsOf n⟩ : ATree Nat Char) x ↔ x ≤ n := by
  intro n
  induction n with
  | zero =>
    intro p v
    rw [hasAddr_mk]
    constructor
    · rintro (h | ⟨c, hc, -⟩)
      · omega
      · cases hc
    · intro h; left; omega
  | succ n ih =>
    intro p v
    rw [hasAddr_mk]
    constructor
    · rintro (h | ⟨c, hc, h⟩)
      · omega
      · rw [kidsOf] at hc
        rcases List.mem_cons.1 hc with rfl | hc
        · have := (ih _ _).1 h; omega
        · cases List.mem_singleton.1 hc
          have := (ih _ _).1 h; omega
    · intro h
      rcases Nat.lt_or_ge n x with h1 | h1
      · left; omega
      · exact .inr ⟨_, List.mem_cons_self .., (ih _ _).2 h1⟩

/-- **C87, finding.** Sharing makes archives exponentially smaller than what they stand for, and validation (which goes through shared vectors once) accepts them:
for every `n` there is a valid tree with `2 ^ (n + 1) - 1` nodes whose archive has `2 * n` key components, `2 * n + 1` nodes and `n + 1` vectors. Whoever copies such
an archive into trees without sharing, or iterates over it, is busy for `2 ^ n` steps. -/
theorem C87_finding_exponential (n pos : Nat) (b : ABuf Nat Char) (hb : Holds b (emitRoot demoLayoutA (doubling n) (fresh pos)).1.objs)
    (hlen : (emitRoot demoLayoutA (doubling n) (fresh pos)).1.pos ≤ b.len) :
    (∃ c, checkRoot demoLayoutA b (emitRoot demoLayoutA (doubling n) (fresh pos)).2 = some (.ok c)) ∧ (doubling n).erase.nodes + 1 = 2 ^ (n + 1) ∧
    keysIn (emitRoot demoLayoutA (doubling n) (fresh pos)).1.objs = 2 * n ∧ nodesIn (emitRoot demoLayoutA (doubling n) (fresh pos)).1.objs = 2 * n + 1 ∧
    vecsIn (emitRoot demoLayoutA (doubling n) (fresh pos)).1.objs = n + 1 := by
  have ht : InHeap kidsOf (doubling n) := .mk rfl (kidsOf_inHeap n)
  have hv : (doubling n).erase.Valid := by
    have key : ∀ (n : Nat) (p : List Nat) (v : Option Char), (⟨p, v, ATree.eraseL (kidsOf n)⟩ : Tree Nat Char).Valid := by
      intro n
      induction n with
      | zero => intro p v; exact .mk (fun c hc => (by cases hc)) .nil (fun c hc => (by cases hc))
      | succ n ih =>
        intro p v
        rw [kidsOf, ATree.eraseL, ATree.eraseL, ATree.eraseL, ATree.erase, ATree.erase]
        refine .mk (fun c hc => ?_) ?_ (fun c hc => ?_)
        · rcases List.mem_cons.1 hc with rfl | hc
          · exact fun h => by cases h
          · cases List.mem_singleton.1 hc
            exact fun h => by cases h
        · exact .cons (fun c hc => by cases List.mem_singleton.1 hc; rfl) (.cons (fun c hc => (by cases hc)) .nil)
        · rcases List.mem_cons.1 hc with rfl | hc
          · exact ih _ _
          · cases List.mem_singleton.1 hc
            exact ih _ _
    rw [doubling, ATree.erase]
    exact key n _ _
  have hn : (doubling n).erase.nodes + 1 = 2 ^ (n + 1) := by
    rw [doubling, ATree.erase, Tree.nodes]
    have := kidsOf_nodes n
    omega
  obtain ⟨more, xs, h1, h2, h3, h4, h5, h6⟩ := C87_written_once demoLayoutA demoLayoutA_ok kidsOf [] (doubling n) (fun u hu => (by cases hu)) ht pos
  rw [emitRoots, List.nil_append, emitRoots_cons, emitRoots] at h1
  simp only [fresh, List.nil_append] at h1
  have hp : xs.Perm (List.range (n + 1)) := by
    rw [List.perm_ext_iff_of_nodup h2 List.nodup_range]
    intro x
    rw [h3, doubling, hasAddr_doubling, List.mem_range]
    constructor
    · intro h; omega
    · intro h; exact ⟨by omega, fun ⟨u, hu, _⟩ => by cases hu⟩
  have hs : ∀ (f : Nat → Nat), f 0 = 0 → (∀ n, f (n + 1) = 2) → ∀ n, ((List.range (n + 1)).map f).sum = 2 * n := by
    intro f f0 f1 n
    induction n with
    | zero => simp [f0]
    | succ n ih => rw [List.range_succ, List.map_append, List.sum_append, ih]; simp [f1]; omega
  have e1 := hs (fun x => (kidsOf x).length) rfl (fun n => rfl) n
  have e2 := hs (fun x => ((kidsOf x).map (fun c => c.pre.length)).sum) rfl (fun n => rfl) n
  rw [(hp.map _).sum_nat, e2] at h6
  rw [(hp.map _).sum_nat, e1] at h5
  rw [hp.length_eq, List.length_range] at h4
  refine ⟨(C87_written demoLayoutA demoLayoutA_ok kidsOf _ ht hv pos b hb hlen).1, hn, ?_, ?_, ?_⟩
  · simp only [fresh]
    rw [h1, h6]; simp [doubling, ATree.pre]
  · simp only [fresh]
    rw [h1, h5]; omega
  · simp only [fresh]
    rw [h1, h4]

/-! ## Non-vacuity -/

/-- a buffer with what has been written, for evaluation -/
def abufOf (objs : List (Nat × Obj Nat Char)) (len : Nat) : ABuf Nat Char :=
  { len := len,
    key := fun a => match objs.find? (fun y => y.1 == a) with | some (_, .key k) => some k | _ => none,
    node := fun a => match objs.find? (fun y => y.1 == a) with | some (_, .node h) => h | _ => ⟨⟨0, 0⟩, none, 0⟩,
    vec := fun a => match objs.find? (fun y => y.1 == a) with | some (_, .vec p) => p | _ => ⟨0, 0⟩ }

/-- two levels below the root from position 3: accepted, seven nodes from five -/
example : (emitRoot demoLayoutA (doubling 2) (fresh 3)).2 = 104 ∧ (emitRoot demoLayoutA (doubling 2) (fresh 3)).1.pos = 120 ∧
    checkRoot demoLayoutA (abufOf (emitRoot demoLayoutA (doubling 2) (fresh 3)).1.objs 120) 104 = some (.ok ⟨⟨104, 104⟩, [8, 52, 96]⟩) ∧
    (doubling 2).erase.nodes = 7 := by decide +kernel
/-- a buffer as in the hypotheses of the theorems about writing exists for all trees -/
example (t : ATree Nat Char) (pos : Nat) : ∃ b : ABuf Nat Char, Holds b (emitRoot demoLayoutA t (fresh pos)).1.objs ∧
    (emitRoot demoLayoutA t (fresh pos)).1.pos ≤ b.len := by
  obtain ⟨-, -, -, b, h1, h2⟩ := C87_written_apart demoLayoutA demoLayoutA_ok (by decide) [t] pos
  rw [emitRoots_cons, emitRoots] at h1 h2
  exact ⟨b, h2, Nat.le_of_eq h1.symm⟩
/-- a second tree written with the same serializer: only its root and one vector with two children are written -/
example : keysIn (emitRoots demoLayoutA [doubling 1, doubling 2] (fresh 0)).1.objs = 4 ∧ nodesIn (emitRoots demoLayoutA [doubling 1, doubling 2] (fresh 0)).1.objs = 6 ∧
    vecsIn (emitRoots demoLayoutA [doubling 1, doubling 2] (fresh 0)).1.objs = 3 := by decide +kernel
/-- … and validation rejects it -/
example : (match checkRoot demoLayoutA (abufOf (emitRoots demoLayoutA [doubling 1, doubling 2] (fresh 0)).1.objs 132)
    ((emitRoots demoLayoutA [doubling 1, doubling 2] (fresh 0)).2[1]?.getD 0) with | some (.err .children) => true | _ => false) = true := by decide +kernel
/-- deserializing: three allocations for seven nodes, and a memory that contains them -/
example : ∃ t g, load demoLayoutA (abufOf (emitRoot demoLayoutA (doubling 2) (fresh 3)).1.objs 120) 7 104 ⟨[], 0⟩ = some (t, g) ∧ t = doubling 2 ∧
    g.known.map (fun e => (e.1, e.2.1)) = [(96, 2), (52, 1), (8, 0)] ∧ ∀ q x us, (q, x, us) ∈ g.known → kidsOf x = us := by
  refine ⟨doubling 2, ⟨[(96, 2, kidsOf 2), (52, 1, kidsOf 1), (8, 0, kidsOf 0)], 3⟩, by rfl, rfl, rfl, ?_⟩
  intro q x us h
  simp only [List.mem_cons, Prod.mk.injEq, List.not_mem_nil, or_false] at h
  rcases h with ⟨-, rfl, rfl⟩ | ⟨-, rfl, rfl⟩ | ⟨-, rfl, rfl⟩ <;> rfl

end ArcArchive
end Verif
