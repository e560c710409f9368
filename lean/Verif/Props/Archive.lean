import Verif.Lemmas.Archive
import Verif.Props.Radix
/-!
# Archives from anywhere: C79

A buffer (`Buf`) is arbitrary: its pointers may point anywhere, vectors may overlap or contain themselves. `Stored l b a t`: starting at position `a` of the
buffer and following pointers one finds the tree `t`, never leaving the buffer.

The property one wants of validation is that on *every* buffer it ends with acceptance or rejection without reading outside the buffer. For trees this is
false (`C79_hostile_counterexample`), because `check_bytes` looks at the children before their vector has been checked; for sets and maps it holds.
-/
namespace Verif
namespace Archive
open Std
section
variable {K V : Type} [Ord K] [TransOrd K]

/-- **C79.** Validation always ends: the recursion is never deeper than the buffer is long. -/
theorem C79_terminates (l : Layout) (hl : 0 < l.nodeSize) (b : Buf K V) (a : Nat) : checkRoot l b a ≠ some .deep := by
  rw [checkRoot]
  split
  · rename_i h
    intro e
    exact checkNode_deep hl (b.len + 1) a ⟨0, a⟩ (by simp only []; omega) (Option.some.inj e)
  · exact fun h => by cases h

/-- **C79.** What validation accepts is a valid tree inside the buffer. It takes no more memory than the buffer has (so that no part of the buffer is used for
two nodes) and can be deserialized. No condition on the buffer. -/
theorem C79_accepts_only_trees (l : Layout) (hl : 0 < l.nodeSize) (b : Buf K V) (a : Nat) (r : Range) (h : checkRoot l b a = some (.ok r)) :
    ∃ t : Tree K V, Stored l b a t ∧ t.Valid ∧ bytes l t ≤ b.len ∧ load l b b.len a = some t := by
  rw [checkRoot] at h
  split at h
  rotate_left
  · cases h
  rename_i h0
  obtain ⟨t, h1, h2, h3, h4, h5, h6⟩ := checkNode_sound _ _ _ _ (Option.some.inj h)
  have hb : bytes l t ≤ b.len := by
    simp only [] at h3 h4 h5 h6
    rw [show bytes l t = weight l t from rfl]
    omega
  refine ⟨t, h1, h2, hb, load_stored t _ _ ?_ h1⟩
  have : t.nodes * 1 ≤ t.nodes * l.nodeSize := Nat.mul_le_mul_left _ hl
  rw [bytes] at hb
  omega

omit [Ord K] [TransOrd K] in
/-- **C79.** Reading a tree stored in a buffer gives the tree: the accessors that all reading operations use return its prefix, its value and the
positions of its children, without leaving the buffer; there is at most one tree at a position. -/
theorem C79_reading (l : Layout) (b : Buf K V) (a : Nat) (t : Tree K V) (h : Stored l b a t) :
    prefixAt l b a = some t.pre ∧ valueAt b a = some t.val ∧ (∃ cs, childrenAt l b a = some cs ∧ StoredList l b cs t.kids) ∧
    load l b t.nodes a = some t ∧ ∀ t', Stored l b a t' → t' = t := by
  refine ⟨h.prefix.1, ?_, ?_, load_stored t _ _ (Nat.le_refl _) h, fun t' h' => ?_⟩
  · obtain ⟨p, v, ts⟩ := t
    exact h.2.2.2.1
  · obtain ⟨p, v, ts⟩ := t
    obtain ⟨cs, h1, h2⟩ := h.2.2.2.2
    exact ⟨cs, h1.deref, h2⟩
  · have h1 := load_stored t (t.nodes + t'.nodes) a (by omega) h
    have h2 := load_stored t' (t.nodes + t'.nodes) a (by omega) h'
    rw [h1] at h2
    exact (Option.some.inj h2).symm

/-- **C79 (partial).** Validation does not read outside the buffer if the pointers lead nowhere outside it, i.e. if the archive is that of *some* tree, valid
or not. Missing, because it is false: the same for arbitrary buffers. -/
theorem C79_no_undefined_behaviour_partial (l : Layout) (hl : 0 < l.nodeSize) (b : Buf K V) (a : Nat) (t : Tree K V) (h : Stored l b a t) :
    ∃ x, checkRoot l b a = some x ∧ ((∃ r, x = .ok r) ∨ ∃ e, x = .err e) := by
  have h0 : a + l.nodeSize ≤ b.len ∧ a % l.nodeAlign = 0 := by
    obtain ⟨p, v, ts⟩ := t
    exact ⟨h.1, h.2.1⟩
  have h1 := C79_terminates l hl b a
  rw [checkRoot, if_pos h0] at h1 ⊢
  have h2 := checkNode_ub t (b.len + 1) a ⟨0, a⟩ h
  refine ⟨_, rfl, ?_⟩
  cases hx : checkNode l b (b.len + 1) a ⟨0, a⟩ with
  | ok r => exact .inl ⟨r, rfl⟩
  | err e => exact .inr ⟨e, rfl⟩
  | ub => exact absurd hx h2
  | deep => exact absurd (congrArg some hx) h1

/-- **C79.** An archive written by this crate (after whatever else is in the buffer) is accepted, and deserializing it gives the tree that was written. -/
theorem C79_written (l : Layout) (hl : l.Ok) (t : Tree K V) (ht : t.Valid) (pos : Nat) (b : Buf K V) (hb : Holds b (emitRoot l t pos).1)
    (hlen : (emitRoot l t pos).2.2 ≤ b.len) :
    Stored l b (emitRoot l t pos).2.1 t ∧ (∃ r, checkRoot l b (emitRoot l t pos).2.1 = some (.ok r)) ∧ load l b b.len (emitRoot l t pos).2.1 = some t := by
  rw [emitRoot] at *
  simp only [] at *
  have h1 := alignUp_le l.nodeAlign (emit l t pos).2.2
  have h2 := alignUp_mod hl.nodeAlign (emit l t pos).2.2
  generalize ha : alignUp l.nodeAlign (emit l t pos).2.2 = a at *
  obtain ⟨g1, g2⟩ := good hl t (b.len + 1) a pos ⟨0, a⟩ ht hb.left (hb.right (a, .node (emit l t pos).2.1) (by simp)) hlen h2 (Nat.zero_le _) h1 (by omega)
    (by simp only []; omega)
  have hc : checkRoot l b a = some (.ok ⟨(emit l t pos).2.2, a⟩) := by
    rw [checkRoot, if_pos ⟨hlen, h2⟩, g1]
  refine ⟨g2, ⟨_, hc⟩, ?_⟩
  obtain ⟨t', k1, -, -, k2⟩ := C79_accepts_only_trees l hl.node b a _ hc
  rwa [(C79_reading l b a t g2).2.2.2.2 t' k1] at k2

omit [Ord K] [TransOrd K] in
/-- **C79.** What is written is written to different places behind what is in the buffer already, so that a buffer can hold it. -/
theorem C79_written_apart (l : Layout) (hl : l.Ok) (hk : 0 < l.keySize) (t : Tree K V) (pos : Nat) :
    (∀ x ∈ (emitRoot l t pos).1, pos ≤ x.1 ∧ x.1 < (emitRoot l t pos).2.2) ∧ (emitRoot l t pos).1.Pairwise (fun x y => x.1 < y.1) ∧
    ∃ b : Buf K V, b.len = (emitRoot l t pos).2.2 ∧ Holds b (emitRoot l t pos).1 := by
  have h1 := alignUp_le l.nodeAlign (emit l t pos).2.2
  have h2 := emit_le (l := l) t pos
  have hw : Within pos (emitRoot l t pos).2.2 (emitRoot l t pos).1 := by
    rw [emitRoot]
    refine ((within_emit hk hl.node t pos).mono (Nat.le_refl _) h1).append ⟨.cons (fun _ h => by cases h) .nil, fun x hx => ?_⟩ (by omega) (by simp only []; omega)
    rw [List.mem_singleton] at hx
    subst hx
    have := hl.node
    simp only []
    omega
  haveI : Inhabited (Hdr V) := ⟨⟨⟨0, 0⟩, none, ⟨0, 0⟩⟩⟩
  exact ⟨hw.2, hw.1, exists_buf hw.1 _⟩

omit [Ord K] [TransOrd K] in
/-- **C79.** Validation of sets (`cmp` compares elements) and maps (`cmp` compares the keys of entries) never reads outside the buffer, whatever is in it. It
accepts exactly the vectors that are where the validator expects them, hold elements, and are strictly ascending. -/
theorem C79_sets_and_maps (cmp : K → K → Ordering) [TransCmp cmp] (size align : Nat) (b : Buf K V) (r : Range) (p : VecPtr) :
    ((∃ r', checkVec cmp size align b r p = .ok r') ∨ ∃ e, checkVec cmp size align b r p = .err e) ∧
    ((∃ r', checkVec cmp size align b r p = .ok r') ↔
      (r.lo ≤ p.target.toNat ∧ p.target.toNat + p.len * size ≤ r.hi) ∧
      ∃ xs ks, SliceAt b size align p xs ∧ KeysAt b xs ks ∧ ks.Pairwise (fun x y => cmp x y = .lt)) := by
  rcases checkVec_cases cmp size align b r p with ⟨h1, h2⟩ | ⟨xs, ks, h1, h2, h3, h4⟩
  · refine ⟨.inr ⟨_, h1⟩, ⟨fun ⟨_, h⟩ => (by rw [h1] at h; cases h), ?_⟩⟩
    rintro ⟨g1, xs, ks, g2, g3, -⟩
    exact absurd ⟨checkPtr_iff.2 ⟨by rw [g2.slots]; exact g2, g1⟩, xs, ks, g2, g3⟩ h2
  · rw [h4]
    by_cases h5 : (ks.zip (ks.drop 1)).all (fun p => cmp p.1 p.2 == .lt) = true
    · rw [if_pos h5]
      exact ⟨.inl ⟨_, rfl⟩, fun _ => ⟨(checkPtr_iff.1 h1).2, xs, ks, h2, h3, (zip_pairwise ks).1 h5⟩, fun _ => ⟨_, rfl⟩⟩
    · rw [if_neg h5]
      refine ⟨.inr ⟨_, rfl⟩, ⟨fun ⟨_, h⟩ => (by cases h), ?_⟩⟩
      rintro ⟨-, xs', ks', g1, g2, g3⟩
      have e1 : xs' = xs := by rw [← g1.slots, h2.slots]
      have e2 : ks' = ks := by
        have := g2.mapM
        rw [e1, h3.mapM] at this
        exact (Option.some.inj this).symm
      rw [e2] at g3
      exact absurd ((zip_pairwise ks).2 g3) h5

end

/-! ## The counterexample -/

/-- bytes as keys, nodes as on a 32 bit archive -/
def demoLayout : Layout := { keySize := 1, keyAlign := 1, nodeSize := 24, nodeAlign := 4 }

/-- 24 bytes: a node without prefix and value whose vector of children is said to be behind the end of the buffer -/
def hostile : Buf Nat Char :=
  { len := 24, key := fun a => if a < 24 then some a else none, node := fun _ => { pre := ⟨0, 0⟩, val := some none, kids := ⟨1000, 1⟩ } }

/-- **C79.** A buffer of 24 bytes, all of whose positions hold valid key components and valid values, for which validation reads outside the buffer. -/
theorem C79_hostile_counterexample : checkRoot demoLayout hostile 0 = some .ub ∧ ¬∃ t, Stored demoLayout hostile 0 t := by
  have h : checkRoot demoLayout hostile 0 = some .ub := by decide +kernel
  refine ⟨h, fun ⟨t, ht⟩ => ?_⟩
  obtain ⟨x, h1, h2⟩ := C79_no_undefined_behaviour_partial demoLayout (by decide) hostile 0 t ht
  rw [h] at h1
  cases h1
  rcases h2 with ⟨_, h2⟩ | ⟨_, h2⟩ <;> cases h2

/-! ## Non-vacuity -/

/-- a buffer with what has been written, for evaluation -/
def bufOf (objs : List (Nat × Obj Nat Char)) (len : Nat) : Buf Nat Char :=
  { len := len,
    key := fun a => match objs.find? (fun y => y.1 == a) with | some (_, .key k) => some k | _ => none,
    node := fun a => match objs.find? (fun y => y.1 == a) with | some (_, .node h) => h | _ => ⟨⟨0, 0⟩, none, ⟨0, 0⟩⟩ }

example : demoLayout.Ok := ⟨by decide, by decide, by decide, by decide, by decide⟩
/-- four nodes of 24 bytes and four bytes of keys, with padding, from position 7 -/
example : (emitRoot demoLayout Tree.demoA 7).2 = (88, 112) ∧ Tree.demoA.Valid ∧
    checkRoot demoLayout (bufOf (emitRoot demoLayout Tree.demoA 7).1 112) 88 = some (.ok ⟨88, 88⟩) := by
  refine ⟨by decide +kernel, Tree.demoA_canonical.1, by decide +kernel⟩
/-- a tree that is stored but rejected, because its children are in the wrong order -/
example : (match checkRoot demoLayout (bufOf (emitRoot demoLayout (⟨[], none, [⟨[2], some 'a', []⟩, ⟨[1], some 'b', []⟩]⟩ : Tree Nat Char) 0).1 80) 56 with
    | some (.err .order) => true | _ => false) = true := by decide +kernel
/-- a vector of children that contains itself is rejected -/
example : checkRoot demoLayout ({ len := 24, key := fun _ => some 0, node := fun _ => { pre := ⟨0, 1⟩, val := some none, kids := ⟨0, 1⟩ } } : Buf Nat Char) 0 =
    some (.err .prefix) := by decide +kernel
/-- sets: accepted, and rejected because a pointer leads in front of the buffer -/
example : checkVec compare 1 1 ({ len := 4, key := fun a => some (a + 5), node := fun _ => ⟨⟨0, 0⟩, none, ⟨0, 0⟩⟩ } : Buf Nat Unit) ⟨0, 4⟩ ⟨1, 3⟩ = .ok ⟨4, 4⟩ ∧
    checkVec compare 1 1 ({ len := 4, key := fun a => some (a + 5), node := fun _ => ⟨⟨0, 0⟩, none, ⟨0, 0⟩⟩ } : Buf Nat Unit) ⟨0, 4⟩ ⟨-1, 3⟩ = .err .value := by
  decide +kernel

end Archive
end Verif
