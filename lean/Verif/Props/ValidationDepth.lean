import Verif.Lemmas.ValidationDepth
import Verif.Props.Archive
import Verif.Props.ArcArchive
/-!
# How deep the validation of an archive is nested: C99

`checkRootTo l b depth a` is validation of the archived tree at position `a` of the buffer `b` in which `check_bytes` is nested at most `depth` times, `some .deep`
its running out of stack; `checkRoot` is validation with as much stack as it wants. `Chain t m` (Spec/RadixDepth): from the root of the tree `t` one can go down along
`m` nodes.
-/
namespace Verif
namespace Archive
open Std Tree
section
variable {K V : Type} [Ord K] [TransOrd K]

/-- **C99.** Whatever is in the buffer, validation is nested at most as many times as nodes would fit between the start of the buffer and the root (counting the
root): with that much stack it ends as with an unlimited one. -/
theorem C99_depth (l : Layout) (hl : 0 < l.nodeSize) (b : Buf K V) (a depth : Nat) (h : a < depth * l.nodeSize) :
    checkRootTo l b depth a = checkRoot l b a ∧ checkRootTo l b depth a ≠ some .deep := by
  rw [checkRootTo, checkRoot]
  split
  · have h1 := checkNode_shallow (b := b) hl depth a ⟨0, a⟩ h
    refine ⟨congrArg some ?_, fun e => h1 (Option.some.inj e)⟩
    rcases Nat.le_total depth (b.len + 1) with h2 | h2
    · exact (checkNode_same h2 h1).symm
    · exact checkNode_same h2 (checkNode_deep hl _ _ _ (by simp only []; omega))
  · exact ⟨rfl, fun h => by cases h⟩

/-- **C99.** If there is a tree at the position (accepted or not), it is enough to be able to go down to its deepest node. -/
theorem C99_depth_of_tree (l : Layout) (hl : 0 < l.nodeSize) (b : Buf K V) (a depth : Nat) (t : Tree K V) (h : Stored l b a t) (hd : ∀ m, Chain t m → m ≤ depth) :
    checkRootTo l b depth a = checkRoot l b a := by
  rw [checkRootTo, checkRoot]
  split
  · have h1 := checkNode_enough depth a ⟨0, a⟩ t h hd
    refine congrArg some ?_
    rcases Nat.le_total depth (b.len + 1) with h2 | h2
    · exact (checkNode_same h2 h1).symm
    · exact checkNode_same h2 (checkNode_deep hl _ _ _ (by simp only []; omega))
  · rfl

/-- **C99.** And for what is accepted that much is needed: with less, validation of a correct archive overflows the stack. -/
theorem C99_depth_needed (l : Layout) (b : Buf K V) (a depth m : Nat) (r : Range) (t : Tree K V) (h : checkRoot l b a = some (.ok r)) (ht : Stored l b a t)
    (hm : Chain t m) (hd : depth < m) : checkRootTo l b depth a = some .deep := by
  rw [checkRoot] at h
  rw [checkRootTo]
  split at h
  rotate_left
  · cases h
  rename_i h0
  rw [if_pos h0]
  have h := Option.some.inj h
  refine congrArg some ?_
  apply Classical.byContradiction
  intro hn
  have he : checkNode l b depth a ⟨0, a⟩ = .ok r := by
    rcases Nat.le_total depth (b.len + 1) with h2 | h2
    · rw [← checkNode_same h2 hn, h]
    · rw [checkNode_same h2 (by rw [h]; exact fun h => by cases h), h]
  have := checkNode_needed depth a _ r t he ht m hm
  omega

omit [Ord K] [TransOrd K] in
/-- **C99.** Deserializing the tree at a position calls itself exactly as deep as the tree is: with less stack it fails. -/
theorem C99_loading_depth (l : Layout) (b : Buf K V) (a depth : Nat) (t : Tree K V) (h : Stored l b a t) :
    ((∀ m, Chain t m → m ≤ depth) → load l b depth a = some t) ∧ (∀ m, Chain t m → depth < m → load l b depth a = none) := by
  refine ⟨fun hd => load_chain t depth a hd h, fun m hm hd => ?_⟩
  cases hl : load l b depth a with
  | none => rfl
  | some u =>
    have h1 := load_more (t.nodes + depth) hl (by omega)
    rw [load_stored t _ _ (by omega) h] at h1
    cases h1
    have := load_needed depth a t hl m hm
    omega

end

/-- `n + 1` nodes below each other, each with a value: the keys `[0]`, `[0, 0]`, … -/
def nested : Nat → Tree Nat Char
  | 0 => ⟨[0], some 'x', []⟩
  | n + 1 => ⟨[0], some 'x', [nested n]⟩

theorem nested_valid (n : Nat) : (nested n).Valid ∧ (nested n).pre = [0] := by
  induction n with
  | zero => exact ⟨.mk (fun c hc => (by cases hc)) .nil (fun c hc => (by cases hc)), rfl⟩
  | succ n ih =>
    refine ⟨.mk (fun c hc => ?_) (.cons (fun c hc => (by cases hc)) .nil) (fun c hc => ?_), rfl⟩
    · rw [List.mem_singleton.1 hc, ih.2]; exact fun h => by cases h
    · rw [List.mem_singleton.1 hc]; exact ih.1

theorem nested_chain (n : Nat) : Chain (nested n) (n + 1) := by
  induction n with
  | zero => exact .root
  | succ n ih => exact .down (List.mem_singleton.2 rfl) ih

theorem nested_emit (n : Nat) : ∀ pos, (emit demoLayout (nested n) pos).2.2 ≤ pos + 25 * n + 4 ∧ (emit demoLayout (nested n) pos).2.2 % 4 = 0 := by
  induction n with
  | zero =>
    intro pos
    simp only [nested, emit, emitKids, demoLayout, alignUp, List.length_cons, List.length_nil]
    omega
  | succ n ih =>
    intro pos
    have h := ih (pos + 1)
    have e : alignUp demoLayout.keyAlign pos = pos := by simp only [demoLayout, alignUp]; omega
    rw [nested, emit, e]
    simp only [emitKids, List.length_cons, List.length_nil, demoLayout, alignUp, Nat.zero_add, Nat.one_mul] at h ⊢
    omega

/-- **C99, finding.** The stack needed grows with the archive: an archive of `25 * n + 31` bytes, written by the crate from a valid tree and accepted by validation, makes
it nest `n + 1` times. (An archive of a few megabytes, received from elsewhere, overflows the stack, which ends the process; this cannot be caught.) -/
theorem C99_finding_overflow (n : Nat) (b : Buf Nat Char) (hb : Holds b (emitRoot demoLayout (nested n) 0).1) (hlen : b.len = (emitRoot demoLayout (nested n) 0).2.2) :
    b.len ≤ 25 * n + 31 ∧ (nested n).Valid ∧ (∃ r, checkRoot demoLayout b (emitRoot demoLayout (nested n) 0).2.1 = some (.ok r)) ∧
    ∀ depth, depth ≤ n → checkRootTo demoLayout b depth (emitRoot demoLayout (nested n) 0).2.1 = some .deep := by
  obtain ⟨h1, ⟨r, h2⟩, -⟩ := C79_written demoLayout ⟨by decide, by decide, by decide, by decide, by decide⟩ (nested n) (nested_valid n).1 0 b hb (Nat.le_of_eq hlen.symm)
  refine ⟨?_, (nested_valid n).1, ⟨r, h2⟩, fun depth hd => C99_depth_needed _ b _ depth (n + 1) r _ h2 h1 (nested_chain n) (by omega)⟩
  have h := nested_emit n 0
  rw [hlen, emitRoot]
  simp only [demoLayout, alignUp] at h ⊢
  omega

/-- the archive of three nodes below each other: 76 bytes; two nested calls are not enough, three are -/
example : (emitRoot demoLayout (nested 2) 0).2 = (52, 76) ∧
    checkRootTo demoLayout (bufOf (emitRoot demoLayout (nested 2) 0).1 76) 2 52 = some .deep ∧
    checkRootTo demoLayout (bufOf (emitRoot demoLayout (nested 2) 0).1 76) 3 52 = some (.ok ⟨52, 52⟩) := by decide +kernel
/-- deserializing it -/
example : load demoLayout (bufOf (emitRoot demoLayout (nested 2) 0).1 76) 2 52 = none ∧
    (load demoLayout (bufOf (emitRoot demoLayout (nested 2) 0).1 76) 3 52).isSome = true := by decide +kernel
/-- a position and a depth as in `C99_depth` -/
example (b : Buf Nat Char) : checkRootTo demoLayout b 3 52 = checkRoot demoLayout b 52 := (C99_depth demoLayout (by decide) b 52 3 (by decide)).1

end Archive

namespace ArcArchive
open Std Archive
section
variable {K V : Type} [Ord K]

/-- **C99.** The same for archives with shared vectors of children (`ArcRadixTree`, `LazyRadixTree`), with cycles or without: each nested call takes the space of a node
and a vector off what is left of the buffer. -/
theorem C99_shared_depth (l : ALayout) (hl : 0 < l.nodeSize) (b : ABuf K V) (a depth : Nat) (h : a < depth * (l.nodeSize + l.vecSize)) :
    checkRootTo l b depth a = checkRoot l b a ∧ checkRootTo l b depth a ≠ some .deep := by
  rw [checkRootTo, checkRoot]
  split
  · have h1 := checkNode_shallow (b := b) (by omega) depth a ⟨⟨0, a⟩, []⟩ h
    refine ⟨congrArg some ?_, fun e => h1 (Option.some.inj e)⟩
    rcases Nat.le_total depth (b.len + 1) with h2 | h2
    · exact (checkNode_same h2 h1).symm
    · exact checkNode_same h2 (checkNode_deep hl _ _ _ (by simp only []; omega))
  · exact ⟨rfl, fun h => by cases h⟩

/-- **C99.** An accepted archive needs at least the stack for going to the first child again and again (a vector met for the first time is checked; only those of the nodes
above have been met). -/
theorem C99_shared_depth_needed (l : ALayout) (b : ABuf K V) (a depth m : Nat) (c : Ctx) (t : Tree K V) (h : checkRoot l b a = some (.ok c)) (ht : Stored l b a t)
    (hm : Tree.FirstChain t m) (hd : depth < m) : checkRootTo l b depth a = some .deep := by
  rw [checkRoot] at h
  rw [checkRootTo]
  split at h
  rotate_left
  · cases h
  rename_i h0
  rw [if_pos h0]
  have h := Option.some.inj h
  refine congrArg some ?_
  apply Classical.byContradiction
  intro hn
  have he : checkNode l b depth a ⟨⟨0, a⟩, []⟩ = .ok c := by
    rcases Nat.le_total depth (b.len + 1) with h2 | h2
    · rw [← checkNode_same h2 hn, h]
    · rw [checkNode_same h2 (by rw [h]; exact fun h => by cases h), h]
  have := checkNode_first depth a _ c t he ht (fun q hq => by cases hq) m hm
  omega

omit [Ord K] in
/-- **C99.** And so does deserializing into a tree that shares vectors of children as the archive does, which needs no more stack than the tree is deep. -/
theorem C99_shared_loading_depth (l : ALayout) (b : ABuf K V) (a depth : Nat) (t : Tree K V) (h : Stored l b a t) (hd : ∀ m, Tree.Chain t m → m ≤ depth) :
    ∃ t' g, load l b depth a ⟨[], 0⟩ = some (t', g) ∧ t'.erase = t := by
  obtain ⟨t', g, k1, -, -, -, -, k4, -⟩ := load_deep t depth a hd h _ .start
  exact ⟨t', g, k1, k4⟩

/-- the buffer with a cycle (Props/ArcArchive): two nested calls are enough -/
example : checkRootTo demoLayoutA cyclic 2 28 = checkRoot demoLayoutA cyclic 28 := (C99_shared_depth demoLayoutA (by decide) cyclic 28 2 (by decide)).1
example : checkRootTo demoLayoutA cyclic 1 28 = some .deep := by decide +kernel

end

/-- the vector at address `x`: one child, with the vector at address `x - 1` -/
def lineKids : Nat → List (ATree Nat Char)
  | 0 => []
  | n + 1 => [⟨[0], some 'x', n, lineKids n⟩]

/-- `n + 1` nodes below each other, without any sharing -/
def line (n : Nat) : ATree Nat Char := ⟨[0], some 'x', n, lineKids n⟩

theorem line_inHeap (n : Nat) : InHeap lineKids (line n) := by
  induction n with
  | zero => exact .mk rfl fun c hc => by cases hc
  | succ n ih =>
    refine .mk rfl fun c hc => ?_
    rw [lineKids, List.mem_singleton] at hc
    rw [hc]; exact ih

theorem line_erase (n : Nat) : (line n).erase = Archive.nested n := by
  induction n with
  | zero => rfl
  | succ n ih => rw [line, lineKids, ATree.erase, ATree.eraseL, ATree.eraseL, Archive.nested, ← ih]; rfl

theorem line_first (n : Nat) : Tree.FirstChain (Archive.nested n) (n + 1) := by
  induction n with
  | zero => exact .root
  | succ n ih => exact .down ih

theorem line_addr {x : Nat} (n : Nat) : HasAddr (line n) x ↔ x ≤ n := by
  induction n with
  | zero =>
    rw [line, hasAddr_mk]
    constructor
    · rintro (h | ⟨c, hc, -⟩)
      · omega
      · cases hc
    · intro h; left; omega
  | succ n ih =>
    rw [line, hasAddr_mk]
    constructor
    · rintro (h | ⟨c, hc, h⟩)
      · omega
      · rw [lineKids, List.mem_singleton] at hc
        rw [hc] at h
        have := ih.1 h
        omega
    · intro h
      rcases Nat.lt_or_ge n x with h1 | h1
      · left; omega
      · exact .inr ⟨_, List.mem_singleton.2 rfl, ih.2 h1⟩

/-- **C99, finding.** Here, too, the stack needed grows with the archive: an archive of `n + 1` key components, nodes and vectors, written by the crate and accepted, makes
validation nest `n + 1` times. -/
theorem C99_shared_finding_overflow (n pos : Nat) (b : ABuf Nat Char) (hb : Holds b (emitRoot demoLayoutA (line n) (fresh pos)).1.objs)
    (hlen : (emitRoot demoLayoutA (line n) (fresh pos)).1.pos ≤ b.len) :
    (∃ c, checkRoot demoLayoutA b (emitRoot demoLayoutA (line n) (fresh pos)).2 = some (.ok c)) ∧
    keysIn (emitRoot demoLayoutA (line n) (fresh pos)).1.objs = n + 1 ∧ nodesIn (emitRoot demoLayoutA (line n) (fresh pos)).1.objs = n + 1 ∧
    vecsIn (emitRoot demoLayoutA (line n) (fresh pos)).1.objs = n + 1 ∧
    ∀ depth, depth ≤ n → checkRootTo demoLayoutA b depth (emitRoot demoLayoutA (line n) (fresh pos)).2 = some .deep := by
  obtain ⟨⟨c, h1⟩, h2, -⟩ := C87_written demoLayoutA demoLayoutA_ok lineKids (line n) (line_inHeap n) (by rw [line_erase]; exact (Archive.nested_valid n).1) pos b hb hlen
  obtain ⟨more, xs, g1, g2, g3, g4, g5, g6⟩ := C87_written_once demoLayoutA demoLayoutA_ok lineKids [] (line n) (fun u hu => (by cases hu)) (line_inHeap n) pos
  rw [emitRoots, List.nil_append, emitRoots_cons, emitRoots] at g1
  simp only [fresh, List.nil_append] at g1
  have hp : xs.Perm (List.range (n + 1)) := by
    rw [List.perm_ext_iff_of_nodup g2 List.nodup_range]
    intro x
    rw [g3, line_addr, List.mem_range]
    constructor
    · intro h; omega
    · intro h; exact ⟨by omega, fun ⟨u, hu, _⟩ => by cases hu⟩
  have hs : ∀ (f : Nat → Nat), f 0 = 0 → (∀ n, f (n + 1) = 1) → ∀ n, ((List.range (n + 1)).map f).sum = n := by
    intro f f0 f1 n
    induction n with
    | zero => simp [f0]
    | succ n ih => rw [List.range_succ, List.map_append, List.sum_append, ih]; simp [f1]
  rw [(hp.map _).sum_nat, hs (fun x => (lineKids x).length) rfl (fun n => rfl) n] at g5
  rw [(hp.map _).sum_nat, hs (fun x => ((lineKids x).map (fun c => c.pre.length)).sum) rfl (fun n => rfl) n] at g6
  rw [hp.length_eq, List.length_range] at g4
  refine ⟨⟨c, h1⟩, ?_, ?_, ?_, fun depth hd => ?_⟩
  · simp only [fresh]
    rw [g1, g6]; simp only [line, ATree.pre, List.length_cons, List.length_nil]; omega
  · simp only [fresh]
    rw [g1, g5]; omega
  · simp only [fresh]
    rw [g1, g4]
  · exact C99_shared_depth_needed _ b _ depth (n + 1) c _ h1 h2 (by rw [line_erase]; exact line_first n) (by omega)

/-- three nodes: two nested calls are not enough, three are -/
example : checkRootTo demoLayoutA (abufOf (emitRoot demoLayoutA (line 2) (fresh 0)).1.objs (emitRoot demoLayoutA (line 2) (fresh 0)).1.pos) 2
      (emitRoot demoLayoutA (line 2) (fresh 0)).2 = some .deep ∧
    (match checkRootTo demoLayoutA (abufOf (emitRoot demoLayoutA (line 2) (fresh 0)).1.objs (emitRoot demoLayoutA (line 2) (fresh 0)).1.pos) 3
      (emitRoot demoLayoutA (line 2) (fresh 0)).2 with | some (.ok _) => true | _ => false) = true := by decide +kernel

end ArcArchive
end Verif
