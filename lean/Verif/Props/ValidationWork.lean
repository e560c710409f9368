import Verif.Lemmas.ValidationWork
import Verif.Props.Archive
import Verif.Props.ArcArchive
/-!
# How much work the validation of an archive is: C100

`checkRootW` is validation (`checkRoot`) with a count of the work: calls of `check_bytes`, key components checked, and children looked at before they are checked (whether
they have prefixes, whether they are in order).
-/
namespace Verif
namespace Archive
open Std
section
variable {K V : Type} [Ord K]

/-- **C100.** Validating a radix tree in an arbitrary buffer, accepted or not, takes time linear in the length of the buffer. -/
theorem C100_linear (l : Layout) (hn : 0 < l.nodeSize) (hk : 0 < l.keySize) (b : Buf K V) (a : Nat) :
    (checkRootW l b a).1 = checkRoot l b a ∧ (checkRootW l b a).2 ≤ 5 * b.len := by
  rw [checkRootW, checkRoot]
  split
  · rename_i h
    refine ⟨congrArg some (checkNodeW_fst _ _ _), ?_⟩
    have := (checkNodeW_bounded (b := b) hn hk (b.len + 1) a ⟨0, a⟩ (Nat.zero_le _)).2
    simp only [] at this ⊢
    omega
  · exact ⟨rfl, Nat.zero_le _⟩

/-- the archive of the tree `demoA` (Props/Archive), 112 bytes: 4 nodes, 4 key components and 3 children, each looked at twice -/
example : (checkRootW demoLayout (bufOf (emitRoot demoLayout Tree.demoA 7).1 112) 88).2 = 14 := by decide +kernel

end
end Archive

namespace ArcArchive
open Std Archive
section
variable {K V : Type} [Ord K]

/-- **C100.** In an archive with shared vectors of children the number of nodes and key components checked is linear in the length of the buffer, cycles or not. The number
of children looked at is at most quadratic. -/
theorem C100_shared (l : ALayout) (hn : 0 < l.nodeSize) (hk : 0 < l.keySize) (b : ABuf K V) (a : Nat) :
    (checkRootW l b a).1 = checkRoot l b a ∧ (checkRootW l b a).2.checks ≤ b.len ∧ (checkRootW l b a).2.looks ≤ 2 * b.len * b.len := by
  rw [checkRootW, checkRoot]
  split
  · rename_i h
    obtain ⟨-, h1, h2⟩ := checkNodeW_bounded (b := b) hn hk (b.len + 1) a ⟨⟨0, a⟩, []⟩ (Nat.zero_le _)
    simp only [] at h1 h2 ⊢
    have h3 : (checkNodeW l b (b.len + 1) a ⟨⟨0, a⟩, []⟩).2.checks ≤ b.len := by omega
    exact ⟨congrArg some (checkNodeW_fst _ _ _), h3, Nat.le_trans h2 (Nat.mul_le_mul_left _ h3)⟩
  · exact ⟨rfl, Nat.zero_le _, Nat.zero_le _⟩

/-- **C100.** A vector of children is checked once, but looked at for every node that has it: at least the root's children, and the children of each of them, are looked at
twice. -/
theorem C100_shared_looks (l : ALayout) (b : ABuf K V) (a : Nat) (c : Ctx) (t : Tree K V) (h : checkRoot l b a = some (.ok c)) (ht : Stored l b a t) :
    2 * t.kids.length + (t.kids.map (fun k => 2 * k.kids.length)).sum ≤ (checkRootW l b a).2.looks := by
  rw [checkRoot] at h
  rw [checkRootW]
  split at h
  rotate_left
  · cases h
  rename_i h0
  rw [if_pos h0]
  obtain ⟨p, v, ts⟩ := t
  obtain ⟨q, cs, h1, h2⟩ := ht
  replace h2 := storedL_iff.1 h2
  have hk := checkNodeW_least_two b.len a ⟨0, a⟩ c cs h1.children (by rw [checkNodeW_fst]; exact Option.some.inj h)
  have e1 := h2.length
  have e2 : cs.map (fun x => 2 * kidsAt l b x) = ts.map (fun k => 2 * k.kids.length) := by
    clear hk e1 h1
    induction h2 with
    | nil => rfl
    | @cons x k xs ks hx _ ih =>
      obtain ⟨p, v, us⟩ := k
      obtain ⟨q, ds, g1, g2⟩ := hx
      have g3 := (storedL_iff.1 g2).length
      have g4 : derefArc l b (b.node x).kids = some ds := g1.children
      rw [List.map_cons, List.map_cons, ih, kidsAt, g4]
      simp only [Tree.kids, g3]
  rw [e2, e1] at hk
  exact hk

omit [Ord K] in
/-- **C100.** Deserializing an archive with shared vectors deserializes the elements of each vector once, however many nodes have it (`g` is the registry afterwards: position,
address and elements of each vector met). -/
theorem C100_loading (l : ALayout) (b : ABuf K V) (a fuel : Nat) (t : Tree K V) (h : Stored l b a t) (hf : t.nodes ≤ fuel) :
    ∃ t' g n, load l b fuel a ⟨[], 0⟩ = some (t', g) ∧ loadW l b fuel a ⟨[], 0⟩ = some (t', g, n) ∧ t'.erase = t ∧
      n = 1 + (g.known.map (fun e => e.2.2.length)).sum ∧ (g.known.map (fun e => e.1)).Nodup ∧
      ∀ e ∈ g.known, ∃ cs, VecAt l b e.1 cs ∧ cs.length = e.2.2.length := by
  obtain ⟨t', g, k1, k2, -, -, -, k4, -⟩ := load_ok t fuel a hf h _ .start
  obtain ⟨n, j1, j2⟩ := loadW_counts fuel a _ _ _ k1
  refine ⟨t', g, n, k1, j1, k4, by simpa [Reg.total] using j2, ?_, fun e he => ?_⟩
  · rw [List.nodup_iff_pairwise_ne, List.pairwise_map]
    exact k2.apart.imp fun h => h.1.symm
  · obtain ⟨q, x, us⟩ := e
    obtain ⟨cs, i1, i2⟩ := k2.vec _ _ _ he
    exact ⟨cs, i1, (locatedL_iff.1 i2).length⟩

end

/-- the vector at address `x`: nothing, `m` leaves, and `m` nodes each of which has these leaves as children -/
def fanKids (m : Nat) : Nat → List (ATree Nat Char)
  | 0 => []
  | 1 => (List.range m).map (fun i => ⟨[i], some 'a', 0, []⟩)
  | _ => (List.range m).map (fun i => ⟨[i], some 'b', 1, (List.range m).map (fun i => ⟨[i], some 'a', 0, []⟩)⟩)

/-- a root with `m` children that share their `m` children -/
def fan (m : Nat) : ATree Nat Char := ⟨[], none, 2, fanKids m 2⟩

theorem fan_inHeap (m : Nat) : InHeap (fanKids m) (fan m) := by
  refine .mk rfl fun c hc => ?_
  obtain ⟨i, -, rfl⟩ := List.mem_map.1 hc
  refine .mk rfl fun c hc => ?_
  obtain ⟨i, -, rfl⟩ := List.mem_map.1 hc
  exact .mk rfl fun c hc => by cases hc

theorem eraseL_map {ts : List (ATree Nat Char)} : ATree.eraseL ts = ts.map ATree.erase := by
  induction ts with
  | nil => rfl
  | cons t ts ih => rw [ATree.eraseL, ih, List.map_cons]

theorem sum_same {α : Type} (xs : List α) (k : Nat) : (xs.map (fun _ => k)).sum = xs.length * k := by
  induction xs with
  | nil => simp
  | cons x xs ih => rw [List.map_cons, List.sum_cons, ih, List.length_cons, Nat.succ_mul, Nat.add_comm]

theorem heads_valid (m : Nat) (f : Nat → Tree Nat Char) (hf : ∀ i, (f i).Valid ∧ (f i).pre = [i]) (p : List Nat) (v : Option Char) :
    (⟨p, v, (List.range m).map f⟩ : Tree Nat Char).Valid := by
  refine .mk (fun c hc => ?_) ?_ (fun c hc => ?_)
  · obtain ⟨i, -, rfl⟩ := List.mem_map.1 hc
    rw [(hf i).2]
    exact fun h => by cases h
  · refine List.Pairwise.map _ (fun i j (h : i < j) => ?_) List.pairwise_lt_range
    show compare (f i).pre.head? (f j).pre.head? = .lt
    rw [(hf i).2, (hf j).2]
    exact Nat.compare_eq_lt.2 h
  · obtain ⟨i, -, rfl⟩ := List.mem_map.1 hc
    exact (hf i).1

theorem fan_valid (m : Nat) : (fan m).erase.Valid := by
  rw [fan, ATree.erase, eraseL_map, fanKids, List.map_map]
  · refine heads_valid m _ (fun i => ⟨?_, rfl⟩) _ _
    show (ATree.erase ⟨[i], some 'b', 1, (List.range m).map (fun i => ⟨[i], some 'a', 0, []⟩)⟩).Valid
    rw [ATree.erase, eraseL_map, List.map_map]
    exact heads_valid m _ (fun j => ⟨.mk (fun c hc => (by cases hc)) .nil (fun c hc => (by cases hc)), rfl⟩) _ _
  · exact fun h => by cases h
  · exact fun h => by cases h

/-- **C100, finding.** The work can be quadratic in the size of the archive: the archive of a valid tree with `2 * m` key components, `2 * m + 1` nodes and 3 vectors, which
is accepted, makes validation look at `2 * m * m` children. -/
theorem C100_finding_quadratic (m pos : Nat) (hm : 0 < m) (b : ABuf Nat Char) (hb : Holds b (emitRoot demoLayoutA (fan m) (fresh pos)).1.objs)
    (hlen : (emitRoot demoLayoutA (fan m) (fresh pos)).1.pos ≤ b.len) :
    (∃ c, checkRoot demoLayoutA b (emitRoot demoLayoutA (fan m) (fresh pos)).2 = some (.ok c)) ∧
    keysIn (emitRoot demoLayoutA (fan m) (fresh pos)).1.objs = 2 * m ∧ nodesIn (emitRoot demoLayoutA (fan m) (fresh pos)).1.objs = 2 * m + 1 ∧
    vecsIn (emitRoot demoLayoutA (fan m) (fresh pos)).1.objs = 3 ∧
    2 * m * m ≤ (checkRootW demoLayoutA b (emitRoot demoLayoutA (fan m) (fresh pos)).2).2.looks := by
  obtain ⟨⟨c, h1⟩, h2, -⟩ := C87_written demoLayoutA demoLayoutA_ok (fanKids m) (fan m) (fan_inHeap m) (fan_valid m) pos b hb hlen
  obtain ⟨more, xs, g1, g2, g3, g4, g5, g6⟩ := C87_written_once demoLayoutA demoLayoutA_ok (fanKids m) [] (fan m) (fun u hu => (by cases hu)) (fan_inHeap m) pos
  rw [emitRoots, List.nil_append, emitRoots_cons, emitRoots] at g1
  simp only [fresh, List.nil_append] at g1
  have hp : xs.Perm [0, 1, 2] := by
    rw [List.perm_ext_iff_of_nodup g2 (by decide)]
    intro x
    rw [g3]
    have hx : HasAddr (fan m) x ↔ x ∈ [0, 1, 2] := by
      rw [fan, hasAddr_mk]
      simp only [fanKids, List.mem_map, List.mem_range, List.mem_cons, List.not_mem_nil, or_false]
      constructor
      · rintro (rfl | ⟨c, ⟨i, hi, rfl⟩, hc⟩)
        · exact .inr (.inr rfl)
        · rw [hasAddr_mk] at hc
          rcases hc with rfl | ⟨c, hc, h⟩
          · exact .inr (.inl rfl)
          · obtain ⟨j, -, rfl⟩ := List.mem_map.1 hc
            rw [hasAddr_mk] at h
            rcases h with rfl | ⟨c, hc, -⟩
            · exact .inl rfl
            · cases hc
      · rintro (rfl | rfl | rfl)
        · exact .inr ⟨_, ⟨0, hm, rfl⟩, .there (List.mem_map.2 ⟨0, List.mem_range.2 hm, rfl⟩) .here⟩
        · exact .inr ⟨_, ⟨0, hm, rfl⟩, .here⟩
        · exact .inl rfl
    rw [hx]
    exact ⟨fun h => h.1, fun h => ⟨h, fun ⟨u, hu, _⟩ => by cases hu⟩⟩
  have hs : ∀ (f : Nat → ATree Nat Char), (∀ i, (f i).pre.length = 1) → (((List.range m).map f).map (fun c => c.pre.length)).sum = m := by
    intro f hf
    rw [List.map_map, show ((fun c : ATree Nat Char => c.pre.length) ∘ f) = fun _ => 1 from funext hf, sum_same, List.length_range, Nat.mul_one]
  rw [(hp.map _).sum_nat] at g5 g6
  rw [hp.length_eq] at g4
  simp only [List.map_cons, List.map_nil, List.sum_cons, List.sum_nil, fanKids, List.length_nil, List.length_map, List.length_range] at g5 g6
  rw [hs _ (fun i => rfl), hs _ (fun i => rfl)] at g6
  refine ⟨⟨c, h1⟩, ?_, ?_, ?_, ?_⟩
  · simp only [fresh]
    rw [g1, g6]; simp only [fan, ATree.pre, List.length_nil]; omega
  · simp only [fresh]
    rw [g1, g5]; omega
  · simp only [fresh]
    rw [g1, g4]; rfl
  · refine Nat.le_trans ?_ (C100_shared_looks _ b _ c _ h1 h2)
    rw [fan, ATree.erase, eraseL_map, fanKids, List.map_map]
    · simp only [Tree.kids, List.map_map]
      refine Nat.le_trans ?_ (Nat.le_add_left ..)
      rw [show ((fun k : Tree Nat Char => 2 * k.kids.length) ∘ ATree.erase ∘ fun i => (⟨[i], some 'b', 1, (List.range m).map (fun i => ⟨[i], some 'a', 0, []⟩)⟩ : ATree Nat Char)) =
        fun _ => 2 * m from funext fun i => by
          show 2 * (ATree.erase ⟨[i], some 'b', 1, (List.range m).map (fun i => ⟨[i], some 'a', 0, []⟩)⟩ : Tree Nat Char).kids.length = 2 * m
          rw [ATree.erase, eraseL_map, List.map_map]
          simp [Tree.kids], sum_same, List.length_range]
      exact Nat.le_of_eq (by rw [Nat.mul_comm (2 * m) m])
    · exact fun h => by cases h
    · exact fun h => by cases h

/-- three children sharing their three children: 7 nodes and 6 key components are checked, 12 children looked at twice -/
example : (emitRoot demoLayoutA (fan 3) (fresh 0)).2 = 132 ∧ (emitRoot demoLayoutA (fan 3) (fresh 0)).1.pos = 148 ∧
    (checkRootW demoLayoutA (abufOf (emitRoot demoLayoutA (fan 3) (fresh 0)).1.objs 148) 132).2 = ⟨13, 24⟩ := by decide +kernel

/-- deserializing it: 7 calls for a tree of 13 nodes -/
example : ((loadW demoLayoutA (abufOf (emitRoot demoLayoutA (fan 3) (fresh 0)).1.objs 148) 13 132 ⟨[], 0⟩).map (fun r => r.2.2)) = some 7 ∧
    (fan 3).erase.nodes = 13 := by decide +kernel

end ArcArchive
end Verif
