import Verif.Lemmas.ThreadsHeap
/-! Zippers: a call that is on its way down (for C74). -/
namespace Verif.Threads
open Verif.Shared
variable {K V : Type _}

theorem nodes_eq (t : Tree K V) : nodes t = 1 + nodes.nodesL t.kids := by cases t; rfl
theorem nodesL_append (a b : List (Tree K V)) : nodes.nodesL (a ++ b) = nodes.nodesL a + nodes.nodesL b := by
  induction a with
  | nil => simp [nodes.nodesL]
  | cons t a ih => simp [nodes.nodesL, ih, Nat.add_assoc]
theorem length_le_nodesL (a : List (Tree K V)) : a.length ≤ nodes.nodesL a := by
  induction a with
  | nil => simp
  | cons t a ih => simp only [List.length_cons, nodes.nodesL, nodes_eq t]; omega
theorem nodes_mem {a : List (Tree K V)} {t : Tree K V} (h : t ∈ a) : nodes t ≤ nodes.nodesL a := by
  induction a with
  | nil => cases h
  | cons u a ih =>
    simp only [nodes.nodesL]
    rcases List.mem_cons.1 h with rfl | h
    · omega
    · have := ih h; omega

/-- a frame, with the trees that the nodes stand for -/
structure GFrame (K V : Type _) where
  pre : List K
  val : Option V
  id : Nat
  left : List (Node K V × Tree K V)
  right : List (Node K V × Tree K V)

def GFrame.frame (g : GFrame K V) : Frame K V := ⟨g.pre, g.val, g.id, g.left.map Prod.fst, g.right.map Prod.fst⟩
def GFrame.held (g : GFrame K V) : List (Node K V × Tree K V) := g.left ++ g.right

/-- the whole tree, when the subtree at the bottom is `t` -/
def plug (t : Tree K V) : List (GFrame K V) → Tree K V
  | [] => t
  | g :: gs => plug ⟨g.pre, g.val, g.left.map Prod.snd ++ t :: g.right.map Prod.snd⟩ gs

def gpath : List (GFrame K V) → List Nat
  | [] => []
  | g :: gs => gpath gs ++ [g.left.length]

theorem treeAt_plug : ∀ (gs : List (GFrame K V)) (rest : List Nat) (t : Tree K V), treeAt (gpath gs ++ rest) (plug t gs) = treeAt rest t
  | [], rest, t => rfl
  | g :: gs, rest, t => by
    simp only [gpath, plug, List.append_assoc, List.singleton_append]
    rw [treeAt_plug gs]
    simp only [treeAt]
    rw [List.getElem?_append_right (by simp)]
    simp

theorem putAt_plug (u : Tree K V) : ∀ (gs : List (GFrame K V)) (rest : List Nat) (t : Tree K V),
    putAt u (gpath gs ++ rest) (plug t gs) = plug (putAt u rest t) gs
  | [], rest, t => rfl
  | g :: gs, rest, t => by
    simp only [gpath, plug, List.append_assoc, List.singleton_append]
    rw [putAt_plug u gs]
    simp only [putAt]
    rw [List.getElem?_append_right (by simp)]
    simp

theorem zip_fst_snd {α β : Type _} : ∀ (cs : List (α × β)), (cs.map Prod.fst).zip (cs.map Prod.snd) = cs
  | [] => rfl
  | c :: cs => by simp [zip_fst_snd cs]

theorem map_snd_zip {α β : Type _} : ∀ {l : List α} {l' : List β}, l.length = l'.length → (l.zip l').map Prod.snd = l'
  | [], [], _ => rfl
  | [], _ :: _, h => by simp at h
  | _ :: _, [], h => by simp at h
  | _ :: l, _ :: l', h => by simp [map_snd_zip (l := l) (l' := l') (by simpa using h)]

theorem Inv.putP {s : St K V} {F ts} {cs : List (Node K V × Tree K V)} {id : Nat} (p v) (hi : Inv s (cs ++ F) ts)
    (hc : s.heap.cell id = none) (hlt : id < s.heap.next) :
    Inv { s with heap := s.heap.set id (some (1, cs.map Prod.fst)) } ((⟨p, v, .arc id⟩, ⟨p, v, cs.map Prod.snd⟩) :: F) ts ∧
      SameVecs s.heap (s.heap.set id (some (1, cs.map Prod.fst))) :=
  Inv.put p v (by rw [zip_fst_snd]; exact hi) (by simp) hc hlt

/-- the vectors on the way go back into the heap -/
theorem close_ok (s : St K V) : ∀ (gs : List (GFrame K V)) (h : Heap K V) (n : Node K V) (t : Tree K V) {R ts},
    Inv { s with heap := h } ((n, t) :: (gs.flatMap GFrame.held ++ R)) ts → (∀ j ∈ gs.map GFrame.id, h.cell j = none ∧ j < h.next) → (gs.map GFrame.id).Nodup →
    Inv { s with heap := (close h n (gs.map GFrame.frame)).1 } (((close h n (gs.map GFrame.frame)).2, plug t gs) :: R) ts ∧
      SameVecs h (close h n (gs.map GFrame.frame)).1 ∧ (close h n (gs.map GFrame.frame)).1.next = h.next ∧
      ∀ j, j ∉ gs.map GFrame.id → (close h n (gs.map GFrame.frame)).1.cell j = h.cell j
  | [], h, n, t, R, ts, hi, hc, hn => ⟨hi, .refl h, rfl, fun _ _ => rfl⟩
  | g :: gs, h, n, t, R, ts, hi, hc, hn => by
    simp only [List.map_cons, List.nodup_cons] at hn
    have h1 := hc g.id (by simp)
    have hi' : Inv { s with heap := h } ((g.left ++ (n, t) :: g.right) ++ (gs.flatMap GFrame.held ++ R)) ts := by
      refine hi.perm ?_
      simp only [List.flatMap_cons, GFrame.held, List.append_assoc, List.cons_append]
      exact List.perm_middle
    obtain ⟨k1, k2⟩ := hi'.putP g.pre g.val h1.1 h1.2
    simp only [List.map_append, List.map_cons] at k1 k2
    have hg : ∀ j, j ≠ g.id → (h.set g.id (some (1, g.left.map Prod.fst ++ n :: g.right.map Prod.fst))).cell j = h.cell j := fun j hj => by
      simp [Heap.set, hj]
    obtain ⟨q1, q2, q3, q4⟩ := close_ok s gs _ _ _ k1 (fun j hj => by
      rw [hg j (by rintro rfl; exact hn.1 hj)]
      exact hc j (by simp only [List.map_cons]; exact List.mem_cons_of_mem _ hj)) hn.2
    refine ⟨q1, k2.trans q2, q3.trans rfl, fun j hj => ?_⟩
    simp only [List.map_cons, List.mem_cons, not_or] at hj
    exact (q4 j hj.2).trans (hg j hj.1)

structure CloseOk (s : St K V) (r : Nat) (ids : List Nat) (ts : Vars K V) (R) (s' : St K V) (ts' : Vars K V) : Prop where
  inv : Inv s' R ts'
  vecs : SameVecs s.heap s'.heap
  next : s'.heap.next = s.heap.next
  cells : ∀ j, j ∉ ids → s'.heap.cell j = s.heap.cell j
  regs : ∃ n, s'.regs = s.regs.set r (some n)

theorem closeIn_ok {s : St K V} {gs : List (GFrame K V)} {n t R ts r} (hi : Inv s ((n, t) :: (gs.flatMap GFrame.held ++ R)) ts)
    (hc : ∀ j ∈ gs.map GFrame.id, s.heap.cell j = none ∧ j < s.heap.next) (hn : (gs.map GFrame.id).Nodup) (hr : s.regs[r]? = some none) :
    CloseOk s r (gs.map GFrame.id) ts R (closeIn s r n (gs.map GFrame.frame)) (ts.set r (some (plug t gs))) := by
  obtain ⟨k1, k2, k3, k4⟩ := close_ok s gs s.heap n t hi hc hn
  exact ⟨k1.putReg hr, k2, k3, k4, _, rfl⟩

theorem closeOwn_ok {s : St K V} {gs : List (GFrame K V)} {p v id} {cs : List (Node K V × Tree K V)} {R ts r} (hi : Inv s (cs ++ (gs.flatMap GFrame.held ++ R)) ts)
    (hc : ∀ j ∈ id :: gs.map GFrame.id, s.heap.cell j = none ∧ j < s.heap.next) (hn : (id :: gs.map GFrame.id).Nodup) (hr : s.regs[r]? = some none) :
    CloseOk s r (id :: gs.map GFrame.id) ts R (closeOwn s r p v id (cs.map Prod.fst) (gs.map GFrame.frame)) (ts.set r (some (plug ⟨p, v, cs.map Prod.snd⟩ gs))) := by
  have h1 := hc id (by simp)
  obtain ⟨k1, k2⟩ := hi.putP p v h1.1 h1.2
  rw [List.nodup_cons] at hn
  have hg : ∀ j, j ≠ id → (s.heap.set id (some (1, cs.map Prod.fst))).cell j = s.heap.cell j := fun j hj => by simp [Heap.set, hj]
  have q := closeIn_ok (r := r) k1 (fun j hj => by
    simp only
    rw [hg j (by rintro rfl; exact hn.1 hj)]
    exact hc j (List.mem_cons_of_mem _ hj)) hn.2 hr
  refine ⟨q.inv, k2.trans q.vecs, q.next.trans rfl, fun j hj => ?_, q.regs⟩
  rw [List.mem_cons, not_or] at hj
  exact (q.cells j hj.2).trans (hg j hj.1)

end Verif.Threads
