import Verif.Spec.HeapView
namespace Verif.Shared
variable {K V : Type _}

theorem sumTo_congr {n : Nat} {f g : Nat → Nat} (h : ∀ i, i < n → f i = g i) : sumTo n f = sumTo n g := by
  induction n with
  | zero => rfl
  | succ n ih => simp only [sumTo]; rw [ih (fun i hi => h i (by omega)), h n (by omega)]

theorem sumTo_upd {n j : Nat} (f : Nat → Nat) (x : Nat) (hj : j < n) :
    sumTo n (fun i => if i = j then x else f i) + f j = sumTo n f + x := by
  induction n with
  | zero => omega
  | succ n ih =>
    simp only [sumTo]
    by_cases h : j = n
    · subst h
      rw [sumTo_congr (g := f) (fun i hi => if_neg (by omega))]
      simp; omega
    · have := ih (by omega)
      rw [if_neg (fun e => h e.symm)]; omega

theorem le_sumTo {n j : Nat} (f : Nat → Nat) (hj : j < n) : f j ≤ sumTo n f := by
  have := sumTo_upd f 0 hj; omega

theorem refs_append (id : Nat) (a b : List (Node K V)) : refs id (a ++ b) = refs id a + refs id b := by simp [refs]
theorem refs_cons (id : Nat) (n : Node K V) (b : List (Node K V)) : refs id (n :: b) = refs id [n] + refs id b := by
  rw [← refs_append]; rfl
@[simp] theorem refs_nil (id : Nat) : refs id ([] : List (Node K V)) = 0 := rfl
theorem refs_perm {a b : List (Node K V)} (h : a.Perm b) (id : Nat) : refs id a = refs id b := h.countP_eq _
theorem refs_arc (id j : Nat) (p : List K) (v : Option V) : refs id [⟨p, v, .arc j⟩] = if j = id then 1 else 0 := by
  simp [refs, Node.isArc, List.countP_cons]
theorem refs_raw (id : Nat) (p : List K) (v : Option V) (ts) : refs id [(⟨p, v, .raw ts⟩ : Node K V)] = 0 := by
  simp [refs, Node.isArc, List.countP_cons]
theorem refs_rawNodes (id : Nat) (ts : List (Tree K V)) : refs id (ts.map rawNode) = 0 := by
  simp [refs, List.countP_eq_zero, rawNode, Node.isArc]
theorem refs_zero {id : Nat} {ns : List (Node K V)} (h : refs id ns = 0) {n : Node K V} (hn : n ∈ ns) : n.isArc id = false := by
  have := List.countP_eq_zero.1 h n hn; simpa using this

theorem WF.congr {h : Heap K V} {a b : List (Node K V)} (hw : WF h a) (hr : ∀ id, refs id b = refs id a) : WF h b :=
  ⟨hw.bound, hw.pos, fun id => by rw [hr]; exact hw.exact id, hw.full⟩
theorem WF.perm {h : Heap K V} {a b : List (Node K V)} (hw : WF h a) (hp : b.Perm a) : WF h b := hw.congr (fun id => refs_perm hp id)

theorem WF.lt {h : Heap K V} {R} (hw : WF h R) {id c} (hc : h.cell id = some c) : id < h.next := by
  rcases Nat.lt_or_ge id h.next with h1 | h1
  · exact h1
  · rw [hw.bound id h1] at hc; cases hc

/-- nothing refers to an address that is not allocated -/
theorem none_refs_of {h : Heap K V} {R : List (Node K V)} {id : Nat} (hb : ∀ i, h.next ≤ i → h.cell i = none)
    (hx : ∀ id, h.rc id = refs id R + h.total id) (hc : h.cell id = none) :
    (∀ n ∈ R, n.isArc id = false) ∧ ∀ j r ns, h.cell j = some (r, ns) → ∀ n ∈ ns, n.isArc id = false := by
  have h0 := hx id
  have : h.rc id = 0 := by simp [Heap.rc, hc]
  refine ⟨fun n hn => refs_zero (by omega) hn, fun j r ns hj n hn => ?_⟩
  have hlt : j < h.next := by
    rcases Nat.lt_or_ge j h.next with h1 | h1
    · exact h1
    · rw [hb j h1] at hj; cases hj
  have := le_sumTo (fun i => refs id (h.vec i)) hlt
  have h2 : h.vec j = ns := by simp [Heap.vec, hj]
  simp only [h2] at this
  refine refs_zero (ns := ns) ?_ hn
  simp only [Heap.total] at h0; omega

theorem WF.none_refs {h : Heap K V} {R} (hw : WF h R) {id} (hc : h.cell id = none) :
    (∀ n ∈ R, n.isArc id = false) ∧ ∀ j r ns, h.cell j = some (r, ns) → ∀ n ∈ ns, n.isArc id = false :=
  none_refs_of hw.bound hw.exact hc

theorem total_set (h : Heap K V) {id : Nat} (c) (hlt : id < h.next) (k : Nat) :
    (h.set id c).total k + refs k (h.vec id) = h.total k + refs k (match c with | none => [] | some (_, ns) => ns) := by
  have : (h.set id c).total k = sumTo h.next (fun i => if i = id then refs k (match c with | none => [] | some (_, ns) => ns) else refs k (h.vec i)) := by
    simp only [Heap.total, Heap.set]
    refine sumTo_congr fun i _ => ?_
    simp only [Heap.vec]
    by_cases e : i = id
    · simp only [if_pos e] <;> cases c <;> rfl
    · simp only [if_neg e]
  rw [this]
  exact sumTo_upd (fun i => refs k (h.vec i)) _ hlt

theorem rc_set (h : Heap K V) (id c k) :
    (h.set id c).rc k = if k = id then (match c with | none => 0 | some (r, _) => r) else h.rc k := by
  simp only [Heap.rc, Heap.set]
  by_cases e : k = id
  · simp only [if_pos e] <;> cases c <;> rfl
  · simp only [if_neg e]

theorem total_alloc {h : Heap K V} {R} (hw : WF h R) (ns : List (Node K V)) (k : Nat) :
    (h.alloc ns).total k = h.total k + refs k ns := by
  simp only [Heap.total, Heap.alloc, sumTo]
  congr 1
  · refine sumTo_congr fun i hi => ?_
    simp only [Heap.vec]
    rw [if_neg (by omega)]
  · simp [Heap.vec]

/-! ## Den -/
/-- the vectors of `h` are still there, unchanged, in `h'` -/
def SameVecs (h h' : Heap K V) : Prop := ∀ id r ns, h.cell id = some (r, ns) → ∃ r', h'.cell id = some (r', ns)

mutual
theorem Den.mono {h h' : Heap K V} (hs : SameVecs h h') : ∀ {n t}, Den h n t → Den h' n t
  | _, _, .raw p v ts => .raw p v ts
  | _, _, .arc p v hc hd => by
    obtain ⟨r', hc'⟩ := hs _ _ _ hc
    exact .arc p v hc' (Dens.mono hs hd)
theorem Dens.mono {h h' : Heap K V} (hs : SameVecs h h') : ∀ {ns ts}, Dens h ns ts → Dens h' ns ts
  | _, _, .nil => .nil
  | _, _, .cons h1 h2 => .cons (Den.mono hs h1) (Dens.mono hs h2)
end

mutual
theorem Den.erase {h : Heap K V} {id : Nat}
    (hn : ∀ j r ns, (h.set id none).cell j = some (r, ns) → ∀ n ∈ ns, n.isArc id = false) :
    ∀ {n t}, Den h n t → n.isArc id = false → Den (h.set id none) n t
  | _, _, .raw p v ts, _ => .raw p v ts
  | _, _, .arc (id := j) (r := r) (ns := ns) p v hc hd, ha => by
    have hj : j ≠ id := by simpa [Node.isArc] using ha
    have hc' : (h.set id none).cell j = some (r, ns) := by simp only [Heap.set]; rw [if_neg hj]; exact hc
    exact .arc p v hc' (Dens.erase hn hd (hn _ _ _ hc'))
theorem Dens.erase {h : Heap K V} {id : Nat}
    (hn : ∀ j r ns, (h.set id none).cell j = some (r, ns) → ∀ n ∈ ns, n.isArc id = false) :
    ∀ {ns ts}, Dens h ns ts → (∀ n ∈ ns, n.isArc id = false) → Dens (h.set id none) ns ts
  | _, _, .nil, _ => .nil
  | _, _, .cons h1 h2, ha => .cons (Den.erase hn h1 (ha _ (List.mem_cons_self ..))) (Dens.erase hn h2 fun n hm => ha n (List.mem_cons_of_mem _ hm))
end

theorem den_rawNode (h : Heap K V) (t : Tree K V) : Den h (rawNode t) t := by cases t; exact .raw ..
theorem dens_rawNodes (h : Heap K V) : ∀ ts : List (Tree K V), Dens h (ts.map rawNode) ts
  | [] => .nil
  | t :: ts => .cons (den_rawNode h t) (dens_rawNodes h ts)

theorem Den.pre {h : Heap K V} {n t} (hd : Den h n t) : n.pre = t.pre := by cases hd <;> rfl
theorem Den.val {h : Heap K V} {n t} (hd : Den h n t) : n.val = t.val := by cases hd <;> rfl

theorem Dens.length {h : Heap K V} : ∀ {ns ts}, Dens h ns ts → ns.length = ts.length
  | _, _, .nil => rfl
  | _, _, .cons _ h2 => by simp [h2.length]

theorem Dens.append {h : Heap K V} : ∀ {ns ts ns' ts'}, Dens h ns ts → Dens h ns' ts' → Dens h (ns ++ ns') (ts ++ ts')
  | _, _, _, _, .nil, h2 => h2
  | _, _, _, _, .cons h1 h2, h3 => .cons h1 (h2.append h3)

theorem Dens.take {h : Heap K V} : ∀ {ns ts} (i : Nat), Dens h ns ts → Dens h (ns.take i) (ts.take i)
  | _, _, 0, _ => by simpa using .nil
  | _, _, _ + 1, .nil => .nil
  | _, _, i + 1, .cons h1 h2 => .cons h1 (h2.take i)

theorem Dens.drop {h : Heap K V} : ∀ {ns ts} (i : Nat), Dens h ns ts → Dens h (ns.drop i) (ts.drop i)
  | _, _, 0, hd => hd
  | _, _, _ + 1, .nil => .nil
  | _, _, i + 1, .cons _ h2 => h2.drop i

theorem Dens.get {h : Heap K V} : ∀ {ns ts} (i : Nat), Dens h ns ts →
    (ns[i]? = none ∧ ts[i]? = none) ∨ ∃ n t, ns[i]? = some n ∧ ts[i]? = some t ∧ Den h n t
  | _, _, _, .nil => .inl ⟨rfl, rfl⟩
  | _, _, 0, .cons h1 _ => .inr ⟨_, _, rfl, rfl, h1⟩
  | _, _, i + 1, .cons _ h2 => by simpa using h2.get i

theorem Dens.set {h : Heap K V} {n t} (hd : Den h n t) : ∀ {ns ts} (i : Nat), Dens h ns ts → Dens h (ns.set i n) (ts.set i t)
  | _, _, _, .nil => .nil
  | _, _, 0, .cons _ h2 => .cons hd h2
  | _, _, i + 1, .cons h1 h2 => .cons h1 (Dens.set hd i h2)

theorem Dens.all {h : Heap K V} {P : Node K V → Prop} : ∀ {ns ts}, Dens h ns ts → (∀ n ∈ ns, ∀ t, Den h n t → P n) → ∀ n ∈ ns, P n
  | _, _, .nil, _ => by simp
  | _, _, .cons h1 h2, hp => by
    intro n hn
    rcases List.mem_cons.1 hn with e | e
    · subst e; exact hp _ (List.mem_cons_self ..) _ h1
    · exact h2.all (fun n hn t => hp n (List.mem_cons_of_mem _ hn) t) n e

theorem Dens.map_heap {h h' : Heap K V} : ∀ {ns ts}, Dens h ns ts → (∀ n ∈ ns, ∀ t, Den h n t → Den h' n t) → Dens h' ns ts
  | _, _, .nil, _ => .nil
  | _, _, .cons h1 h2, hp => .cons (hp _ (List.mem_cons_self ..) _ h1) (h2.map_heap fun n hn t => hp n (List.mem_cons_of_mem _ hn) t)

/-! ## Framing -/
/-- going from `h` to `h'` does not affect the nodes in `R`, nor addresses that are checked out -/
structure Ext (h h' : Heap K V) (R : List (Node K V)) : Prop where
  den : ∀ m ∈ R, ∀ u, Den h m u → Den h' m u
  res : ∀ j, j < h.next → h.cell j = none → h'.cell j = none
  next : h.next ≤ h'.next

theorem Ext.refl (h : Heap K V) (R) : Ext h h R := ⟨fun _ _ _ h => h, fun _ _ h => h, Nat.le_refl _⟩
theorem Ext.trans {h h' h'' : Heap K V} {R R'} (h1 : Ext h h' R) (h2 : Ext h' h'' R') (hs : ∀ m ∈ R, m ∈ R') : Ext h h'' R :=
  ⟨fun m hm u hd => h2.den m (hs m hm) u (h1.den m hm u hd), fun j hj hc => h2.res j (Nat.lt_of_lt_of_le hj h1.next) (h1.res j hj hc),
   Nat.le_trans h1.next h2.next⟩
theorem Ext.sub {h h' : Heap K V} {R R'} (h1 : Ext h h' R) (hs : ∀ m ∈ R', m ∈ R) : Ext h h' R' :=
  ⟨fun m hm => h1.den m (hs m hm), h1.res, h1.next⟩

theorem sameVecs_inc (h : Heap K V) (id : Nat) : SameVecs h (h.inc id) := by
  intro j r ns hj
  simp only [Heap.inc]
  cases hc : h.cell id with
  | none => exact ⟨r, hj⟩
  | some c =>
    simp only [Heap.set]
    by_cases e : j = id
    · subst e; rw [hj] at hc; cases hc; exact ⟨_, if_pos rfl⟩
    · exact ⟨r, by rw [if_neg e]; exact hj⟩

theorem sameVecs_dec (h : Heap K V) (id : Nat) : SameVecs h (h.dec id) := by
  intro j r ns hj
  simp only [Heap.dec]
  cases hc : h.cell id with
  | none => exact ⟨r, hj⟩
  | some c =>
    simp only [Heap.set]
    by_cases e : j = id
    · subst e; rw [hj] at hc; cases hc; exact ⟨_, if_pos rfl⟩
    · exact ⟨r, by rw [if_neg e]; exact hj⟩

theorem inc_none {h : Heap K V} {id j : Nat} (hj : h.cell j = none) : (h.inc id).cell j = none := by
  simp only [Heap.inc]
  cases hc : h.cell id with
  | none => exact hj
  | some c =>
    simp only [Heap.set]
    rw [if_neg (by rintro rfl; rw [hj] at hc; cases hc)]; exact hj
theorem dec_none {h : Heap K V} {id j : Nat} (hj : h.cell j = none) : (h.dec id).cell j = none := by
  simp only [Heap.dec]
  cases hc : h.cell id with
  | none => exact hj
  | some c =>
    simp only [Heap.set]
    rw [if_neg (by rintro rfl; rw [hj] at hc; cases hc)]; exact hj
@[simp] theorem inc_next (h : Heap K V) (id : Nat) : (h.inc id).next = h.next := by
  simp only [Heap.inc]; cases h.cell id <;> rfl
@[simp] theorem dec_next (h : Heap K V) (id : Nat) : (h.dec id).next = h.next := by
  simp only [Heap.dec]; cases h.cell id <;> rfl
@[simp] theorem cloned_next (h : Heap K V) (n : Node K V) : (h.cloned n).next = h.next := by
  simp only [Heap.cloned]; cases n.kids <;> simp

theorem SameVecs.refl (h : Heap K V) : SameVecs h h := fun _ r _ hc => ⟨r, hc⟩
theorem SameVecs.trans {h h' h'' : Heap K V} (h1 : SameVecs h h') (h2 : SameVecs h' h'') : SameVecs h h'' := fun id r ns hc => by
  obtain ⟨r', h3⟩ := h1 id r ns hc; exact h2 id r' ns h3
theorem sameVecs_cloned (h : Heap K V) (n : Node K V) : SameVecs h (h.cloned n) := by
  simp only [Heap.cloned]; cases n.kids
  · exact .refl h
  · exact sameVecs_inc h _

/-- a heap with the same vectors as a readable heap is readable -/
theorem full_of {h h' : Heap K V} (hf : ∀ i r ns, h.cell i = some (r, ns) → ∃ ts, Dens h ns ts) (hs : SameVecs h h') (hb : SameVecs h' h) :
    ∀ i r ns, h'.cell i = some (r, ns) → ∃ ts, Dens h' ns ts := by
  intro i r ns hi
  obtain ⟨r', h1⟩ := hb _ _ _ hi
  obtain ⟨ts, h2⟩ := hf _ _ _ h1
  exact ⟨ts, h2.mono hs⟩

theorem sameVecs_set {h : Heap K V} {id r r'} {ns : List (Node K V)} (hc : h.cell id = some (r, ns)) : SameVecs (h.set id (some (r', ns))) h := by
  intro j q ms hj
  simp only [Heap.set] at hj
  split at hj
  · rename_i e; subst e; cases hj; exact ⟨r, hc⟩
  · exact ⟨q, hj⟩

/-- the `Arc` of the node is allocated -/
def Heap.hasArc (h : Heap K V) (n : Node K V) : Prop := ∀ id, n.kids = .arc id → ∃ c, h.cell id = some c

theorem Den.hasArc {h : Heap K V} {n t} (hd : Den h n t) : h.hasArc n := by
  intro id hk
  cases hd with
  | raw => cases hk
  | arc _ _ hc _ => cases hk; exact ⟨_, hc⟩

theorem WF.inc {h : Heap K V} {R} (hw : WF h R) {id : Nat} {c} (hc : h.cell id = some c) (p : List K) (v : Option V) :
    WF (h.inc id) (⟨p, v, .arc id⟩ :: R) := by
  obtain ⟨r, ns⟩ := c
  have hlt := hw.lt hc
  have he : h.inc id = h.set id (some (r + 1, ns)) := by simp [Heap.inc, hc]
  refine ⟨fun i hi => inc_none (hw.bound i (by simpa using hi)), ?_, ?_, full_of hw.full (sameVecs_inc h id) (by rw [he]; exact sameVecs_set hc)⟩
  · intro i r' ns' hi
    rw [he] at hi
    simp only [Heap.set] at hi
    split at hi
    · cases hi; omega
    · exact hw.pos i r' ns' hi
  · intro k
    have h1 := hw.exact k
    have h2 := total_set h (some (r + 1, ns)) hlt k
    have h3 : h.vec id = ns := by simp [Heap.vec, hc]
    rw [h3] at h2
    simp only [] at h2
    rw [he, rc_set, refs_cons, refs_arc]
    by_cases e : k = id
    · subst e
      have : h.rc k = r := by simp [Heap.rc, hc]
      simp only [if_true]; omega
    · rw [if_neg e, if_neg (fun x => e x.symm)]; omega

theorem WF.cloned {h : Heap K V} {R} (hw : WF h R) {n : Node K V} (hn : h.hasArc n) : WF (h.cloned n) (n :: R) := by
  obtain ⟨p, v, k⟩ := n
  cases k with
  | raw ts => exact hw.congr fun id => by rw [refs_cons, refs_raw]; simp
  | arc id => obtain ⟨c, hc⟩ := hn id rfl; exact hw.inc hc p v

theorem SameVecs.hasArc {h h' : Heap K V} (hs : SameVecs h h') {n : Node K V} (hn : h.hasArc n) : h'.hasArc n := by
  intro id hk
  obtain ⟨⟨r, ns⟩, hc⟩ := hn id hk
  obtain ⟨r', h'⟩ := hs id r ns hc
  exact ⟨_, h'⟩

theorem cloned_none {h : Heap K V} {n : Node K V} {j : Nat} (hj : h.cell j = none) : (h.cloned n).cell j = none := by
  simp only [Heap.cloned]; cases n.kids
  · exact hj
  · exact inc_none hj

theorem WF.clonedAll : ∀ {ns : List (Node K V)} {h : Heap K V} {R}, WF h R → (∀ n ∈ ns, h.hasArc n) →
    WF (h.clonedAll ns) (ns ++ R) ∧ SameVecs h (h.clonedAll ns) ∧ (h.clonedAll ns).next = h.next ∧
      ∀ j, h.cell j = none → (h.clonedAll ns).cell j = none
  | [], h, R, hw, _ => ⟨hw, .refl h, rfl, fun _ h => h⟩
  | n :: ns, h, R, hw, hn => by
    have h1 := hw.cloned (hn n (List.mem_cons_self ..))
    obtain ⟨h2, h3, h4, h5⟩ := WF.clonedAll h1 (fun m hm => (sameVecs_cloned h n).hasArc (hn m (List.mem_cons_of_mem _ hm)))
    refine ⟨h2.perm ?_, (sameVecs_cloned h n).trans h3, by rw [← cloned_next h n]; exact h4, fun j hj => h5 j (cloned_none hj)⟩
    simp only [List.cons_append]
    exact List.perm_middle.symm

theorem WF.dec {h : Heap K V} {R} {id : Nat} {r ns p v} (hw : WF h (⟨p, v, .arc id⟩ :: R)) (hc : h.cell id = some (r, ns)) (hr : r ≠ 1) :
    WF (h.dec id) R := by
  have hlt := hw.lt hc
  have he : h.dec id = h.set id (some (r - 1, ns)) := by simp [Heap.dec, hc]
  have hp := hw.pos _ _ _ hc
  refine ⟨fun i hi => dec_none (hw.bound i (by simpa using hi)), ?_, ?_, full_of hw.full (sameVecs_dec h id) (by rw [he]; exact sameVecs_set hc)⟩
  · intro i r' ns' hi
    rw [he] at hi
    simp only [Heap.set] at hi
    split at hi
    · cases hi; omega
    · exact hw.pos i r' ns' hi
  · intro k
    have h1 := hw.exact k
    have h2 := total_set h (some (r - 1, ns)) hlt k
    have h3 : h.vec id = ns := by simp [Heap.vec, hc]
    rw [h3] at h2
    simp only [] at h2
    rw [refs_cons, refs_arc] at h1
    rw [he, rc_set]
    by_cases e : k = id
    · subst e
      have : h.rc k = r := by simp [Heap.rc, hc]
      simp only [if_true] at h1 ⊢; omega
    · rw [if_neg (fun x => e x.symm)] at h1
      rw [if_neg e]; omega

/-- freeing the last reference: the elements become owned -/
theorem WF.free {h : Heap K V} {R} {id : Nat} {ns p v} (hw : WF h (⟨p, v, .arc id⟩ :: R)) (hc : h.cell id = some (1, ns)) :
    WF (h.set id none) (ns ++ R) ∧ Ext h (h.set id none) (ns ++ R) := by
  have hlt := hw.lt hc
  have h3 : h.vec id = ns := by simp [Heap.vec, hc]
  have hex : ∀ k, (h.set id none).rc k = refs k (ns ++ R) + (h.set id none).total k := by
    intro k
    have h1 := hw.exact k
    have h2 := total_set h none hlt k
    rw [h3] at h2
    simp only [refs_nil] at h2
    rw [refs_cons, refs_arc] at h1
    rw [rc_set, refs_append]
    by_cases e : k = id
    · subst e
      have : h.rc k = 1 := by simp [Heap.rc, hc]
      simp only [if_true] at h1 ⊢; omega
    · rw [if_neg (fun x => e x.symm)] at h1
      rw [if_neg e]; omega
  have hnone := none_refs_of (h := h.set id none) (R := ns ++ R) (id := id) (fun i hi => by
      simp only [Heap.set] at hi ⊢; split
      · rfl
      · exact hw.bound i hi) hex (by simp [Heap.set])
  have hw' : WF (h.set id none) (ns ++ R) := by
    refine ⟨fun i hi => ?_, ?_, hex, ?_⟩
    · simp only [Heap.set] at hi ⊢; split
      · rfl
      · exact hw.bound i hi
    · intro i r' ns' hi
      simp only [Heap.set] at hi
      split at hi
      · cases hi
      · exact hw.pos i r' ns' hi
    · intro i r' ns' hi
      have hi' := hi
      simp only [Heap.set] at hi'
      split at hi'
      · cases hi'
      · obtain ⟨ts, hd⟩ := hw.full i r' ns' hi'
        exact ⟨ts, hd.erase hnone.2 (hnone.2 i r' ns' hi)⟩
  refine ⟨hw', ?_, ?_, Nat.le_refl _⟩
  · intro m hm u hd
    exact hd.erase hnone.2 (hnone.1 m hm)
  · intro j _ hj; simp only [Heap.set]; split
    · rfl
    · exact hj

theorem sameVecs_put {h : Heap K V} {id : Nat} {c} (hc : h.cell id = none) : SameVecs h (h.set id c) := by
  intro j r ns hj
  refine ⟨r, ?_⟩
  simp only [Heap.set]; rw [if_neg (by rintro rfl; rw [hc] at hj; cases hj)]; exact hj

theorem WF.put {h : Heap K V} {R} {id : Nat} {ns ts} (p v) (hw : WF h (ns ++ R)) (hds : Dens h ns ts) (hc : h.cell id = none) (hlt : id < h.next) :
    WF (h.set id (some (1, ns))) (⟨p, v, .arc id⟩ :: R) := by
  have h3 : h.vec id = [] := by simp [Heap.vec, hc]
  have hs : SameVecs h (h.set id (some (1, ns))) := sameVecs_put hc
  refine ⟨fun i hi => ?_, ?_, ?_, ?_⟩
  · simp only [Heap.set] at hi ⊢; rw [if_neg (by omega)]; exact hw.bound i hi
  · intro i r' ns' hi
    simp only [Heap.set] at hi
    split at hi
    · cases hi; omega
    · exact hw.pos i r' ns' hi
  · intro k
    have h1 := hw.exact k
    have h2 := total_set h (some (1, ns)) hlt k
    rw [h3] at h2
    simp only [refs_nil] at h2
    rw [refs_append] at h1
    rw [refs_cons, refs_arc, rc_set]
    by_cases e : k = id
    · subst e
      have : h.rc k = 0 := by simp [Heap.rc, hc]
      simp only [if_true]; omega
    · rw [if_neg e, if_neg (fun x => e x.symm)]; omega
  · intro i r' ns' hi
    simp only [Heap.set] at hi
    split at hi
    · cases hi; exact ⟨ts, hds.mono hs⟩
    · obtain ⟨us, hd⟩ := hw.full i r' ns' hi
      exact ⟨us, hd.mono hs⟩

theorem WF.bump {h : Heap K V} {R} (hw : WF h R) : WF { h with next := h.next + 1 } R := by
  refine ⟨fun i hi => hw.bound i (by simp only at hi; omega), hw.pos, fun k => ?_, full_of hw.full (fun _ r _ h => ⟨r, h⟩) (fun _ r _ h => ⟨r, h⟩)⟩
  have h1 := hw.exact k
  have h2 : Heap.vec { h with next := h.next + 1 } = h.vec := rfl
  have h3 : h.vec h.next = [] := by simp [Heap.vec, hw.bound h.next (Nat.le_refl _)]
  simp only [Heap.total, sumTo, h2, h3, refs_nil] at h1 ⊢
  exact h1

theorem WF.alloc {h : Heap K V} {R} {ns ts} (p v) (hw : WF h (ns ++ R)) (hds : Dens h ns ts) : WF (h.alloc ns) (⟨p, v, .arc h.next⟩ :: R) := by
  have hs : SameVecs h { h with next := h.next + 1 } := fun _ r _ hc => ⟨r, hc⟩
  have := hw.bump.put (id := h.next) p v (hds.mono hs) (hw.bound _ (Nat.le_refl _)) (Nat.lt_succ_self _)
  exact this

theorem sameVecs_alloc {h : Heap K V} {R} (hw : WF h R) (ns) : SameVecs h (h.alloc ns) := by
  intro j r ms hj
  refine ⟨r, ?_⟩
  have := hw.lt hj
  simp only [Heap.alloc]; rw [if_neg (by omega)]; exact hj

theorem SameVecs.ext {h h' : Heap K V} (hs : SameVecs h h') (hr : ∀ j, j < h.next → h.cell j = none → h'.cell j = none)
    (hn : h.next ≤ h'.next) (R) : Ext h h' R := ⟨fun _ _ _ hd => hd.mono hs, hr, hn⟩

/-! ## children_mut -/
structure BorrowOk (h : Heap K V) (R : List (Node K V)) (h1 : Heap K V) (id : Nat) : Prop where
  res : h1.cell id = none
  lt : id < h1.next
  ext : Ext h h1 R
  fresh : ∀ j, j < h.next → h.cell j = none → j ≠ id
structure MutOk (h : Heap K V) (n : Node K V) (t : Tree K V) (R) (h1 : Heap K V) (id : Nat) (ns : List (Node K V)) : Prop extends
    BorrowOk h R h1 id where
  wf : WF h1 (ns ++ R)
  dens : Dens h1 ns t.kids

theorem childrenMut_ok {h : Heap K V} {n : Node K V} {t : Tree K V} {R} (hw : WF h (n :: R)) (hd : Den h n t) :
    MutOk h n t R (childrenMut h n).1 (childrenMut h n).2.1 (childrenMut h n).2.2 := by
  cases hd with
  | raw p v ts =>
    refine ⟨⟨hw.bound _ (Nat.le_refl _), Nat.lt_succ_self _, ?_, ?_⟩, ?_, dens_rawNodes _ ts⟩
    · have hs : SameVecs h (childrenMut h ⟨p, v, .raw ts⟩).1 := fun id r ns hc => ⟨r, hc⟩
      exact hs.ext (fun _ _ h => h) (Nat.le_succ _) R
    · intro j hj _ e; subst e; exact absurd hj (Nat.lt_irrefl _)
    · refine hw.bump.congr fun id => ?_
      simp only [childrenMut]
      rw [refs_append, refs_rawNodes, refs_cons id _ R, refs_raw]
  | @arc p v id r ns ts hc hds =>
    simp only [childrenMut, hc]
    split
    · rename_i hr; subst hr
      obtain ⟨h1, h2⟩ := hw.free hc
      exact ⟨⟨by simp [Heap.set], hw.lt hc, h2.sub (fun m hm => List.mem_append_right _ hm), by rintro j _ hj rfl; rw [hc] at hj; cases hj⟩,
        h1, hds.map_heap (fun m hm u => h2.den m (List.mem_append_left _ hm) u)⟩
    · rename_i hr
      have h1 := hw.dec hc hr
      have h2 := sameVecs_dec h id
      obtain ⟨h3, h4, h5, h6⟩ := h1.clonedAll (ns := ns) (fun m hm => h2.hasArc
        (Dens.all (P := fun m => h.hasArc m) hds (fun m _ t hd => hd.hasArc) m hm))
      have h7 : SameVecs h { ((h.dec id).clonedAll ns) with next := h.next + 1 } := fun j r ms hj => (h2.trans h4) j r ms hj
      have h8 : ((h.dec id).clonedAll ns).next = h.next := by rw [h5]; simp
      refine ⟨⟨h6 _ (dec_none (hw.bound _ (Nat.le_refl _))), Nat.lt_succ_self _, h7.ext (fun j hj hn => h6 j (dec_none hn)) (Nat.le_succ _) R,
        fun j hj _ e => by subst e; exact absurd hj (Nat.lt_irrefl _)⟩, ?_, hds.mono h7⟩
      have := h3.bump; rw [h8] at this; exact this

/-- the end of a borrow started by `children_mut` -/
theorem BorrowOk.close {h h1 h2 : Heap K V} {n : Node K V} {R R2} {id : Nat} {ns'} {ts'} (hm : BorrowOk h R h1 id)
    (hx : Ext h1 h2 R) (hw : WF h2 (ns' ++ R2)) (hd : Dens h2 ns' ts') :
    WF (putBack h2 n id ns').1 ((putBack h2 n id ns').2 :: R2) ∧ Den (putBack h2 n id ns').1 (putBack h2 n id ns').2 ⟨n.pre, n.val, ts'⟩ ∧
      Ext h (putBack h2 n id ns').1 R ∧ ∀ m u, Den h2 m u → Den (putBack h2 n id ns').1 m u := by
  have hc : h2.cell id = none := hx.res id hm.lt hm.res
  have hlt : id < h2.next := Nat.lt_of_lt_of_le hm.lt hx.next
  have hs : SameVecs h2 (h2.set id (some (1, ns'))) := sameVecs_put hc
  refine ⟨hw.put _ _ hd hc hlt, ?_, ⟨?_, ?_, ?_⟩, fun m u hd => hd.mono hs⟩
  · exact .arc _ _ (r := 1) (by simp [putBack, Heap.set]) (hd.mono hs)
  · intro m hmm u hd; exact ((hm.ext.trans hx (fun _ h => h)).den m hmm u hd).mono hs
  · intro j hj hjn
    have := (hm.ext.trans hx (fun _ h => h)).res j hj hjn
    simp only [putBack, Heap.set]; rw [if_neg (hm.fresh j hj hjn)]; exact this
  · exact Nat.le_trans hm.ext.next hx.next

/-! ## modAt -/
/-- the pure counterpart of `modAt` -/
def pmodAt (pact : Tree K V → Option (Tree K V × List (Tree K V))) (path : List Nat) (t : Tree K V) : Option (Tree K V × List (Tree K V)) :=
  match treeAt path t with
  | none => none
  | some u => match pact u with | none => none | some (u', us) => some (putAt u' path t, us)

/-- result of an exclusive action on `n` (standing for `t`) that owns `ins`, against the pure result -/
def ActRes (h : Heap K V) (t : Tree K V) (ins R : List (Node K V)) (res : Heap K V × Node K V × Option (List (Node K V)))
    (p : Option (Tree K V × List (Tree K V))) : Prop :=
  match p with
  | some (t', us) => ∃ outs, res.2.2 = some outs ∧ WF res.1 (res.2.1 :: (outs ++ R)) ∧ Den res.1 res.2.1 t' ∧ Dens res.1 outs us ∧ Ext h res.1 R
  | none => res.2.2 = none ∧ WF res.1 (res.2.1 :: (ins ++ R)) ∧ Den res.1 res.2.1 t ∧ Ext h res.1 (ins ++ R)

/-- `act` refines `pact`, consuming `ins` which stand for `tis` -/
def ActOk (act : Heap K V → Node K V → Heap K V × Node K V × Option (List (Node K V)))
    (pact : Tree K V → Option (Tree K V × List (Tree K V))) (ins : List (Node K V)) (tis : List (Tree K V)) : Prop :=
  ∀ h n t R, WF h (n :: (ins ++ R)) → Den h n t → Dens h ins tis → ActRes h t ins R (act h n) (pact t)

theorem perm_pull {α : Type _} {ns : List α} {i : Nat} {c : α} (hi : ns[i]? = some c) (c' : α) :
    (ns.set i c').Perm (c' :: (ns.eraseIdx i)) := by
  induction ns generalizing i with
  | nil => simp at hi
  | cons x xs ih =>
    cases i with
    | zero => simp
    | succ i =>
      simp only [List.set_cons_succ, List.eraseIdx_cons_succ]
      exact ((ih (by simpa using hi)).cons x).trans (List.Perm.swap ..)

theorem set_same {α : Type _} {ns : List α} {i : Nat} {c : α} (hi : ns[i]? = some c) : ns.set i c = ns := by
  induction ns generalizing i with
  | nil => rfl
  | cons x xs ih =>
    cases i with
    | zero => simp at hi; simp [hi]
    | succ i => simp only [List.set_cons_succ]; rw [ih (by simpa using hi)]

theorem eraseIdx_subset {α : Type _} (ns : List α) (i : Nat) : ∀ m ∈ ns.eraseIdx i, m ∈ ns := fun _ h => List.mem_of_mem_eraseIdx h

theorem Dens.set' {h h' : Heap K V} {ns ts} {i : Nat} {n : Node K V} {t : Tree K V} (hds : Dens h ns ts)
    (hx : ∀ m ∈ ns.eraseIdx i, ∀ u, Den h m u → Den h' m u) (hd : Den h' n t) : Dens h' (ns.set i n) (ts.set i t) := by
  induction i generalizing ns ts with
  | zero =>
    cases hds with
    | nil => exact .nil
    | cons h1 h2 => exact .cons hd (h2.map_heap (by simpa using hx))
  | succ i ih =>
    cases hds with
    | nil => exact .nil
    | cons h1 h2 =>
      exact .cons (hx _ (by simp) _ h1) (ih h2 (fun m hm => hx m (by simp [hm])))

theorem modAt_ok {act : Heap K V → Node K V → Heap K V × Node K V × Option (List (Node K V))}
    {pact : Tree K V → Option (Tree K V × List (Tree K V))} {ins : List (Node K V)} {tis : List (Tree K V)} (ha : ActOk act pact ins tis) :
    ∀ path, ActOk (modAt act path) (pmodAt pact path) ins tis := by
  intro path
  induction path with
  | nil =>
    intro h n t R hw hd hi
    have := ha h n t R hw hd hi
    simp only [modAt, pmodAt, treeAt, putAt]
    cases hp : pact t with
    | none => rw [hp] at this; exact this
    | some x => rw [hp] at this; obtain ⟨u', us⟩ := x; exact this
  | cons i is ih =>
    intro h n t R hw hd hi
    have hmut := childrenMut_ok hw hd
    simp only [modAt]
    rcases hcm : childrenMut h n with ⟨h1, id, ns⟩
    rw [hcm] at hmut
    simp only at hmut ⊢
    have het : (⟨n.pre, n.val, t.kids⟩ : Tree K V) = t := by rw [hd.pre, hd.val]; cases t; rfl
    rcases hmut.dens.get i with ⟨g1, g2⟩ | ⟨c, tc, g1, g2, g3⟩
    · simp only [g1]
      obtain ⟨k1, k2, k3, k4⟩ := hmut.toBorrowOk.close (Ext.refl h1 _) hmut.wf hmut.dens
      have : pmodAt pact (i :: is) t = none := by simp [pmodAt, treeAt, g2]
      rw [this]
      rw [het] at k2
      exact ⟨rfl, k1, k2, k3⟩
    · simp only [g1]
      have hw1 : WF h1 (c :: (ins ++ (ns.eraseIdx i ++ R))) := by
        refine hmut.wf.perm ?_
        have h1 : (c :: ns.eraseIdx i).Perm ns := by
          have := perm_pull g1 c
          rw [set_same g1] at this; exact this.symm
        have h2 : (ins ++ (ns.eraseIdx i ++ R)).Perm (ns.eraseIdx i ++ (ins ++ R)) := by
          rw [← List.append_assoc, ← List.append_assoc]; exact List.perm_append_comm.append_right R
        exact (h2.cons c).trans (h1.append_right _)
      have hi1 : Dens h1 ins tis := hi.map_heap (fun m hm u => hmut.ext.den m (List.mem_append_left _ hm) u)
      have hr := ih h1 c tc (ns.eraseIdx i ++ R) hw1 g3 hi1
      rcases hmo : modAt act is h1 c with ⟨h2, c', out⟩
      rw [hmo] at hr
      simp only
      cases hp : pmodAt pact is tc with
      | none =>
        rw [hp] at hr
        obtain ⟨e1, e2, e3, e4⟩ := hr
        simp only at e1 e2 e3 e4
        have hx : Ext h1 h2 (ins ++ R) := e4.sub (fun m hm => by
          rcases List.mem_append.1 hm with q | q
          · exact List.mem_append_left _ q
          · exact List.mem_append_right _ (List.mem_append_right _ q))
        have hdn : Dens h2 (ns.set i c') t.kids := by
          have := hmut.dens.set' (i := i) (n := c') (t := tc) (h' := h2)
            (fun m hm u => e4.den m (List.mem_append_right _ (List.mem_append_left _ hm)) u) e3
          rw [set_same g2] at this; exact this
        have hw2 : WF h2 (ns.set i c' ++ (ins ++ R)) := by
          refine e2.perm ?_
          have h2 : (ns.eraseIdx i ++ (ins ++ R)).Perm (ins ++ (ns.eraseIdx i ++ R)) := by
            rw [← List.append_assoc, ← List.append_assoc]; exact List.perm_append_comm.append_right R
          exact ((perm_pull g1 c').append_right _).trans (h2.cons c')
        obtain ⟨k1, k2, k3, k4⟩ := hmut.toBorrowOk.close hx hw2 hdn
        have : pmodAt pact (i :: is) t = none := by
          simp only [pmodAt, treeAt, g2] at hp ⊢
          cases htr : treeAt is tc with
          | none => rfl
          | some u =>
            rw [htr] at hp; simp only at hp ⊢
            cases hpu : pact u with
            | none => rfl
            | some x => rw [hpu] at hp; cases hp
        rw [this]
        rw [het] at k2
        exact ⟨e1, k1, k2, k3⟩
      | some x =>
        obtain ⟨tc', us⟩ := x
        rw [hp] at hr
        obtain ⟨outs, e1, e2, e3, e5, e4⟩ := hr
        simp only at e1 e2 e3 e4 e5
        have hx : Ext h1 h2 R := e4.sub (fun m hm => List.mem_append_right _ hm)
        have hdn : Dens h2 (ns.set i c') (t.kids.set i tc') :=
          hmut.dens.set' (i := i) (n := c') (t := tc') (h' := h2) (fun m hm u => e4.den m (List.mem_append_left _ hm) u) e3
        have hw2 : WF h2 (ns.set i c' ++ (outs ++ R)) := by
          refine e2.perm ?_
          have h2 : (ns.eraseIdx i ++ (outs ++ R)).Perm (outs ++ (ns.eraseIdx i ++ R)) := by
            rw [← List.append_assoc, ← List.append_assoc]; exact List.perm_append_comm.append_right R
          exact ((perm_pull g1 c').append_right _).trans (h2.cons c')
        obtain ⟨k1, k2, k3, k4⟩ := BorrowOk.close (n := n) (R := R) ⟨hmut.res, hmut.lt, hmut.ext.sub (fun m hm => List.mem_append_right _ hm), hmut.fresh⟩ hx hw2 hdn
        have : pmodAt pact (i :: is) t = some (⟨n.pre, n.val, t.kids.set i tc'⟩, us) := by
          simp only [pmodAt, treeAt, putAt, g2] at hp ⊢
          cases htr : treeAt is tc with
          | none => rw [htr] at hp; cases hp
          | some u =>
            rw [htr] at hp; simp only at hp ⊢
            cases hpu : pact u with
            | none => rw [hpu] at hp; cases hp
            | some x => rw [hpu] at hp; cases hp; simp [hd.pre, hd.val]
        rw [this]
        exact ⟨outs, e1, k1, k2, e5.map_heap (fun m _ u => k4 m u), k3⟩
end Verif.Shared
