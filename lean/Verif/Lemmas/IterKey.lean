import Verif.Spec.IterKey
/-! The key buffer on the heap behaves like plain key values. -/
namespace Verif
namespace IterKey
open Tree
variable {K V : Type _}

def Heap.rc (h : Heap K) (i : Nat) : Nat := match h.cell i with | none => 0 | some (r, _) => r

/-- reference counts are exact, allocated cells are referenced, unallocated ones are blank -/
structure Heap.Ok (h : Heap K) (c : Nat → Nat) : Prop where
  rc : ∀ i, h.rc i = c i
  pos : ∀ i v, h.cell i ≠ some (0, v)
  fresh : ∀ i, h.next ≤ i → h.cell i = none

def one (a i : Nat) : Nat := if i = a then 1 else 0

theorem Heap.Ok.congr {h : Heap K} {c d : Nat → Nat} (o : h.Ok c) (e : ∀ i, c i = d i) : h.Ok d :=
  ⟨fun i => (o.rc i).trans (e i), o.pos, o.fresh⟩

theorem Heap.Ok.live {h : Heap K} {c : Nat → Nat} (o : h.Ok c) {i : Nat} (hi : 0 < c i) : ∃ v, h.cell i = some (c i, v) := by
  have := o.rc i
  unfold Heap.rc at this
  split at this
  · omega
  · rename_i r v e; exact ⟨v, by rw [e, this]⟩

theorem Heap.Ok.dead {h : Heap K} {c : Nat → Nat} (o : h.Ok c) {i : Nat} (hi : c i = 0) : h.cell i = none := by
  have := o.rc i
  unfold Heap.rc at this
  split at this
  · assumption
  · rename_i r v e; exact absurd (by rw [e, this, hi]) (o.pos i v)

theorem Heap.Ok.lt {h : Heap K} {c : Nat → Nat} (o : h.Ok c) {i : Nat} (hi : 0 < c i) : i < h.next := by
  refine Nat.lt_of_not_le fun hl => ?_
  obtain ⟨v, hv⟩ := o.live hi
  rw [o.fresh i hl] at hv; cases hv

theorem Heap.Ok.mk' {h : Heap K} {c : Nat → Nat}
    (hc : ∀ i, (c i = 0 ∧ h.cell i = none) ∨ (0 < c i ∧ ∃ v, h.cell i = some (c i, v)))
    (hf : ∀ i, h.next ≤ i → c i = 0) : h.Ok c := by
  refine ⟨fun i => ?_, fun i v => ?_, fun i hi => ?_⟩
  · rcases hc i with ⟨h1, h2⟩ | ⟨h1, v, h2⟩ <;> simp [Heap.rc, h2, h1]
  · rcases hc i with ⟨h1, h2⟩ | ⟨h1, w, h2⟩
    · simp [h2]
    · simp [h2]; omega
  · rcases hc i with ⟨h1, h2⟩ | ⟨h1, v, h2⟩
    · exact h2
    · have := hf i hi; omega

theorem Heap.Ok.cases {h : Heap K} {c : Nat → Nat} (o : h.Ok c) (i : Nat) :
    (c i = 0 ∧ h.cell i = none) ∨ (0 < c i ∧ ∃ v, h.cell i = some (c i, v)) := by
  rcases Nat.eq_zero_or_pos (c i) with e | e
  · exact .inl ⟨e, o.dead e⟩
  · exact .inr ⟨e, o.live e⟩

theorem Heap.Ok.beyond {h : Heap K} {c : Nat → Nat} (o : h.Ok c) (i : Nat) (hi : h.next ≤ i) : c i = 0 := by
  rcases Nat.eq_zero_or_pos (c i) with e | e
  · exact e
  · have := o.lt e; omega

theorem inc_ok {h : Heap K} {c : Nat → Nat} (o : h.Ok c) {id : Nat} (hi : 0 < c id) :
    (h.inc id).Ok (fun i => c i + one id i) ∧ (h.inc id).read = h.read ∧ (h.inc id).next = h.next := by
  obtain ⟨v, hv⟩ := o.live hi
  have e : h.inc id = h.set id (some (c id + 1, v)) := by simp [Heap.inc, hv]
  rw [e]
  refine ⟨.mk' (fun i => ?_) (fun i hn => ?_), funext fun i => ?_, rfl⟩
  · by_cases ei : i = id
    · subst ei; exact .inr ⟨by omega, v, by simp [Heap.set, one]⟩
    · simpa [Heap.set, one, ei] using o.cases i
  · have := o.lt hi
    have hn : h.next ≤ i := hn
    have := o.beyond i hn
    simp [one]; omega
  · by_cases ei : i = id
    · subst ei; simp [Heap.read, Heap.set, hv]
    · simp [Heap.read, Heap.set, ei]

theorem dec_ok {h : Heap K} {c : Nat → Nat} (o : h.Ok c) {id : Nat} (hi : 0 < c id) :
    (h.dec id).Ok (fun i => c i - one id i) ∧ (∀ i, 0 < c i - one id i → (h.dec id).read i = h.read i) ∧ (h.dec id).next = h.next := by
  obtain ⟨v, hv⟩ := o.live hi
  have e : h.dec id = h.set id (if c id ≤ 1 then none else some (c id - 1, v)) := by simp [Heap.dec, hv]
  rw [e]
  refine ⟨.mk' (fun i => ?_) (fun i hn => ?_), fun i => ?_, rfl⟩
  · by_cases ei : i = id
    · subst ei
      by_cases e1 : c i ≤ 1
      · exact .inl ⟨by simp [one]; omega, by simp [Heap.set, e1]⟩
      · exact .inr ⟨by simp [one]; omega, v, by simp [Heap.set, one, e1]⟩
    · simpa [Heap.set, one, ei] using o.cases i
  · have hn : h.next ≤ i := hn
    have := o.beyond i hn
    omega
  · intro hp
    by_cases ei : i = id
    · subst ei
      have : ¬ c i ≤ 1 := by simp [one] at hp; omega
      simp [Heap.read, Heap.set, hv, this]
    · simp [Heap.read, Heap.set, ei]

theorem alloc_ok {h : Heap K} {c : Nat → Nat} (o : h.Ok c) (v : List K) :
    (h.alloc v).Ok (fun i => c i + one h.next i) ∧ (h.alloc v).read h.next = some v ∧
    (∀ i, 0 < c i → (h.alloc v).read i = h.read i) ∧ (h.alloc v).next = h.next + 1 := by
  refine ⟨.mk' (fun i => ?_) (fun i hn => ?_), by simp [Heap.read, Heap.alloc], fun i hp => ?_, rfl⟩
  · by_cases ei : i = h.next
    · subst ei; exact .inr ⟨by simp [one], v, by simp [Heap.alloc, one, o.beyond h.next (Nat.le_refl _)]⟩
    · simpa [Heap.alloc, one, ei] using o.cases i
  · have hn : h.next + 1 ≤ i := hn
    have := o.beyond i (by omega)
    simp [one]; omega
  · have := o.lt hp
    have : i ≠ h.next := by omega
    simp [Heap.read, Heap.alloc, this]

theorem modify_ok {h : Heap K} {c : Nat → Nat} (o : h.Ok c) {id : Nat} (hi : 0 < c id) (f : List K → List K) :
    (h.modify id f).Ok c ∧ (h.modify id f).read id = (h.read id).map f ∧
    (∀ i, i ≠ id → (h.modify id f).read i = h.read i) ∧ (h.modify id f).next = h.next := by
  obtain ⟨v, hv⟩ := o.live hi
  have e : h.modify id f = h.set id (some (c id, f v)) := by simp [Heap.modify, hv]
  rw [e]
  refine ⟨.mk' (fun i => ?_) (fun i hn => o.beyond i hn), by simp [Heap.read, Heap.set, hv], fun i ei => by simp [Heap.read, Heap.set, ei], rfl⟩
  by_cases ei : i = id
  · subst ei; exact .inr ⟨hi, f v, by simp [Heap.set]⟩
  · simpa [Heap.set, ei] using o.cases i

/-- `make_mut` followed by a write -/
theorem edit_ok {h : Heap K} {c : Nat → Nat} (o : h.Ok c) {id : Nat} (hi : 0 < c id) (f : List K → List K) :
    ((h.makeMut id).1.modify (h.makeMut id).2 f).Ok (fun i => c i - one id i + one (h.makeMut id).2 i) ∧
    ((h.makeMut id).1.modify (h.makeMut id).2 f).read (h.makeMut id).2 = (h.read id).map f ∧
    (∀ i, 0 < c i - one id i → ((h.makeMut id).1.modify (h.makeMut id).2 f).read i = h.read i) ∧
    ((h.makeMut id).1.modify (h.makeMut id).2 f).next = h.next + (if c id ≤ 1 then 0 else 1) ∧
    c (h.makeMut id).2 - one id (h.makeMut id).2 = 0 := by
  obtain ⟨v, hv⟩ := o.live hi
  by_cases e1 : c id ≤ 1
  · have e : h.makeMut id = (h, id) := by simp [Heap.makeMut, hv, e1]
    rw [e]
    obtain ⟨m1, m2, m3, m4⟩ := modify_ok o hi f
    refine ⟨m1.congr fun i => ?_, m2, fun i hp => m3 i ?_, by simp [m4, e1], by simp [one]; omega⟩
    · by_cases ei : i = id
      · subst ei; simp [one]; omega
      · simp [one, ei]
    · rintro rfl; simp [one] at hp; omega
  · have e : h.makeMut id = ((h.dec id).alloc v, h.next) := by simp [Heap.makeMut, hv, e1]
    rw [e]
    obtain ⟨d1, d2, d3⟩ := dec_ok o hi
    obtain ⟨a1, a2, a3, a4⟩ := alloc_ok d1 v
    rw [d3] at a1 a2 a4
    have hn : c h.next = 0 := o.beyond _ (Nat.le_refl _)
    obtain ⟨m1, m2, m3, m4⟩ := modify_ok a1 (id := h.next) (by simp [one]) f
    refine ⟨m1, ?_, fun i hp => ?_, by simp [m4, a4, e1], by simp [hn]⟩
    · simp only [m2, a2]; simp [Heap.read, hv]
    · show Heap.read _ i = _
      rw [m3 i, a3 i hp, d2 i hp]
      rintro rfl; omega

/-- how often the machine holds a handle on cell `i` -/
def St.handles (s : St K V) (i : Nat) : Nat := (match s.iter with | some it => one it.path i | none => 0) + s.keys.count (some i)

def St.Ok (s : St K V) : Prop := s.heap.Ok s.handles

/-- the plain-value state a heap state stands for -/
def St.view (s : St K V) : Plain K V where
  iter := s.iter.map fun it => { path := (s.heap.read it.path).getD [], stack := it.stack }
  keys := s.keys.map fun o => o.bind s.heap.read

theorem map_read {h h' : Heap K} {keys : List (Option Nat)} (e : ∀ i, 0 < keys.count (some i) → h'.read i = h.read i) :
    keys.map (fun o => o.bind h'.read) = keys.map (fun o => o.bind h.read) := by
  refine List.map_congr_left fun o ho => ?_
  cases o with
  | none => rfl
  | some i => exact e i (List.count_pos_iff.2 ho)

theorem Heap.Ok.read {h : Heap K} {c : Nat → Nat} (o : h.Ok c) {i : Nat} (hi : 0 < c i) : ∃ v, h.read i = some v := by
  obtain ⟨v, hv⟩ := o.live hi; exact ⟨v, by simp [Heap.read, hv]⟩

theorem count_set {l : List (Option Nat)} {i id : Nat} (h : l[i]? = some (some id)) (j : Nat) :
    (l.set i none).count (some j) = l.count (some j) - one id j := by
  induction l generalizing i with
  | nil => simp at h
  | cons a l ih =>
    cases i with
    | zero =>
      simp only [List.getElem?_cons_zero, Option.some.injEq] at h
      subst h
      simp only [List.set_cons_zero, List.count_cons, one]
      by_cases e : j = id
      · subst e; simp
      · have : ¬ (id = j) := fun h => e h.symm
        simp [e, this]
    | succ i =>
      simp only [List.getElem?_cons_succ] at h
      simp only [List.set_cons_succ, List.count_cons, ih h]
      have : 0 < l.count (some id) := List.count_pos_iff.2 (List.mem_of_getElem? h)
      unfold one
      split <;> rename_i e
      · subst e; omega
      · omega

theorem keys_count {s : St K V} {i id : Nat} (h : s.keys[i]? = some (some id)) : 0 < s.keys.count (some id) :=
  List.count_pos_iff.2 (List.mem_of_getElem? h)

theorem view_key {s : St K V} (ok : s.Ok) {i id : Nat} (h : s.keys[i]? = some (some id)) :
    ∃ v, s.heap.read id = some v ∧ s.view.keys[i]? = some (some v) := by
  have hp := keys_count h
  obtain ⟨v, hv⟩ := Heap.Ok.read ok (i := id) (by unfold St.handles; omega)
  exact ⟨v, hv, by simp [St.view, h, hv]⟩

theorem view_nokey {s : St K V} {i : Nat} (h : ∀ id, s.keys[i]? ≠ some (some id)) (k : List K) : s.view.keys[i]? ≠ some (some k) := by
  simp only [St.view, List.getElem?_map]
  cases e : s.keys[i]? with
  | none => simp
  | some o =>
    cases o with
    | none => simp
    | some id => exact absurd e (h id)

/-- allocation budget: allocations so far, plus one if the buffer is shared -/
def St.spent (s : St K V) : Nat :=
  s.heap.next + (match s.iter with | some it => if s.handles it.path ≤ 1 then 0 else 1 | none => 0)

def gain : Obs K V → Nat
  | .yielded _ => 1
  | _ => 0

theorem turn_sim {s : St K V} (ok : s.Ok) {it : It K V} (hit : s.iter = some it) :
    (turn s it).1.Ok ∧ (turn s it).1.view = (s.view.step .turn).1 ∧ (turn s it).2 = (s.view.step .turn).2 ∧
    (turn s it).1.spent ≤ s.spent + gain (turn s it).2 := by
  have hpos : 0 < s.handles it.path := by simp [St.handles, hit, one]; omega
  obtain ⟨pv, hpv⟩ := Heap.Ok.read ok hpos
  have hv : s.view.iter = some { path := pv, stack := it.stack } := by simp [St.view, hit, hpv]
  unfold turn
  simp only [Plain.step, hv, Iter.turn]
  match hs : it.stack with
  | [] => exact ⟨ok, rfl, rfl, by simp⟩
  | (t, 0) :: rest =>
    simp only
    match ht : t.val with
    | some v =>
      obtain ⟨o1, o2, o3⟩ := inc_ok ok hpos
      refine ⟨o1.congr fun i => ?_, ?_, rfl, ?_⟩
      · simp only [St.handles, hit, List.count_append, List.count_singleton, one]
        by_cases e : i = it.path
        · subst e; simp; omega
        · have : ¬ it.path = i := fun h => e h.symm
          simp [e, this]
      · simp only [St.view, Option.map_some, hit, o2, hpv, Option.getD_some, List.map_append, List.map_cons, List.map_nil, Option.bind_some]
      · simp only [St.spent, hit, gain, o3]
        split <;> split <;> omega
    | none =>
      exact ⟨ok.congr fun i => by simp [St.handles, hit], by simp [St.view, hit, hpv], rfl,
        by simp only [St.spent, hit, gain, St.handles]; exact Nat.le_refl _⟩
  | (t, pos + 1) :: rest =>
    have key : ∀ (f : List K → List K) (st : List (Tree K V × Nat)),
        let s' : St K V := { heap := (s.heap.makeMut it.path).1.modify (s.heap.makeMut it.path).2 f, iter := some { path := (s.heap.makeMut it.path).2, stack := st }, keys := s.keys }
        s'.Ok ∧ s'.view = { s.view with iter := some { path := f pv, stack := st } } ∧ s'.spent ≤ s.spent := by
      intro f st
      obtain ⟨e1, e2, e3, e4, e5⟩ := edit_ok ok hpos f
      have hh : ∀ i, s.handles i - one it.path i = s.keys.count (some i) := by intro i; simp [St.handles, hit]
      have hh' : ∀ i, St.handles { heap := (s.heap.makeMut it.path).1.modify (s.heap.makeMut it.path).2 f, iter := some { path := (s.heap.makeMut it.path).2, stack := st }, keys := s.keys } i
          = s.handles i - one it.path i + one (s.heap.makeMut it.path).2 i := by
        intro i; simp only [hh]; simp [St.handles]; omega
      refine ⟨e1.congr fun i => (hh' i).symm, ?_, ?_⟩
      · simp only [St.view, Option.map_some, e2, hpv, Option.getD_some]
        congr 1
        refine map_read fun i hi => e3 i ?_
        rw [hh]; exact hi
      · simp only [St.spent, hh', hit, e4, e5]
        have : one (s.heap.makeMut it.path).2 (s.heap.makeMut it.path).2 = 1 := by simp [one]
        simp only [this]
        simp
    simp only
    match hk : t.kids[pos]? with
    | some child =>
      obtain ⟨k1, k2, k3⟩ := key (fun v => v ++ child.pre) ((child, 0) :: (t, pos + 2) :: rest)
      exact ⟨k1, k2, rfl, k3⟩
    | none =>
      obtain ⟨k1, k2, k3⟩ := key (fun v => v.take (v.length - t.pre.length)) rest
      exact ⟨k1, k2, rfl, k3⟩

theorem step_sim {s : St K V} (ok : s.Ok) (c : Cmd) :
    (step s c).1.Ok ∧ (step s c).1.view = (s.view.step c).1 ∧ (step s c).2 = (s.view.step c).2 ∧
    (step s c).1.spent ≤ s.spent + gain (step s c).2 := by
  cases c with
  | turn =>
    unfold step
    cases hit : s.iter with
    | some it => exact turn_sim ok hit
    | none => exact ⟨ok, by simp [Plain.step, St.view, hit], by simp [Plain.step, St.view, hit], by simp⟩
  | clone i =>
    by_cases hk : ∃ id, s.keys[i]? = some (some id)
    · obtain ⟨id, hk⟩ := hk
      obtain ⟨v, hv, hvk⟩ := view_key ok hk
      have hp := keys_count hk
      have hpos : 0 < s.handles id := by unfold St.handles; omega
      obtain ⟨o1, o2, o3⟩ := inc_ok ok hpos
      simp only [step, hk, Plain.step, hvk]
      have hh : ∀ j, St.handles { heap := s.heap.inc id, iter := s.iter, keys := s.keys ++ [some id] } j = s.handles j + one id j := by
        intro j
        simp only [St.handles, List.count_append, List.count_singleton, one]
        by_cases e : j = id
        · subst e; simp; omega
        · have : ¬ id = j := fun h => e h.symm
          simp [e, this]
      refine ⟨o1.congr fun j => (hh j).symm, ?_, trivial, ?_⟩
      · simp only [St.view, o2, hv, List.map_append, List.map_cons, List.map_nil, Option.bind_some]
      · simp only [St.spent, o3, hh, gain]
        cases hit : s.iter with
        | none => simp
        | some it =>
          simp only
          by_cases e : it.path = id
          · subst e
            have : 2 ≤ s.handles it.path := by simp [St.handles, hit, one]; omega
            simp only [show ¬ s.handles it.path ≤ 1 by omega, ↓reduceIte]
            split <;> omega
          · simp [one, e]
    · have hn : ∀ id, s.keys[i]? ≠ some (some id) := fun id h => hk ⟨id, h⟩
      have hv := view_nokey (s := s) hn
      have e1 : step s (.clone i) = (s, .silent) := by
        unfold step; simp only
      have e2 : Plain.step s.view (.clone i) = (s.view, .silent) := by
        unfold Plain.step; simp only
      rw [e1, e2]
      exact ⟨ok, rfl, rfl, by simp⟩
  | drop i =>
    by_cases hk : ∃ id, s.keys[i]? = some (some id)
    · obtain ⟨id, hk⟩ := hk
      obtain ⟨v, hv, hvk⟩ := view_key ok hk
      have hp := keys_count hk
      have hpos : 0 < s.handles id := by unfold St.handles; omega
      obtain ⟨o1, o2, o3⟩ := dec_ok ok hpos
      simp only [step, hk, Plain.step, hvk]
      have hh : ∀ j, St.handles { heap := s.heap.dec id, iter := s.iter, keys := s.keys.set i none } j = s.handles j - one id j := by
        intro j
        simp only [St.handles, count_set hk, one]
        by_cases e : j = id
        · subst e; simp; omega
        · simp [e]
      refine ⟨o1.congr fun j => (hh j).symm, ?_, trivial, ?_⟩
      · have hr : ∀ j, 0 < (match s.iter with | some it => one it.path j | none => 0) + (s.keys.set i none).count (some j) →
            (s.heap.dec id).read j = s.heap.read j := fun j hj => o2 j (by rw [← hh]; exact hj)
        simp only [St.view, List.map_set]
        congr 1
        · cases hit : s.iter with
          | none => rfl
          | some it =>
            have := hr it.path (by simp [hit, one]; omega)
            simp [this]
        · have := map_read (h := s.heap) (h' := s.heap.dec id) (keys := s.keys.set i none) (fun j hj => hr j (by omega))
          simpa [List.map_set] using this
      · simp only [St.spent, o3, hh, gain]
        cases s.iter with
        | none => simp
        | some it => simp only; split <;> split <;> omega
    · have hn : ∀ id, s.keys[i]? ≠ some (some id) := fun id h => hk ⟨id, h⟩
      have hv := view_nokey (s := s) hn
      have e1 : step s (.drop i) = (s, .silent) := by
        unfold step; simp only
      have e2 : Plain.step s.view (.drop i) = (s.view, .silent) := by
        unfold Plain.step; simp only
      rw [e1, e2]
      exact ⟨ok, rfl, rfl, by simp⟩
  | read i =>
    by_cases hk : ∃ id, s.keys[i]? = some (some id)
    · obtain ⟨id, hk⟩ := hk
      obtain ⟨v, hv, hvk⟩ := view_key ok hk
      simp only [step, hk, Plain.step, hvk]
      exact ⟨ok, trivial, by rw [hv], by simp⟩
    · have hn : ∀ id, s.keys[i]? ≠ some (some id) := fun id h => hk ⟨id, h⟩
      have hv := view_nokey (s := s) hn
      have e1 : step s (.read i) = (s, .silent) := by
        unfold step; simp only
      have e2 : Plain.step s.view (.read i) = (s.view, .silent) := by
        unfold Plain.step; simp only
      rw [e1, e2]
      exact ⟨ok, rfl, rfl, by simp⟩
  | dropIter =>
    simp only [step]
    cases hit : s.iter with
    | none => exact ⟨ok, by simp [Plain.step, St.view, hit], rfl, by simp⟩
    | some it =>
      have hpos : 0 < s.handles it.path := by simp [St.handles, hit, one]; omega
      obtain ⟨o1, o2, o3⟩ := dec_ok ok hpos
      have hh : ∀ j, s.handles j - one it.path j = s.keys.count (some j) := by intro j; simp [St.handles, hit]
      refine ⟨o1.congr fun j => by simp only [hh]; simp [St.handles], ?_, rfl, ?_⟩
      · simp only [St.view, Plain.step, Option.map_none]
        congr 1
        exact map_read fun j hj => o2 j (by rw [hh]; exact hj)
      · simp only [St.spent, o3, hit, gain]; omega

theorem start_ok (t : Tree K V) (p : List K) : (St.start t p).Ok ∧ (St.start t p).view = Plain.start t p ∧ (St.start t p).spent = 1 := by
  have o : (Heap.empty : Heap K).Ok (fun _ => 0) := .mk' (fun i => .inl ⟨rfl, rfl⟩) (fun _ _ => rfl)
  obtain ⟨a1, a2, -, -⟩ := alloc_ok o p
  have hh : ∀ i, (St.start t p).handles i = one 0 i := fun i => by simp [St.handles, St.start]
  refine ⟨a1.congr fun i => by rw [hh]; simp [Heap.empty], ?_, ?_⟩
  · have a2 : (Heap.empty.alloc p).read 0 = some p := a2
    simp [St.view, St.start, Plain.start, Iter.new, a2]
  · simp only [St.spent, hh]; rfl

theorem run_sim (cs : List Cmd) : ∀ {s : St K V}, s.Ok →
    (run s cs).1.Ok ∧ (run s cs).1.view = (s.view.run cs).1 ∧ (run s cs).2 = (s.view.run cs).2 ∧
    (run s cs).1.spent ≤ s.spent + yields (run s cs).2 := by
  induction cs with
  | nil => intro s ok; exact ⟨ok, rfl, rfl, by simp [run]⟩
  | cons c cs ih =>
    intro s ok
    obtain ⟨h1, h2, h3, h4⟩ := step_sim ok c
    obtain ⟨i1, i2, i3, i4⟩ := ih h1
    refine ⟨i1, ?_, ?_, ?_⟩
    · simp only [run, Plain.run, i2, h2]
    · simp only [run, Plain.run, i3, h3, h2]
    · simp only [run]
      have : yields ((step s c).2 :: (run (step s c).1 cs).2) = gain (step s c).2 + yields (run (step s c).1 cs).2 := by
        cases (step s c).2 <;> simp [yields, gain] <;> omega
      rw [this]; omega

end IterKey
end Verif
