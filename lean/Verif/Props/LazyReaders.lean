import Verif.Lemmas.LazyReaders
import Verif.Props.LazyIter
/-!
# Several iterators and lookups on one lazily loaded tree: C97

`Visited.run` is any sequence of things that holders of a `&RadixTree` can do, interleaved turn by turn. `unloaded` (`Spec/CopyOnWrite.lean`) counts the vectors of the tree that are not loaded.
-/
namespace Verif.Cow
open Verif.Tree (Turn Iter Values Yields Canonical Valid KeysUpTo)
open Std

section
variable {K V : Type} [Ord K] [TransOrd K] [LawfulEqOrd K] [DecidableEq K]

/-- one thing that somebody does -/
theorem Inv.step {t : Tree K V} (ht : Valid t) {s : Visited K V} (h : Inv t s) (a : Look K) :
    Inv t (s.step a).res ∧ Grow s.root (s.step a).res.root ∧ Reads (s.step a).mem.loads (s.step a).mem ∧ (s.step a).mem.loads + unloaded (s.step a).res.root ≤ unloaded s.root := by
  obtain ⟨hp, hi, hv, hs, ha⟩ := h
  cases a with
  | iter =>
    refine ⟨⟨hp, fun r hr => ?_, hv, hs, ha⟩, Grow.refl _, .zero, by simp [Visited.step, Mem.zero]⟩
    rcases List.mem_append.1 hr with hr | hr
    · exact hi r hr
    · rw [List.mem_singleton.1 hr, ← hp]
      exact Follows.new s.root
  | values =>
    refine ⟨⟨hp, hi, fun r hr => ?_, hs, ha⟩, Grow.refl _, .zero, by simp [Visited.step, Mem.zero]⟩
    rcases List.mem_append.1 hr with hr | hr
    · exact hv r hr
    · rw [List.mem_singleton.1 hr, ← hp]
      exact ⟨_, Follows.new s.root, rfl⟩
  | turnIter i =>
    simp only [Visited.step]
    cases hg : s.iters[i]? with
    | none => exact ⟨⟨hp, hi, hv, hs, ha⟩, Grow.refl _, .zero, by simp [Mem.zero]⟩
    | some r =>
      have hr := hi r (List.mem_of_getElem? hg)
      obtain ⟨g, c1, c2⟩ := hr.cost
      refine ⟨⟨g.plain.trans hp, fun x hx => ?_, fun x hx => (hv x hx).mono g, fun x hx => (hs x hx).mono g, ha⟩, g, ⟨c1.1, c1.2.1, c1.2.2.1, Nat.le_refl _⟩, Nat.le_of_eq c2⟩
      rcases mem_set hx with rfl | hx
      · exact hr.step
      · exact (hi x hx).mono g
  | turnValues i =>
    simp only [Visited.step]
    cases hg : s.values[i]? with
    | none => exact ⟨⟨hp, hi, hv, hs, ha⟩, Grow.refl _, .zero, by simp [Mem.zero]⟩
    | some r =>
      obtain ⟨r', hr, e⟩ := hv r (List.mem_of_getElem? hg)
      obtain ⟨g, c1, c2⟩ := hr.cost
      obtain ⟨e1, e2, e3⟩ := FollowsV.turn (root := s.root) e
      refine ⟨⟨?_, fun x hx => ?_, fun x hx => ?_, fun x hx => ?_, ha⟩, ?_, ?_, ?_⟩
      · simp only [e2]; exact g.plain.trans hp
      · simp only [e2]; exact (hi x hx).mono g
      · simp only [e2]
        rcases mem_set hx with rfl | hx
        · exact ⟨_, hr.step, by rw [e1]; exact e3 _⟩
        · exact (hv x hx).mono g
      · simp only [e2]; exact (hs x hx).mono g
      · simp only [e2]; exact g
      · simp only [e1]; exact ⟨c1.1, c1.2.1, c1.2.2.1, Nat.le_refl _⟩
      · simp only [e1, e2]; exact Nat.le_of_eq c2
  | get k =>
    have hvr : Valid s.root.plain := hp ▸ ht
    obtain ⟨g1, g2, g3, _⟩ := C94_lookup s.root hvr k
    obtain ⟨p1, p2⟩ := get_parts s.root k
    have g : Grow s.root (s.root.get k).res.2 := by rw [p1]; exact findGo_grow _ _ _
    have hm : (s.step (.get k)).mem = (s.root.get k).mem := add_zero _
    refine ⟨⟨g2.trans hp, fun x hx => (hi x hx).mono g, fun x hx => (hv x hx).mono g, fun x hx => (hs x hx).mono g, fun x hx => ?_⟩, g, ?_, ?_⟩
    · rcases List.mem_append.1 hx with hx | hx
      · exact ha x hx
      · rw [List.mem_singleton.1 hx, ← hp]
        exact g1
    · rw [hm]
      exact ⟨Nat.le_zero.1 g3.copies, by have := g3.cloned; omega, Nat.le_zero.1 g3.fresh, Nat.le_refl _⟩
    · rw [hm]
      show (s.root.get k).mem.loads + unloaded (s.root.get k).res.2 ≤ _
      rw [p1, p2]
      exact findGo_loads _ _ _
  | scan p =>
    have hvr : Valid s.root.plain := hp ▸ ht
    have g : Grow s.root (findGo id (s.root.plain.size + 1) s.root p).res.2 := findGo_grow _ _ _
    obtain ⟨_, _, g3⟩ := find_plain (act := id) (fun _ => rfl) s.root hvr p
    refine ⟨⟨g.plain.trans hp, fun x hx => (hi x hx).mono g, fun x hx => (hv x hx).mono g, fun x hx => ?_, ha⟩, g, ⟨g3.1, g3.2.1, g3.2.2.1, Nat.le_refl _⟩, findGo_loads _ _ _⟩
    rcases List.mem_append.1 hx with hx | hx
    · exact (hs x hx).mono g
    · rw [List.mem_singleton.1 hx, ← hp]
      exact Scans.new s.root p
  | turnScan i =>
    simp only [Visited.step]
    cases hg : s.scans[i]? with
    | none => exact ⟨⟨hp, hi, hv, hs, ha⟩, Grow.refl _, .zero, by simp [Mem.zero]⟩
    | some r =>
      have hr := hs r (List.mem_of_getElem? hg)
      obtain ⟨g, c1, c2⟩ := hr.cost
      refine ⟨⟨g.plain.trans hp, fun x hx => (hi x hx).mono g, fun x hx => (hv x hx).mono g, fun x hx => ?_, ha⟩, g, ⟨c1.1, c1.2.1, c1.2.2.1, Nat.le_refl _⟩, Nat.le_of_eq c2⟩
      rcases mem_set hx with rfl | hx
      · exact hr.step
      · exact (hs x hx).mono g

/-- any number of things -/
theorem Inv.run {t : Tree K V} (ht : Valid t) : ∀ (as : List (Look K)) {s : Visited K V}, Inv t s →
    Inv t (s.run as).res ∧ Grow s.root (s.run as).res.root ∧ Reads (s.run as).mem.loads (s.run as).mem ∧ (s.run as).mem.loads + unloaded (s.run as).res.root ≤ unloaded s.root
  | [], s, h => ⟨h, Grow.refl _, .zero, by simp [Visited.run, Mem.zero]⟩
  | a :: as, s, h => by
    obtain ⟨h1, h2, h3, h4⟩ := h.step ht a
    obtain ⟨k1, k2, k3, k4⟩ := Inv.run ht as h1
    refine ⟨k1, h2.trans k2, ?_, ?_⟩
    · exact ⟨by show _ + _ = 0; rw [h3.1, k3.1], by show _ + _ = 0; rw [h3.2.1, k3.2.1], by show _ + _ = 0; rw [h3.2.2.1, k3.2.2.1], Nat.le_refl _⟩
    · show (s.step a).mem.loads + ((s.step a).res.run as).mem.loads + _ ≤ _
      have : ((s.step a).res.run as).mem.loads + unloaded ((s.step a).res.run as).res.root ≤ unloaded (s.step a).res.root := k4
      have e : (s.run (a :: as)).res = ((s.step a).res.run as).res := rfl
      rw [e]
      omega

omit [TransOrd K] [LawfulEqOrd K] in
theorem Inv.start (t : CTree K V) : Inv t.plain t.visit := ⟨rfl, by simp [CTree.visit], by simp [CTree.visit], by simp [CTree.visit], by simp [CTree.visit]⟩

/-- `scan_prefix` makes the iterator that it makes without laziness -/
theorem scanPrefix_plain (t : CTree K V) (ht : Valid t.plain) (p : List K) {it : Iter K V} (h : t.plain.scanPrefix p = .ret it) : (t.scanPrefix p).res.plain = it := by
  obtain ⟨h1, _, _⟩ := find_plain (act := id) (fun _ => rfl) t ht p
  obtain ⟨r, hr, _⟩ := Tree.find_eq ht p
  unfold Tree.scanPrefix at h
  unfold CTree.scanPrefix
  rw [hr] at h1 h
  simp only [bind_res]
  revert h1
  generalize (findGo id (t.plain.size + 1) t p).res.1 = f
  intro h1
  cases f with
  | found c =>
    cases r with
    | found t' => simp only [Like] at h1; cases h; subst h1; rfl
    | _ => exact h1.elim
  | «prefix» c k =>
    cases r with
    | «prefix» t' k' =>
      obtain ⟨rfl, rfl⟩ := h1
      cases h
      simp only [plain_pre]
      rfl
    | _ => exact h1.elim
  | notFound =>
    cases r with
    | notFound => cases h; rfl
    | _ => exact h1.elim

/-- what a reader has done, compared with what it would have done alone on a tree of which nothing is loaded -/
theorem Follows.bounds {t : Tree K V} (ht : Canonical t) {d : Nat} (hd : KeysUpTo d t) {root : CTree K V} {r : Reader (PIter K) (List K × V)} (h : Follows t root r) :
    r.turns ≤ 6 * r.out.length + 2 * (d + 1) ∧ r.loads ≤ 2 * r.out.length + d + 1 ∧
    ∀ all, Yields Iter.turn t.iter all → r.out <+: all ∧ (r.ended = true → r.out = all) := by
  obtain ⟨⟨m, s, h1, h2, h3, h4⟩, h5, h6⟩ := h
  have hp := opened_plain t
  obtain ⟨b1, b2, b3⟩ := (C95_iteration (opened t) (by rw [hp]; exact ht) d (by rw [hp]; exact hd)).1 _ _ _ _ h1
  refine ⟨b1, Nat.le_trans h4 b2.loads, fun all hy => ⟨b3 all (by rw [hp]; exact hy), fun he => ?_⟩⟩
  have e : (opened t).iter.plain = t.iter := by
    show (⟨(opened t).pre, [((opened t).plain, 0)]⟩ : Iter K V) = ⟨t.pre, [(t, 0)]⟩
    rw [hp, ← plain_pre, hp]
  obtain ⟨rest, e1, e2⟩ := h1.prefix_of turn_plain (e ▸ hy)
  have hs : s.stack = [] := by
    rw [h6 he] at h3
    cases hst : s.stack with
    | nil => rfl
    | cons f fs => rw [hst] at h3; cases h3
  have ht' : Iter.turn s.plain = .done := by
    unfold CIter.plain
    rw [hs]
    rfl
  cases e2 with
  | done _ => rw [e1, List.append_nil]
  | again h _ => rw [ht'] at h; cases h
  | yield h _ => rw [ht'] at h; cases h

/-- the same for an iterator made by `scan_prefix` -/
theorem Scans.bounds {t : Tree K V} (ht : Canonical t) {d : Nat} (hd : KeysUpTo d t) {root : CTree K V} {p : List K} {r : Reader (PIter K) (List K × V)} (h : Scans t root p r) :
    r.turns ≤ 6 * r.out.length + 2 * (d + 1) ∧ r.loads ≤ p.length + (2 * r.out.length + d + 1) ∧
    ∃ it, t.scanPrefix p = .ret it ∧ ∀ all, Yields Iter.turn it all → r.out <+: all ∧ (r.ended = true → r.out = all) := by
  obtain ⟨⟨m, s, h1, h2, h3, h4⟩, h6⟩ := h
  have hp := opened_plain t
  obtain ⟨it, e, hb⟩ := C95_scan_prefix (opened t) (by rw [hp]; exact ht) d (by rw [hp]; exact hd) p
  obtain ⟨b1, b2, b3⟩ := hb _ _ _ _ h1
  have hit : ((opened t).scanPrefix p).res.plain = it := scanPrefix_plain (opened t) (by rw [hp]; exact ht.1) p e
  rw [hp] at e
  refine ⟨b1, Nat.le_trans h4 b2.loads, it, e, fun all hy => ⟨b3 all hy, fun he => ?_⟩⟩
  obtain ⟨rest, e1, e2⟩ := h1.prefix_of turn_plain (hit ▸ hy)
  have hs : s.stack = [] := by
    rw [h6 he] at h3
    cases hst : s.stack with
    | nil => rfl
    | cons f fs => rw [hst] at h3; cases h3
  have ht' : Iter.turn s.plain = .done := by
    unfold CIter.plain
    rw [hs]
    rfl
  cases e2 with
  | done _ => rw [e1, List.append_nil]
  | again h _ => rw [ht'] at h; cases h
  | yield h _ => rw [ht'] at h; cases h

/-- **C97.** Any number of iterators over entries, over values and over the entries below a prefix, and lookups, on one tree (`KeysUpTo d`: its keys have at most `d` components), in any
interleaving: each iterator gives the beginning of the complete enumeration, all of it if it has ended, and the bounds of `C95_iteration` and `C95_scan_prefix` hold for each; lookups are answered from the contents of the tree, which do not change. All of them
together load no vector twice and none that was loaded already, copy nothing and create nothing. -/
theorem C97_together (t : CTree K V) (ht : Canonical t.plain) (d : Nat) (hd : KeysUpTo d t.plain) (as : List (Look K)) :
    (∀ r ∈ (t.visit.run as).res.iters, r.turns ≤ 6 * r.out.length + 2 * (d + 1) ∧ r.loads ≤ 2 * r.out.length + d + 1 ∧
      ∀ all, Yields Iter.turn t.plain.iter all → r.out <+: all ∧ (r.ended = true → r.out = all)) ∧
    (∀ r ∈ (t.visit.run as).res.values, r.turns ≤ 6 * r.out.length + 2 * (d + 1) ∧ r.loads ≤ 2 * r.out.length + d + 1 ∧
      ∀ all, Yields Iter.turn t.plain.iter all → r.out <+: all.map (·.2) ∧ (r.ended = true → r.out = all.map (·.2))) ∧
    (∀ x ∈ (t.visit.run as).res.scans, x.2.turns ≤ 6 * x.2.out.length + 2 * (d + 1) ∧ x.2.loads ≤ x.1.length + (2 * x.2.out.length + d + 1) ∧
      ∃ it, t.plain.scanPrefix x.1 = .ret it ∧ ∀ all, Yields Iter.turn it all → x.2.out <+: all ∧ (x.2.ended = true → x.2.out = all)) ∧
    (∀ a ∈ (t.visit.run as).res.answers, t.plain.get a.1 = .ret a.2) ∧
    (t.visit.run as).res.root.plain = t.plain ∧ Within 0 0 (unloaded t) 0 (t.visit.run as).mem ∧ (t.visit.run as).mem.loads + unloaded (t.visit.run as).res.root ≤ unloaded t := by
  obtain ⟨h1, _, h3, h4⟩ := (Inv.start t).run ht.1 as
  have h4 : (t.visit.run as).mem.loads + unloaded (t.visit.run as).res.root ≤ unloaded t := h4
  refine ⟨fun r hr => (h1.iters r hr).bounds ht hd, fun r hr => ?_, fun x hx => (h1.scans x hx).bounds ht hd, h1.answers, h1.plain,
    ⟨Nat.le_of_eq h3.1, by have := h3.2.1; omega, by omega, Nat.le_of_eq h3.2.2.1⟩, h4⟩
  obtain ⟨r', hf, rfl⟩ := h1.values r hr
  obtain ⟨b1, b2, b3⟩ := hf.bounds ht hd
  simp only [List.length_map]
  refine ⟨b1, b2, fun all hy => ⟨?_, fun he => by rw [(b3 all hy).2 he]⟩⟩
  obtain ⟨rest, e⟩ := (b3 all hy).1
  exact ⟨rest.map (·.2), by rw [← List.map_append, e]⟩

/-- **C97.** Once one iteration has been completed, all vectors of the tree are loaded, and whatever is done afterwards loads nothing (and copies and creates nothing). -/
theorem C97_all_loaded (t : CTree K V) (ht : Canonical t.plain) (as : List (Look K))
    (he : (∃ r ∈ (t.visit.run as).res.iters, r.ended = true) ∨ ∃ r ∈ (t.visit.run as).res.values, r.ended = true) :
    unloaded (t.visit.run as).res.root = 0 ∧ ∀ more, ((t.visit.run as).res.run more).mem = Mem.zero := by
  obtain ⟨h1, _, _, _⟩ := (Inv.start t).run ht.1 as
  have h0 : unloaded (t.visit.run as).res.root = 0 := by
    rcases he with ⟨r, hr, he⟩ | ⟨r, hr, he⟩
    · have f := h1.iters r hr
      have c := f.covered
      rw [f.ended he] at c
      exact c.nothing
    · obtain ⟨r', f, rfl⟩ := h1.values r hr
      have c := f.covered
      rw [f.ended he] at c
      exact c.nothing
  refine ⟨h0, fun more => ?_⟩
  obtain ⟨_, _, k3, k4⟩ := h1.run ht.1 more
  rw [h0] at k4
  have k5 : ((t.visit.run as).res.run more).mem.loads = 0 := by omega
  cases hm : ((t.visit.run as).res.run more).mem with
  | mk a b c e =>
    rw [hm] at k3 k5
    obtain ⟨e1, e2, e3, _⟩ := k3
    simp only at e1 e2 e3 k5
    rw [k5, e1, e2, e3]
    rfl

/-- how often the iterator number `i` takes a turn -/
def turnsOf (i : Nat) : List (Look K) → Nat
  | [] => 0
  | .turnIter j :: as => (if j = i then 1 else 0) + turnsOf i as
  | _ :: as => turnsOf i as

omit [TransOrd K] [LawfulEqOrd K] in
/-- an iterator that takes turns counts them, until it has ended -/
theorem turns_count (i : Nat) : ∀ (as : List (Look K)) (s : Visited K V) (r : Reader (PIter K) (List K × V)), s.iters[i]? = some r →
    ∃ r', (s.run as).res.iters[i]? = some r' ∧ (r.ended = true → r'.ended = true) ∧ (r'.ended = true ∨ r.turns + turnsOf i as ≤ r'.turns)
  | [], s, r, h => ⟨r, h, id, .inr (Nat.le_refl _)⟩
  | a :: as, s, r, h => by
    have key : ∃ r1, (s.step a).res.iters[i]? = some r1 ∧ (r.ended = true → r1.ended = true) ∧ (r1.ended = true ∨ r.turns + (turnsOf i (a :: as) - turnsOf i as) ≤ r1.turns) := by
      cases a with
      | iter =>
        refine ⟨r, ?_, id, .inr (by simp [turnsOf])⟩
        show (s.iters ++ _)[i]? = _
        rw [List.getElem?_append_left (List.getElem?_eq_some_iff.1 h).1, h]
      | values => exact ⟨r, h, id, .inr (by simp [turnsOf])⟩
      | turnValues j =>
        refine ⟨r, ?_, id, .inr (by simp [turnsOf])⟩
        simp only [Visited.step]
        cases s.values[j]? <;> exact h
      | get k => exact ⟨r, h, id, .inr (by simp [turnsOf])⟩
      | scan p => exact ⟨r, h, id, .inr (by simp [turnsOf])⟩
      | turnScan j =>
        refine ⟨r, ?_, id, .inr (by simp [turnsOf])⟩
        simp only [Visited.step]
        cases s.scans[j]? <;> exact h
      | turnIter j =>
        by_cases hj : j = i
        · subst hj
          refine ⟨r.after (r.it.turn s.root).res.2 (r.it.turn s.root).mem, ?_, ?_, ?_⟩
          · simp only [Visited.step, h]
            exact List.getElem?_set_self (List.getElem?_eq_some_iff.1 h).1
          · intro he
            cases (r.it.turn s.root).res.2 <;> simp [Reader.after, he]
          · cases (r.it.turn s.root).res.2 with
            | done => exact .inl rfl
            | again it => exact .inr (by simp [Reader.after, turnsOf])
            | yield x it => exact .inr (by simp [Reader.after, turnsOf])
        · refine ⟨r, ?_, id, .inr (by simp [turnsOf, hj])⟩
          simp only [Visited.step]
          cases s.iters[j]? with
          | none => exact h
          | some x => exact (List.getElem?_set_ne hj).trans h
    obtain ⟨r1, h1, h2, h3⟩ := key
    obtain ⟨r2, k1, k2, k3⟩ := turns_count i as (s.step a).res r1 h1
    refine ⟨r2, k1, fun he => k2 (h2 he), ?_⟩
    have hle : turnsOf i as ≤ turnsOf i (a :: as) := by cases a <;> simp [turnsOf]
    rcases h3 with h3 | h3
    · exact .inl (k2 h3)
    · rcases k3 with k3 | k3
      · exact .inl k3
      · exact .inr (by omega)

/-- **C97.** An iterator ends, whatever others do in between: after `6 n + 2 (d + 1) + 1` turns, where `n` is the number of entries, it has given all of them. -/
theorem C97_ends (t : CTree K V) (ht : Canonical t.plain) (d : Nat) (hd : KeysUpTo d t.plain) (all : List (List K × V)) (hy : Yields Iter.turn t.plain.iter all)
    (as more : List (Look K)) (i : Nat) (hi : i < (t.visit.run as).res.iters.length) (hm : 6 * all.length + 2 * (d + 1) < turnsOf i more) :
    ∃ r, ((t.visit.run as).res.run more).res.iters[i]? = some r ∧ r.ended = true ∧ r.out = all := by
  obtain ⟨r', h1, _, h3⟩ := turns_count i more (t.visit.run as).res _ (List.getElem?_eq_getElem hi)
  obtain ⟨k1, _, _, _⟩ := (Inv.start t).run ht.1 as
  obtain ⟨k1, _, _, _⟩ := k1.run ht.1 more
  obtain ⟨b1, _, b3⟩ := (k1.iters r' (List.mem_of_getElem? h1)).bounds ht hd
  obtain ⟨c1, c2⟩ := b3 all hy
  have := c1.length_le
  rcases h3 with h3 | h3
  · exact ⟨r', h1, h3, c2 h3⟩
  · omega

/-- how often the iterator over values number `i` takes a turn -/
def turnsOfV (i : Nat) : List (Look K) → Nat
  | [] => 0
  | .turnValues j :: as => (if j = i then 1 else 0) + turnsOfV i as
  | _ :: as => turnsOfV i as

omit [TransOrd K] [LawfulEqOrd K] in
/-- an iterator that takes turns counts them, until it has ended -/
theorem turns_countV (i : Nat) : ∀ (as : List (Look K)) (s : Visited K V) (r : Reader PValues V), s.values[i]? = some r →
    ∃ r', (s.run as).res.values[i]? = some r' ∧ (r.ended = true → r'.ended = true) ∧ (r'.ended = true ∨ r.turns + turnsOfV i as ≤ r'.turns)
  | [], s, r, h => ⟨r, h, id, .inr (Nat.le_refl _)⟩
  | a :: as, s, r, h => by
    have key : ∃ r1, (s.step a).res.values[i]? = some r1 ∧ (r.ended = true → r1.ended = true) ∧ (r1.ended = true ∨ r.turns + (turnsOfV i (a :: as) - turnsOfV i as) ≤ r1.turns) := by
      cases a with
      | values =>
        refine ⟨r, ?_, id, .inr (by simp [turnsOfV])⟩
        show (s.values ++ _)[i]? = _
        rw [List.getElem?_append_left (List.getElem?_eq_some_iff.1 h).1, h]
      | iter => exact ⟨r, h, id, .inr (by simp [turnsOfV])⟩
      | turnIter j =>
        refine ⟨r, ?_, id, .inr (by simp [turnsOfV])⟩
        simp only [Visited.step]
        cases s.iters[j]? <;> exact h
      | get k => exact ⟨r, h, id, .inr (by simp [turnsOfV])⟩
      | scan p => exact ⟨r, h, id, .inr (by simp [turnsOfV])⟩
      | turnScan j =>
        refine ⟨r, ?_, id, .inr (by simp [turnsOfV])⟩
        simp only [Visited.step]
        cases s.scans[j]? <;> exact h
      | turnValues j =>
        by_cases hj : j = i
        · subst hj
          refine ⟨r.after (r.it.turn s.root).res.2 (r.it.turn s.root).mem, ?_, ?_, ?_⟩
          · simp only [Visited.step, h]
            exact List.getElem?_set_self (List.getElem?_eq_some_iff.1 h).1
          · intro he
            cases (r.it.turn s.root).res.2 <;> simp [Reader.after, he]
          · cases (r.it.turn s.root).res.2 with
            | done => exact .inl rfl
            | again it => exact .inr (by simp [Reader.after, turnsOfV])
            | yield x it => exact .inr (by simp [Reader.after, turnsOfV])
        · refine ⟨r, ?_, id, .inr (by simp [turnsOfV, hj])⟩
          simp only [Visited.step]
          cases s.values[j]? with
          | none => exact h
          | some x => exact (List.getElem?_set_ne hj).trans h
    obtain ⟨r1, h1, h2, h3⟩ := key
    obtain ⟨r2, k1, k2, k3⟩ := turns_countV i as (s.step a).res r1 h1
    refine ⟨r2, k1, fun he => k2 (h2 he), ?_⟩
    have hle : turnsOfV i as ≤ turnsOfV i (a :: as) := by cases a <;> simp [turnsOfV]
    rcases h3 with h3 | h3
    · exact .inl (k2 h3)
    · rcases k3 with k3 | k3
      · exact .inl k3
      · exact .inr (by omega)

/-- **C97.** So does an iterator over values, whatever others do in between: after `6 n + 2 (d + 1) + 1` turns, where `n` is the number of entries, it has given all values. -/
theorem C97_ends_values (t : CTree K V) (ht : Canonical t.plain) (d : Nat) (hd : KeysUpTo d t.plain) (all : List (List K × V)) (hy : Yields Iter.turn t.plain.iter all)
    (as more : List (Look K)) (i : Nat) (hi : i < (t.visit.run as).res.values.length) (hm : 6 * all.length + 2 * (d + 1) < turnsOfV i more) :
    ∃ r, ((t.visit.run as).res.run more).res.values[i]? = some r ∧ r.ended = true ∧ r.out = all.map (·.2) := by
  obtain ⟨r', h1, _, h3⟩ := turns_countV i more (t.visit.run as).res _ (List.getElem?_eq_getElem hi)
  obtain ⟨k1, _, _, _⟩ := (Inv.start t).run ht.1 as
  obtain ⟨k1, _, _, _⟩ := k1.run ht.1 more
  obtain ⟨r'', hf, rfl⟩ := k1.values r' (List.mem_of_getElem? h1)
  obtain ⟨b1, _, b3⟩ := hf.bounds ht hd
  obtain ⟨c1, c2⟩ := b3 all hy
  have := c1.length_le
  rcases h3 with h3 | h3
  · exact ⟨_, h1, h3, by rw [c2 h3]⟩
  · simp only at h3; omega

/-- how often the iterator number `i` that `scan_prefix` has made takes a turn -/
def turnsOfS (i : Nat) : List (Look K) → Nat
  | [] => 0
  | .turnScan j :: as => (if j = i then 1 else 0) + turnsOfS i as
  | _ :: as => turnsOfS i as

omit [TransOrd K] [LawfulEqOrd K] in
/-- an iterator that takes turns counts them, until it has ended; its prefix does not change -/
theorem turns_countS (i : Nat) : ∀ (as : List (Look K)) (s : Visited K V) (p : List K) (r : Reader (PIter K) (List K × V)), s.scans[i]? = some (p, r) →
    ∃ r', (s.run as).res.scans[i]? = some (p, r') ∧ (r.ended = true → r'.ended = true) ∧ (r'.ended = true ∨ r.turns + turnsOfS i as ≤ r'.turns)
  | [], s, p, r, h => ⟨r, h, id, .inr (Nat.le_refl _)⟩
  | a :: as, s, p, r, h => by
    have key : ∃ r1, (s.step a).res.scans[i]? = some (p, r1) ∧ (r.ended = true → r1.ended = true) ∧ (r1.ended = true ∨ r.turns + (turnsOfS i (a :: as) - turnsOfS i as) ≤ r1.turns) := by
      cases a with
      | scan p' =>
        refine ⟨r, ?_, id, .inr (by simp [turnsOfS])⟩
        show (s.scans ++ _)[i]? = _
        rw [List.getElem?_append_left (List.getElem?_eq_some_iff.1 h).1, h]
      | iter => exact ⟨r, h, id, .inr (by simp [turnsOfS])⟩
      | values => exact ⟨r, h, id, .inr (by simp [turnsOfS])⟩
      | turnIter j =>
        refine ⟨r, ?_, id, .inr (by simp [turnsOfS])⟩
        simp only [Visited.step]
        cases s.iters[j]? <;> exact h
      | turnValues j =>
        refine ⟨r, ?_, id, .inr (by simp [turnsOfS])⟩
        simp only [Visited.step]
        cases s.values[j]? <;> exact h
      | get k => exact ⟨r, h, id, .inr (by simp [turnsOfS])⟩
      | turnScan j =>
        by_cases hj : j = i
        · subst hj
          refine ⟨r.after (r.it.turn s.root).res.2 (r.it.turn s.root).mem, ?_, ?_, ?_⟩
          · simp only [Visited.step, h]
            exact List.getElem?_set_self (List.getElem?_eq_some_iff.1 h).1
          · intro he
            cases (r.it.turn s.root).res.2 <;> simp [Reader.after, he]
          · cases (r.it.turn s.root).res.2 with
            | done => exact .inl rfl
            | again it => exact .inr (by simp [Reader.after, turnsOfS])
            | yield x it => exact .inr (by simp [Reader.after, turnsOfS])
        · refine ⟨r, ?_, id, .inr (by simp [turnsOfS, hj])⟩
          simp only [Visited.step]
          cases s.scans[j]? with
          | none => exact h
          | some x => exact (List.getElem?_set_ne hj).trans h
    obtain ⟨r1, h1, h2, h3⟩ := key
    obtain ⟨r2, k1, k2, k3⟩ := turns_countS i as (s.step a).res p r1 h1
    refine ⟨r2, k1, fun he => k2 (h2 he), ?_⟩
    have hle : turnsOfS i as ≤ turnsOfS i (a :: as) := by cases a <;> simp [turnsOfS]
    rcases h3 with h3 | h3
    · exact .inl (k2 h3)
    · rcases k3 with k3 | k3
      · exact .inl k3
      · exact .inr (by omega)

/-- **C97.** So does an iterator that `scan_prefix` has made, whatever others do in between: after `6 n + 2 (d + 1) + 1` turns, where `n` is the number of entries below the prefix,
it has given all of them. -/
theorem C97_ends_scan (t : CTree K V) (ht : Canonical t.plain) (d : Nat) (hd : KeysUpTo d t.plain) (p : List K) (it : Iter K V) (hp : t.plain.scanPrefix p = .ret it)
    (all : List (List K × V)) (hy : Yields Iter.turn it all)
    (as more : List (Look K)) (i : Nat) (r0 : Reader (PIter K) (List K × V)) (hi : (t.visit.run as).res.scans[i]? = some (p, r0)) (hm : 6 * all.length + 2 * (d + 1) < turnsOfS i more) :
    ∃ r, ((t.visit.run as).res.run more).res.scans[i]? = some (p, r) ∧ r.ended = true ∧ r.out = all := by
  obtain ⟨r', h1, _, h3⟩ := turns_countS i more (t.visit.run as).res p r0 hi
  obtain ⟨k1, _, _, _⟩ := (Inv.start t).run ht.1 as
  obtain ⟨k1, _, _, _⟩ := k1.run ht.1 more
  obtain ⟨b1, _, it', e, b3⟩ := (k1.scans _ (List.mem_of_getElem? h1)).bounds ht hd
  rw [hp] at e
  cases e
  obtain ⟨c1, c2⟩ := b3 all hy
  have := c1.length_le
  simp only at b1 c1 c2
  rcases h3 with h3 | h3
  · exact ⟨r', h1, h3, c2 h3⟩
  · simp only at this
    omega

end

/-! ### Cases -/

/-- Two iterators and a lookup on a tree of which nothing is loaded (four vectors), mixed: the lookup of `[1, 2, 5]` loads two vectors, the first iterator the other two; it has ended, the second has
given one value. -/
example : unloaded (opened demo.plain) = 4 ∧
    ((opened demo.plain).visit.run ([.iter, .values, .turnIter 0, .get [1, 2, 5], .turnValues 0] ++ List.replicate 20 (.turnIter 0) ++ [.turnValues 0, .turnValues 0])).mem.loads = 4 ∧
    ((opened demo.plain).visit.run ([.iter, .values, .turnIter 0, .get [1, 2, 5], .turnValues 0])).mem.loads = 2 ∧
    (((opened demo.plain).visit.run ([.iter, .values, .turnIter 0, .get [1, 2, 5], .turnValues 0] ++ List.replicate 20 (.turnIter 0) ++ [.turnValues 0, .turnValues 0])).res.iters.map
      fun r => (r.out, r.ended, r.loads)) = [([([1, 2], 'a'), ([1, 2, 5], 'b'), ([1, 3], 'c')], true, 2)] ∧
    (((opened demo.plain).visit.run ([.iter, .values, .turnIter 0, .get [1, 2, 5], .turnValues 0] ++ List.replicate 20 (.turnIter 0) ++ [.turnValues 0, .turnValues 0])).res.values.map
      fun r => (r.out, r.ended, r.loads)) = [(['a'], false, 0)] := by decide +kernel

/-- two iterators of `scan_prefix`, mixed with another one -/
example : (((opened demo.plain).visit.run ([.scan [1, 2], .iter, .turnIter 0, .scan [1, 2, 5], .turnIter 0, .turnScan 1] ++ List.replicate 9 (.turnScan 0) ++ List.replicate 9 (.turnScan 1))).res.scans.map
    fun x => (x.1, x.2.out, x.2.ended)) = [([1, 2], [([1, 2], 'a'), ([1, 2, 5], 'b')], true), ([1, 2, 5], [([1, 2, 5], 'b')], true)] := by decide +kernel

end Verif.Cow
