import Verif.Lemmas.CopyOnWriteOps
import Verif.Lemmas.RadixFind
import Verif.Lemmas.SharedRead
import Verif.Lemmas.CostMerge
/-! Loads of a lookup. -/
namespace Verif.Cow
open Verif.Tree (Valid hd commonPrefix)
open Std

section
variable {K V : Type}

/-- the same result, and in plain trees -/
def Like : Found K V → Call (Tree.FindResult K V) → Prop
  | .found c, .ret (.found t) => c.plain = t
  | .prefix c r, .ret (.prefix t r') => c.plain = t ∧ r = r'
  | .notFound, .ret (.notFound ..) => True
  | _, _ => False

/-- only loads, and at most `l` -/
def Reads (l : Nat) (m : Mem) : Prop := m.copies = 0 ∧ m.cloned = 0 ∧ m.fresh = 0 ∧ m.loads ≤ l

theorem Reads.zero {l : Nat} : Reads l Mem.zero := ⟨rfl, rfl, rfl, Nat.zero_le _⟩
theorem Reads.add {l l' : Nat} {m m' : Mem} (h : Reads l m) (h' : Reads l' m') : Reads (l + l') (m.add m') := by
  obtain ⟨a1, a2, a3, a4⟩ := h
  obtain ⟨b1, b2, b3, b4⟩ := h'
  refine ⟨?_, ?_, ?_, ?_⟩ <;> simp only [Mem.add] <;> omega
theorem Reads.mono {l l' : Nat} {m : Mem} (h : Reads l m) (hl : l ≤ l') : Reads l' m := ⟨h.1, h.2.1, h.2.2.1, Nat.le_trans h.2.2.2 hl⟩
theorem load_reads (t : CTree K V) : Reads 1 t.load.mem := by
  unfold CTree.load
  split
  · exact ⟨rfl, rfl, rfl, Nat.le_refl _⟩
  · exact .zero
theorem load_load (t : CTree K V) : t.load.res.load = pure t.load.res := load_done (load_held t)

variable [Ord K] [DecidableEq K]

/-- the search in the children that have been loaded -/
def scan (act : CTree K V → CTree K V) (fuel : Nat) (t : CTree K V) (p : List K) : Charged (Found K V × CTree K V) :=
  match binarySearchBy (fun q : List K => compare q.head? p[commonPrefix t.pre p]?) (t.kids.map CTree.pre) with
  | .found i =>
    match t.kids[i]? with
    | none => pure (.notFound, t)
    | some c => do
      let r ← findGo act fuel c (p.drop (commonPrefix t.pre p))
      pure (r.1, { t with kids := t.kids.set i r.2 })
  | .notFound _ => pure (.notFound, t)

theorem findGo_load (act : CTree K V → CTree K V) (fuel : Nat) (t : CTree K V) (p : List K) (h1 : ¬(p.length - commonPrefix t.pre p = 0 ∧ t.pre.length - commonPrefix t.pre p = 0))
    (h2 : ¬p.length - commonPrefix t.pre p = 0) (h3 : t.pre.length - commonPrefix t.pre p = 0) :
    findGo act (fuel + 1) t p = t.load >>= fun u => scan act fuel u p := by
  rw [findGo, if_neg h1, if_neg h2, if_pos h3]
  rfl

omit [Ord K] [DecidableEq K] in
theorem pure_bind' {α β : Type} (a : α) (f : α → Charged β) : (pure a >>= f) = f a := by
  show (⟨Mem.zero.add (f a).mem, (f a).res⟩ : Charged β) = f a
  rw [zero_add]

theorem findGo_pre (act : CTree K V → CTree K V) (ha : ∀ t, (act t).pre = t.pre) : ∀ fuel (t : CTree K V) (p : List K), (findGo act fuel t p).res.2.pre = t.pre := by
  intro fuel t p
  cases fuel with
  | zero => rfl
  | succ fuel =>
    by_cases h1 : p.length - commonPrefix t.pre p = 0 ∧ t.pre.length - commonPrefix t.pre p = 0
    · rw [findGo, if_pos h1]; exact ha t
    by_cases h2 : p.length - commonPrefix t.pre p = 0
    · rw [findGo, if_neg h1, if_pos h2]; exact ha t
    by_cases h3 : t.pre.length - commonPrefix t.pre p = 0
    · rw [findGo_load act fuel t p h1 h2 h3, bind_res, scan]
      cases binarySearchBy (fun q : List K => compare q.head? p[commonPrefix t.load.res.pre p]?) (t.load.res.kids.map CTree.pre) with
      | notFound i => exact load_pre t
      | found i =>
        simp only
        cases t.load.res.kids[i]? with
        | none => exact load_pre t
        | some c => exact load_pre t
    · rw [findGo, if_neg h1, if_neg h2, if_neg h3]; rfl

theorem findGo_again (fuel : Nat) : ∀ (t : CTree K V) (p : List K), findGo id fuel (findGo id fuel t p).res.2 p = pure (findGo id fuel t p).res := by
  induction fuel with
  | zero => intro t p; rfl
  | succ fuel ih =>
    intro t p
    by_cases h1 : p.length - commonPrefix t.pre p = 0 ∧ t.pre.length - commonPrefix t.pre p = 0
    · have e : findGo id (fuel + 1) t p = pure (.found t, t) := by rw [findGo, if_pos h1]; rfl
      rw [e]; exact e
    by_cases h2 : p.length - commonPrefix t.pre p = 0
    · have e : findGo id (fuel + 1) t p = pure (.prefix t (t.pre.length - commonPrefix t.pre p), t) := by rw [findGo, if_neg h1, if_pos h2]; rfl
      rw [e]; exact e
    by_cases h3 : t.pre.length - commonPrefix t.pre p = 0
    · have step : ∀ u : CTree K V, u.pre = t.pre → u.load = pure u → findGo id (fuel + 1) u p = scan id fuel u p := by
        intro u hu hl
        rw [findGo_load id fuel u p (by rw [hu]; exact h1) (by rw [hu]; exact h2) (by rw [hu]; exact h3), hl, pure_bind']
      rw [findGo_load id fuel t p h1 h2 h3, bind_res]
      have hp := load_pre t
      have hl := load_load t
      revert hp hl
      generalize t.load.res = u
      intro hp hl
      have hu := step u hp hl
      unfold scan at hu ⊢
      cases hs : binarySearchBy (fun q : List K => compare q.head? p[commonPrefix u.pre p]?) (u.kids.map CTree.pre) with
      | notFound i =>
        rw [hs] at hu
        exact hu
      | found i =>
        rw [hs] at hu
        simp only at hu ⊢
        cases hk : u.kids[i]? with
        | none => rw [hk] at hu; exact hu
        | some c =>
          simp only [bind_res, pure_res]
          have hi : i < u.kids.length := (List.getElem?_eq_some_iff.1 hk).1
          have hc : u.kids[i] = c := (List.getElem?_eq_some_iff.1 hk).2
          have hmap : (u.kids.set i (findGo id fuel c (p.drop (commonPrefix u.pre p))).res.2).map CTree.pre = u.kids.map CTree.pre := by
            rw [List.map_set, findGo_pre id (fun _ => rfl), ← hc]
            apply List.ext_getElem (by simp)
            intro j h1 h2
            rw [List.getElem_set]
            split
            · subst_vars; simp
            · rfl
          rw [step]
          · unfold scan
            simp only [hmap, hs, List.getElem?_set_self hi, ih, pure_bind', List.set_set]
          · exact hp
          · unfold CTree.load at hl ⊢
            cases hh : u.held with
            | raw => rw [hh] at hl; exact absurd (congrArg (fun x => x.mem.loads) hl) (by simp [pure, Mem.zero])
            | shared => rfl
            | own => rfl
    · have e : findGo id (fuel + 1) t p = pure (.notFound, t) := by rw [findGo, if_neg h1, if_neg h2, if_neg h3]
      rw [e]; exact e

theorem findGo_ok {act : CTree K V → CTree K V} (hact : ∀ t, (act t).plain = t.plain) : ∀ fuel (t : CTree K V) (p : List K), Valid t.plain → t.plain.size < fuel →
    Like (findGo act fuel t p).res.1 (Tree.findGo fuel t.plain p) ∧ (findGo act fuel t p).res.2.plain = t.plain ∧
    Reads p.length (findGo act fuel t p).mem ∧ (t.pre ≠ [] → Reads (p.length - 1) (findGo act fuel t p).mem) := by
  intro fuel
  induction fuel with
  | zero => intro t p _ h; omega
  | succ fuel ih =>
    intro t p hv hs
    rw [Tree.findGo]
    simp only [plain_pre]
    by_cases h1 : p.length - commonPrefix t.pre p = 0 ∧ t.pre.length - commonPrefix t.pre p = 0
    · rw [findGo, if_pos h1, if_pos h1]
      exact ⟨rfl, hact t, .zero, fun _ => .zero⟩
    rw [if_neg h1]
    by_cases h2 : p.length - commonPrefix t.pre p = 0
    · rw [findGo, if_neg h1, if_pos h2, if_pos h2]
      exact ⟨⟨rfl, rfl⟩, hact t, .zero, fun _ => .zero⟩
    rw [if_neg h2]
    by_cases h3 : t.pre.length - commonPrefix t.pre p = 0
    · rw [findGo_load act fuel t p h1 h2 h3, if_pos h3]
      have hla := Tree.commonPrefix_le_left t.pre p
      have hk : p[commonPrefix t.pre p]? = some p[commonPrefix t.pre p] := List.getElem?_eq_getElem (by omega)
      have hne : t.pre ≠ [] → 1 ≤ commonPrefix t.pre p := fun h => by have := List.length_pos_iff.2 h; omega
      simp only [bind_res, bind_mem, scan, load_pre, load_kids, hk, hv.kids.headed, if_true]
      have hb : binarySearchBy (fun e : Tree K V => compare e.pre.head? (some p[commonPrefix t.pre p])) t.plain.kids =
          binarySearchBy (fun q : List K => compare q.head? (some p[commonPrefix t.pre p])) (t.kids.map CTree.pre) := by
        rw [plain_kids, Shared.binarySearchBy_map, Shared.binarySearchBy_map]
        simp only [plain_pre]
      rw [hb]
      have hr := load_reads t
      have hc0 : Reads 1 (t.load.mem.add Mem.zero) := by rw [add_zero]; exact hr
      cases hbs : binarySearchBy (fun q : List K => compare q.head? (some p[commonPrefix t.pre p])) (t.kids.map CTree.pre) with
      | notFound i => exact ⟨trivial, load_plain t, hc0.mono (by omega), fun h => hc0.mono (by have := hne h; omega)⟩
      | found i =>
        simp only [plain_kids, List.getElem?_map]
        cases hki : t.kids[i]? with
        | none =>
          have := binarySearchBy_range (fun q : List K => compare q.head? (some p[commonPrefix t.pre p])) (t.kids.map CTree.pre)
          rw [hbs] at this
          simp only [List.length_map] at this
          exact absurd (List.getElem?_eq_none_iff.1 hki) (by omega)
        | some c =>
          have hi : i < t.kids.length := (List.getElem?_eq_some_iff.1 hki).1
          have hci : t.kids[i] = c := (List.getElem?_eq_some_iff.1 hki).2
          have hc : c.plain ∈ t.plain.kids := by rw [plain_kids]; exact List.mem_map_of_mem (List.mem_of_getElem? hki)
          obtain ⟨g1, g2, _, g4⟩ := ih c (p.drop (commonPrefix t.pre p)) (hv.kids.valid _ hc) (by have := Tree.kid_size hc; omega)
          have g4 := g4 (by have := hv.kids.ne _ hc; simpa using this)
          rw [List.length_drop] at g4
          simp only [Option.map_some, bind_res, bind_mem, pure_res, pure_mem, add_zero]
          refine ⟨g1, ?_, (hr.add g4).mono (by omega), fun h => (hr.add g4).mono (by have := hne h; omega)⟩
          rw [plain_eq, plain_eq t]
          simp only [load_pre, load_val]
          congr 1
          rw [List.map_set, g2, ← hci]
          apply List.ext_getElem (by simp)
          intro j h1 h2
          rw [List.getElem_set]
          split
          · subst_vars; simp
          · rfl
    · rw [findGo, if_neg h1, if_neg h2, if_neg h3, if_neg h3]
      exact ⟨trivial, rfl, .zero, fun _ => .zero⟩
end
end Verif.Cow
