import Verif.Model.LazyReaders
import Verif.Lemmas.LazyIter
import Verif.Lemmas.CopyOnWriteOnce
/-!
# Readers of one tree

A reader is compared with an iterator of its own on a tree of which nothing is loaded.
-/
namespace Verif.Cow
open Verif.Tree (Turn commonPrefix)
variable {K V : Type}

/-! ### Positions -/

theorem at_append (t : CTree K V) (q r : List Nat) : t.at (q ++ r) = (t.at q).bind (·.at r) := by
  induction q generalizing t with
  | nil => rfl
  | cons i q ih =>
    simp only [List.cons_append, CTree.at]
    cases t.kids[i]? with
    | none => rfl
    | some c => exact ih c

theorem at_plain {a b : CTree K V} (h : a.plain = b.plain) (q : List Nat) : (a.at q).map CTree.plain = (b.at q).map CTree.plain := by
  induction q generalizing a b with
  | nil => simp [CTree.at, h]
  | cons i q ih =>
    have hk : a.kids.map CTree.plain = b.kids.map CTree.plain := by rw [← plain_kids, ← plain_kids, h]
    have hi := congrArg (fun l : List (Tree K V) => l[i]?) hk
    simp only [List.getElem?_map] at hi
    simp only [CTree.at]
    cases ha : a.kids[i]? with
    | none =>
      rw [ha] at hi
      cases hb : b.kids[i]? with
      | none => rfl
      | some d => rw [hb] at hi; cases hi
    | some c =>
      rw [ha] at hi
      cases hb : b.kids[i]? with
      | none => rw [hb] at hi; cases hi
      | some d =>
        rw [hb] at hi
        exact ih (Option.some.inj hi)

/-- the second tree is the first one with more vectors loaded -/
structure Grow (a b : CTree K V) : Prop where
  plain : b.plain = a.plain
  raw : ∀ q u, b.at q = some u → u.held = .raw → ∃ v, a.at q = some v ∧ v.held = .raw

theorem Grow.refl (a : CTree K V) : Grow a a := ⟨rfl, fun _ u h hr => ⟨u, h, hr⟩⟩
theorem Grow.trans {a b c : CTree K V} (h : Grow a b) (h' : Grow b c) : Grow a c := by
  refine ⟨h'.plain.trans h.plain, fun q u hu hr => ?_⟩
  obtain ⟨v, hv, hvr⟩ := h'.raw q u hu hr
  exact h.raw q v hv hvr

/-- the node that is at a position afterwards -/
theorem Grow.at {a b : CTree K V} (h : Grow a b) {q : List Nat} {u : CTree K V} (hu : a.at q = some u) :
    ∃ u', b.at q = some u' ∧ u'.plain = u.plain ∧ (u'.held = .raw → u.held = .raw) := by
  have e := at_plain h.plain q
  rw [hu] at e
  cases hb : b.at q with
  | none => rw [hb] at e; cases e
  | some u' =>
    rw [hb] at e
    refine ⟨u', rfl, Option.some.inj e, fun hr => ?_⟩
    obtain ⟨v, hv, hvr⟩ := h.raw q u' hb hr
    rw [hu] at hv
    cases hv
    exact hvr

theorem Grow.load (t : CTree K V) : Grow t t.load.res := by
  refine ⟨load_plain t, fun q u hu hr => ?_⟩
  obtain ⟨p, v, hd, ks⟩ := t
  cases q with
  | nil => cases hd <;> (cases hu; first | (cases hr; done) | exact ⟨_, rfl, hr⟩)
  | cons i q => exact ⟨u, by cases hd <;> exact hu, hr⟩

/-- a child may be replaced by a version with more loaded -/
theorem Grow.set {t c d : CTree K V} {i : Nat} (hi : t.kids[i]? = some c) (h : Grow c d) : Grow t { t with kids := t.kids.set i d } := by
  constructor
  · rw [plain_eq, plain_eq t]
    simp only
    congr 1
    rw [List.map_set, h.plain]
    obtain ⟨hl, rfl⟩ := List.getElem?_eq_some_iff.1 hi
    apply List.ext_getElem (by simp)
    intro j h1 h2
    rw [List.getElem_set]
    split
    · subst_vars; simp
    · rfl
  · intro q u hu hr
    cases q with
    | nil => cases hu; exact ⟨_, rfl, hr⟩
    | cons j q =>
      simp only [CTree.at] at hu ⊢
      by_cases hj : i = j
      · subst hj
        rw [List.getElem?_set_self (List.getElem?_eq_some_iff.1 hi).1] at hu
        rw [hi]
        exact h.raw q u hu hr
      · rw [List.getElem?_set_ne hj] at hu
        cases hk : t.kids[j]? with
        | none => rw [hk] at hu; cases hu
        | some c' => rw [hk] at hu; exact ⟨u, hu, hr⟩

/-- loading a node that is in the tree -/
theorem loadAt_ok (t : CTree K V) (q : List Nat) {u : CTree K V} (hu : t.at q = some u) :
    Grow t (t.loadAt q).res ∧ (t.loadAt q).res.at q = some u.load.res ∧ (t.loadAt q).mem = u.load.mem ∧ (t.loadAt q).mem.loads + unloaded (t.loadAt q).res = unloaded t := by
  induction q generalizing t with
  | nil =>
    simp only [CTree.at, Option.some.injEq] at hu
    subst hu
    refine ⟨Grow.load t, rfl, rfl, ?_⟩
    show t.load.mem.loads + unloaded t.load.res = unloaded t
    obtain ⟨p, v, hd, ks⟩ := t
    cases hd <;> simp [CTree.load, unloaded, Mem.zero]
  | cons i q ih =>
    simp only [CTree.at] at hu
    simp only [CTree.loadAt]
    cases hc : t.kids[i]? with
    | none => rw [hc] at hu; cases hu
    | some c =>
      rw [hc] at hu
      obtain ⟨h1, h2, h3, h4⟩ := ih c hu
      simp only [bind_res, bind_mem, pure_res, pure_mem, add_zero]
      refine ⟨Grow.set hc h1, ?_, h3, ?_⟩
      · simp only [CTree.at, List.getElem?_set_self (List.getElem?_eq_some_iff.1 hc).1]
        exact h2
      · have key : ∀ (l : List (CTree K V)) (j : Nat), l[j]? = some c → (c.loadAt q).mem.loads + unloadeds (l.set j (c.loadAt q).res) = unloadeds l := by
          intro l
          induction l with
          | nil => intro j h; cases j <;> cases h
          | cons x xs ihl =>
            intro j h
            cases j with
            | zero => cases h; rw [List.set_cons_zero, unloadeds, unloadeds]; omega
            | succ j =>
              have := ihl j (by simpa using h)
              rw [List.set_cons_succ, unloadeds, unloadeds]; omega
        have := key t.kids i hc
        obtain ⟨p, v, hd, ks⟩ := t
        simp only [unloaded] at this ⊢
        omega

/-! ### A reader and an iterator of its own -/

theorem openeds_eq : ∀ (l : List (Tree K V)), openeds l = l.map opened
  | [] => rfl
  | c :: cs => by rw [openeds, openeds_eq cs]; rfl
theorem opened_eq (t : Tree K V) : opened t = ⟨t.pre, t.val, .raw, t.kids.map opened⟩ := by cases t; rw [opened, openeds_eq]

mutual
theorem opened_plain : ∀ (t : Tree K V), (opened t).plain = t
  | ⟨p, v, ks⟩ => by rw [opened, CTree.plain, openeds_plain ks]
theorem openeds_plain : ∀ (l : List (Tree K V)), plains (openeds l) = l
  | [] => rfl
  | c :: cs => by rw [openeds, plains, opened_plain c, openeds_plain cs]
end

/-- the node with its own vector loaded, and no other -/
def loaded (t : Tree K V) : CTree K V := { opened t with held := .own }

/-- an entry of the stack, and that of an iterator on a tree of which nothing was loaded: if the node is not loaded, then the iterator has not loaded it either -/
structure Same (root : CTree K V) (e : List Nat × Nat) (f : CTree K V × Nat) : Prop where
  pos : f.2 = e.2
  node : ∃ u, root.at e.1 = some u ∧ (f.1 = opened u.plain ∨ f.1 = loaded u.plain ∧ u.held ≠ .raw)

/-- all entries -/
inductive Sames (root : CTree K V) : List (List Nat × Nat) → List (CTree K V × Nat) → Prop
  | nil : Sames root [] []
  | cons {e f es fs} : Same root e f → Sames root es fs → Sames root (e :: es) (f :: fs)

theorem Same.mono {a b : CTree K V} (h : Grow a b) {e : List Nat × Nat} {f : CTree K V × Nat} (hs : Same a e f) : Same b e f := by
  obtain ⟨hp, u, hu, hc⟩ := hs
  obtain ⟨u', h1, h2, h3⟩ := h.at hu
  refine ⟨hp, u', h1, ?_⟩
  rw [h2]
  exact hc.imp_right fun ⟨e, hn⟩ => ⟨e, fun hr => hn (h3 hr)⟩
theorem Sames.mono {a b : CTree K V} (h : Grow a b) {es : List (List Nat × Nat)} {fs : List (CTree K V × Nat)} (hs : Sames a es fs) : Sames b es fs := by
  induction hs with
  | nil => exact .nil
  | cons h1 _ ih => exact .cons (h1.mono h) ih

/-- an entry of the stack is responsible for what it has still to visit -/
def Covers : List Nat × Nat → List Nat → Prop
  | (q, 0), x => ∃ r, x = q ++ r
  | (q, p + 1), x => x = q ∨ ∃ i r, p ≤ i ∧ x = q ++ i :: r

/-- whatever is not loaded is still to be visited -/
def Covered (root : CTree K V) (stack : List (List Nat × Nat)) : Prop :=
  ∀ x u, root.at x = some u → u.held = .raw → ∃ e ∈ stack, Covers e x

theorem Covered.mono {a b : CTree K V} (h : Grow a b) {stack : List (List Nat × Nat)} (hc : Covered a stack) : Covered b stack := by
  intro x u hu hr
  obtain ⟨v, hv, hvr⟩ := h.raw x u hu hr
  exact hc x v hv hvr

/-- a reader that has ended has left nothing unloaded -/
theorem Covered.nothing {root : CTree K V} (h : Covered root []) : unloaded root = 0 := by
  have key : ∀ n (t : CTree K V), t.plain.size ≤ n → (∀ x u, t.at x = some u → u.held ≠ .raw) → unloaded t = 0 := by
    intro n
    induction n with
    | zero => intro t hs _; cases ht : t.plain; rw [ht, Tree.size] at hs; omega
    | succ n ih =>
      intro t hs hx
      rw [unloaded_eq, if_neg (hx [] t rfl)]
      have : ∀ l : List (CTree K V), (∀ c ∈ l, unloaded c = 0) → sumBy unloaded l = 0 := by
        intro l
        induction l with
        | nil => intro _; rfl
        | cons c cs ihl =>
          intro hl
          rw [sumBy, hl c (by simp), ihl fun d hd => hl d (by simp [hd])]
      rw [this]
      intro c hc
      obtain ⟨i, hi⟩ := List.getElem?_of_mem hc
      refine ih c ?_ fun x u hu => hx (i :: x) u (by simp only [CTree.at, hi]; exact hu)
      have := Tree.kid_size (t := t.plain) (x := c.plain) (by rw [plain_kids]; exact List.mem_map_of_mem hc)
      omega
  refine key _ root (Nat.le_refl _) fun x u hu hr => ?_
  obtain ⟨e, he, _⟩ := h x u hu hr
  cases he

/-- what a turn of a reader does, in terms of a turn of the iterator of its own -/
structure TurnOk (root : CTree K V) (stack : List (List Nat × Nat)) (r : Charged (CTree K V × Turn (PIter K) (List K × V))) (s : CIter K V) : Prop where
  grow : Grow root r.res.1
  less : r.mem.loads ≤ s.turn.mem.loads
  reads : Reads 1 r.mem
  account : r.mem.loads + unloaded r.res.1 = unloaded root
  turn : match r.res.2 with
    | .done => stack = []
    | .again it => ∃ s', s.turn.res = .again s' ∧ it.path = s'.path ∧ Sames r.res.1 it.stack s'.stack ∧ (Covered root stack → Covered r.res.1 it.stack)
    | .yield x it => ∃ s', s.turn.res = .yield x s' ∧ it.path = s'.path ∧ Sames r.res.1 it.stack s'.stack ∧ (Covered root stack → Covered r.res.1 it.stack)

theorem turn_ok (root : CTree K V) (it : PIter K) (s : CIter K V) (hp : it.path = s.path) (hs : Sames root it.stack s.stack) : TurnOk root it.stack (it.turn root) s := by
  obtain ⟨path, stack⟩ := it
  obtain ⟨path', stack'⟩ := s
  cases hp
  cases hs with
  | nil => exact ⟨Grow.refl _, Nat.le_refl _, .zero, by simp [PIter.turn, Mem.zero], rfl⟩
  | @cons e f es fs h1 hr =>
    obtain ⟨q, pos⟩ := e
    obtain ⟨t, pos'⟩ := f
    obtain ⟨hpos, u, hu, hc⟩ := h1
    cases hpos
    have hval : t.val = u.val := by rcases hc with rfl | ⟨rfl, _⟩ <;> simp [loaded, opened_eq]
    have hpre : t.pre = u.pre := by rcases hc with rfl | ⟨rfl, _⟩ <;> simp [loaded, opened_eq]
    cases pos with
    | zero =>
      have first : Covered root ((q, 0) :: es) → Covered root ((q, 1) :: es) := by
        intro hcov x w hw hwr
        obtain ⟨e, he, hx⟩ := hcov x w hw hwr
        rcases List.mem_cons.1 he with rfl | he
        · refine ⟨(q, 1), by simp, ?_⟩
          obtain ⟨r, rfl⟩ := hx
          cases r with
          | nil => exact .inl (List.append_nil q)
          | cons i r => exact .inr ⟨i, r, Nat.zero_le _, rfl⟩
        · exact ⟨e, by simp [he], hx⟩
      have hs1 : Sames root ((q, 1) :: es) ((t, 1) :: fs) := .cons ⟨rfl, u, hu, hc⟩ hr
      cases hv : u.val with
      | none =>
        have e : PIter.turn root ⟨path, (q, 0) :: es⟩ = pure (root, .again ⟨path, (q, 1) :: es⟩) := by simp [PIter.turn, hu, hv]
        have e' : CIter.turn ⟨path, (t, 0) :: fs⟩ = pure (.again ⟨path, (t, 1) :: fs⟩) := by simp [CIter.turn, hval, hv]
        rw [e]
        refine ⟨Grow.refl _, by rw [e']; exact Nat.le_refl _, .zero, by simp [Mem.zero], ?_⟩
        rw [e']
        exact ⟨_, rfl, rfl, hs1, first⟩
      | some v =>
        have e : PIter.turn root ⟨path, (q, 0) :: es⟩ = pure (root, .yield (path, v) ⟨path, (q, 1) :: es⟩) := by simp [PIter.turn, hu, hv]
        have e' : CIter.turn ⟨path, (t, 0) :: fs⟩ = pure (.yield (path, v) ⟨path, (t, 1) :: fs⟩) := by simp [CIter.turn, hval, hv]
        rw [e]
        refine ⟨Grow.refl _, by rw [e']; exact Nat.le_refl _, .zero, by simp [Mem.zero], ?_⟩
        rw [e']
        exact ⟨_, rfl, rfl, hs1, first⟩
    | succ pos =>
      obtain ⟨l1, l2, l3, l4⟩ := loadAt_ok root q hu
      have hl : t.load.res = loaded u.plain := by rcases hc with rfl | ⟨rfl, _⟩ <;> simp [loaded, opened_eq, CTree.load]
      have hm : u.load.mem.loads ≤ t.load.mem.loads := by
        rcases hc with rfl | ⟨rfl, hn⟩
        · rw [opened_eq]
          cases hd : u.held <;> simp [CTree.load, hd, Mem.zero]
        · cases hd : u.held <;> first | exact absurd hd hn | simp [CTree.load, hd, Mem.zero]
      have hur : u.load.res.held ≠ .raw := by cases hd : u.held <;> simp [CTree.load, hd]
      have hup : u.load.res.plain = u.plain := load_plain u
      have hkid : t.load.res.kids[pos]? = (u.kids[pos]?).map fun c => opened c.plain := by
        rw [hl]
        have : (loaded u.plain).kids = (u.kids.map CTree.plain).map opened := by rw [← plain_kids]; cases u.plain; simp [loaded, opened, openeds_eq]
        rw [this, List.getElem?_map, List.getElem?_map, Option.map_map]
        rfl
      have hlp : t.load.res.pre = u.pre := by rw [hl]; simp [loaded, opened_eq]
      cases hk : u.kids[pos]? with
      | none =>
        rw [hk] at hkid
        have e : PIter.turn root ⟨path, (q, pos + 1) :: es⟩ = ⟨(root.loadAt q).mem, ((root.loadAt q).res, .again ⟨path.take (path.length - u.pre.length), es⟩)⟩ := by
          simp [PIter.turn, hu, hk, bind, pure, add_zero]
        have e' : CIter.turn ⟨path, (t, pos + 1) :: fs⟩ = ⟨t.load.mem, .again ⟨path.take (path.length - u.pre.length), fs⟩⟩ := by
          simp only [CIter.turn, bind, hkid, Option.map_none, pure, add_zero, hlp]
        rw [e]
        refine ⟨l1, by rw [e', l3]; exact hm, by rw [l3]; exact load_reads u, l4, ?_⟩
        rw [e']
        refine ⟨_, rfl, rfl, hr.mono l1, fun hcov x w hw hwr => ?_⟩
        obtain ⟨e, he, hx⟩ := (hcov.mono l1) x w hw hwr
        rcases List.mem_cons.1 he with rfl | he
        · exfalso
          rcases hx with rfl | ⟨i, r, hi, rfl⟩
          · rw [l2] at hw; cases hw; exact hur hwr
          · rw [at_append, l2] at hw
            simp only [Option.bind_some, CTree.at, load_kids] at hw
            have : u.kids[i]? = none := List.getElem?_eq_none_iff.2 (by have := List.getElem?_eq_none_iff.1 hk; omega)
            rw [this] at hw
            cases hw
        · exact ⟨e, he, hx⟩
      | some c =>
        rw [hk] at hkid
        have e : PIter.turn root ⟨path, (q, pos + 1) :: es⟩ =
            ⟨(root.loadAt q).mem, ((root.loadAt q).res, .again ⟨path ++ c.pre, (q ++ [pos], 0) :: (q, pos + 2) :: es⟩)⟩ := by
          simp [PIter.turn, hu, hk, bind, pure, add_zero]
        have e' : CIter.turn ⟨path, (t, pos + 1) :: fs⟩ = ⟨t.load.mem, .again ⟨path ++ c.pre, (opened c.plain, 0) :: (loaded u.plain, pos + 2) :: fs⟩⟩ := by
          have hop : (opened c.plain).pre = c.pre := by simp [opened_eq]
          rw [hl] at hkid
          simp only [CIter.turn, bind, hl, hkid, Option.map_some, pure, add_zero, hop]
        rw [e]
        refine ⟨l1, by rw [e', l3]; exact hm, by rw [l3]; exact load_reads u, l4, ?_⟩
        rw [e']
        refine ⟨_, rfl, rfl, ?_, fun hcov x w hw hwr => ?_⟩
        · refine .cons ⟨rfl, c, ?_, .inl rfl⟩ (.cons ⟨rfl, _, l2, .inr ⟨by rw [hup], hur⟩⟩ (hr.mono l1))
          simp only
          rw [at_append, l2]
          simp [CTree.at, load_kids, hk]
        · obtain ⟨e, he, hx⟩ := (hcov.mono l1) x w hw hwr
          rcases List.mem_cons.1 he with rfl | he
          · rcases hx with rfl | ⟨i, r, hi, rfl⟩
            · exfalso
              rw [l2] at hw; cases hw; exact hur hwr
            · by_cases hip : i = pos
              · subst hip
                exact ⟨(q ++ [i], 0), by simp, r, by simp⟩
              · exact ⟨(q, pos + 2), by simp, .inr ⟨i, r, by omega, rfl⟩⟩
          · exact ⟨e, by simp [he], hx⟩

/-! ### `values()` -/

/-- without the path -/
def forget : Turn (PIter K) (List K × V) → Turn PValues V
  | .done => .done
  | .again it => .again ⟨it.stack⟩
  | .yield x it => .yield x.2 ⟨it.stack⟩

theorem values_turn (root : CTree K V) (it : PIter K) : PValues.turn root ⟨it.stack⟩ = ⟨(it.turn root).mem, ((it.turn root).res.1, forget (it.turn root).res.2)⟩ := by
  obtain ⟨path, stack⟩ := it
  cases stack with
  | nil => rfl
  | cons e es =>
    obtain ⟨q, pos⟩ := e
    cases hu : root.at q with
    | none => simp [PValues.turn, PIter.turn, hu, forget, pure]
    | some u =>
      cases pos with
      | zero => cases hv : u.val <;> simp [PValues.turn, PIter.turn, hu, hv, forget, pure]
      | succ pos => cases hk : u.kids[pos]? <;> simp [PValues.turn, PIter.turn, hu, hk, forget, pure, bind]

/-! ### Lookups -/

section
variable [Ord K] [DecidableEq K]

theorem findGo_grow : ∀ fuel (t : CTree K V) (p : List K), Grow t (findGo id fuel t p).res.2 := by
  intro fuel
  induction fuel with
  | zero => intro t p; exact Grow.refl t
  | succ fuel ih =>
    intro t p
    by_cases h1 : p.length - commonPrefix t.pre p = 0 ∧ t.pre.length - commonPrefix t.pre p = 0
    · rw [findGo, if_pos h1]; exact Grow.refl t
    by_cases h2 : p.length - commonPrefix t.pre p = 0
    · rw [findGo, if_neg h1, if_pos h2]; exact Grow.refl t
    by_cases h3 : t.pre.length - commonPrefix t.pre p = 0
    · rw [findGo_load id fuel t p h1 h2 h3]
      refine (Grow.load t).trans ?_
      simp only [bind_res]
      generalize t.load.res = u
      unfold scan
      cases binarySearchBy (fun q : List K => compare q.head? p[commonPrefix u.pre p]?) (u.kids.map CTree.pre) with
      | notFound i => exact Grow.refl u
      | found i =>
        simp only
        cases hk : u.kids[i]? with
        | none => exact Grow.refl u
        | some c => exact Grow.set hk (ih c _)
    · rw [findGo, if_neg h1, if_neg h2, if_neg h3]; exact Grow.refl t

/-- the node at the position found -/
def Spot.node (t : CTree K V) : Spot → Found K V
  | .found q => match t.at q with
    | some c => .found c
    | none => .notFound
  | .prefix q rt => match t.at q with
    | some c => .prefix c rt
    | none => .notFound
  | .notFound => .notFound

omit [Ord K] [DecidableEq K] in
theorem Spot.node_below {t c : CTree K V} {i : Nat} (h : t.kids[i]? = some c) (s : Spot) : (s.below i).node t = s.node c := by
  cases s <;> simp [Spot.below, Spot.node, CTree.at, h]

/-- `findGo` finds the node that `locate` finds -/
theorem findGo_locate : ∀ fuel (t : CTree K V) (p : List K), (findGo id fuel t p).res.1 = (locate fuel t p).node t := by
  intro fuel
  induction fuel with
  | zero => intro t p; rfl
  | succ fuel ih =>
    intro t p
    by_cases h1 : p.length - commonPrefix t.pre p = 0 ∧ t.pre.length - commonPrefix t.pre p = 0
    · rw [findGo, locate, if_pos h1, if_pos h1]; rfl
    by_cases h2 : p.length - commonPrefix t.pre p = 0
    · rw [findGo, locate, if_neg h1, if_pos h2, if_neg h1, if_pos h2]; rfl
    by_cases h3 : t.pre.length - commonPrefix t.pre p = 0
    · rw [findGo, locate, if_neg h1, if_neg h2, if_pos h3, if_neg h1, if_neg h2, if_pos h3]
      simp only [bind_res, load_kids, load_pre]
      cases binarySearchBy (fun q : List K => compare q.head? p[commonPrefix t.pre p]?) (t.kids.map CTree.pre) with
      | notFound i => rfl
      | found i =>
        simp only
        cases hk : t.kids[i]? with
        | none => rfl
        | some c =>
          simp only [bind_res, pure_res]
          rw [Spot.node_below hk, ih]
    · rw [findGo, locate, if_neg h1, if_neg h2, if_neg h3, if_neg h1, if_neg h2, if_neg h3]; rfl

/-- it depends on the contents only -/
theorem locate_plain : ∀ fuel {a b : CTree K V} (_ : a.plain = b.plain) (p : List K), locate fuel a p = locate fuel b p := by
  intro fuel
  induction fuel with
  | zero => intro a b _ p; rfl
  | succ fuel ih =>
    intro a b h p
    have hp : a.pre = b.pre := by rw [← plain_pre, ← plain_pre, h]
    have hk : a.kids.map CTree.plain = b.kids.map CTree.plain := by rw [← plain_kids, ← plain_kids, h]
    have hkp : a.kids.map CTree.pre = b.kids.map CTree.pre := by
      have := congrArg (List.map Tree.pre) hk
      simpa only [List.map_map, Function.comp_def, plain_pre] using this
    rw [locate, locate, hp, hkp]
    cases binarySearchBy (fun q : List K => compare q.head? p[commonPrefix b.pre p]?) (b.kids.map CTree.pre) with
    | notFound i => rfl
    | found i =>
      have hi := congrArg (fun l : List (Tree K V) => l[i]?) hk
      simp only [List.getElem?_map] at hi
      cases ha : a.kids[i]? with
      | none =>
        rw [ha] at hi
        cases hb : b.kids[i]? with
        | none => simp only [ha, hb]
        | some d => rw [hb] at hi; cases hi
      | some c =>
        rw [ha] at hi
        cases hb : b.kids[i]? with
        | none => rw [hb] at hi; cases hi
        | some d =>
          rw [hb] at hi
          simp only [ha, hb]
          rw [ih (Option.some.inj hi)]

theorem opened_kids (t : CTree K V) : (opened t.plain).kids = t.kids.map fun c => opened c.plain := by
  rw [opened_eq]
  show t.plain.kids.map opened = _
  rw [plain_kids, List.map_map]
  rfl

theorem opened_at (t : CTree K V) (q : List Nat) : (opened t.plain).at q = (t.at q).map fun c => opened c.plain := by
  induction q generalizing t with
  | nil => rfl
  | cons i q ih =>
    simp only [CTree.at, opened_kids, List.getElem?_map]
    cases t.kids[i]? with
    | none => rfl
    | some c => exact ih c

/-- the search loads at least as much if nothing is loaded -/
theorem findGo_less : ∀ fuel (t : CTree K V) (p : List K), (findGo id fuel t p).mem.loads ≤ (findGo id fuel (opened t.plain) p).mem.loads := by
  intro fuel
  induction fuel with
  | zero => intro t p; exact Nat.le_refl _
  | succ fuel ih =>
    intro t p
    have hp : (opened t.plain).pre = t.pre := by rw [opened_eq, plain_pre]
    by_cases h1 : p.length - commonPrefix t.pre p = 0 ∧ t.pre.length - commonPrefix t.pre p = 0
    · rw [findGo, if_pos h1]; exact Nat.zero_le _
    by_cases h2 : p.length - commonPrefix t.pre p = 0
    · rw [findGo, if_neg h1, if_pos h2]; exact Nat.zero_le _
    by_cases h3 : t.pre.length - commonPrefix t.pre p = 0
    · have hl : t.load.mem.loads ≤ (opened t.plain).load.mem.loads := by
        rw [opened_eq]
        cases hd : t.held <;> simp [CTree.load, hd, Mem.zero]
      have hkp : (opened t.plain).kids.map CTree.pre = t.kids.map CTree.pre := by
        rw [opened_kids, List.map_map]
        refine List.map_congr_left fun c _ => ?_
        simp [opened_eq, plain_pre]
      rw [findGo, findGo, hp]
      rw [if_neg h1, if_neg h2, if_pos h3, if_neg h1, if_neg h2, if_pos h3]
      simp only [bind_mem, bind_res, load_kids, load_pre, hp, hkp]
      refine Nat.add_le_add hl ?_
      cases binarySearchBy (fun q : List K => compare q.head? p[commonPrefix t.pre p]?) (t.kids.map CTree.pre) with
      | notFound i => exact Nat.zero_le _
      | found i =>
        simp only [opened_kids, List.getElem?_map]
        cases hk : t.kids[i]? with
        | none => exact Nat.zero_le _
        | some c =>
          simp only [Option.map_some, bind_mem, pure_mem, add_zero]
          exact ih c _
    · rw [findGo, if_neg h1, if_neg h2, if_neg h3]; exact Nat.zero_le _

theorem get_parts (t : CTree K V) (k : List K) : (t.get k).res.2 = (findGo id (t.plain.size + 1) t k).res.2 ∧ (t.get k).mem = (findGo id (t.plain.size + 1) t k).mem := by
  constructor
  · unfold CTree.get
    simp only [bind_res]
    split <;> rfl
  · unfold CTree.get
    simp only [bind_mem]
    split <;> exact add_zero _

/-! ### All readers -/

/-- what is known about an iterator on a tree with the contents `t` -/
structure Follows (t : Tree K V) (root : CTree K V) (r : Reader (PIter K) (List K × V)) : Prop where
  own : ∃ m s, Run CIter.turn (opened t).iter r.turns r.out m s ∧ r.it.path = s.path ∧ Sames root r.it.stack s.stack ∧ r.loads ≤ m.loads
  covered : Covered root r.it.stack
  ended : r.ended = true → r.it.stack = []

/-- about an iterator of values -/
def FollowsV (t : Tree K V) (root : CTree K V) (r : Reader PValues V) : Prop :=
  ∃ r' : Reader (PIter K) (List K × V), Follows t root r' ∧ r = ⟨⟨r'.it.stack⟩, r'.out.map (·.2), r'.ended, r'.turns, r'.loads⟩

theorem Follows.mono {t : Tree K V} {a b : CTree K V} {r : Reader (PIter K) (List K × V)} (h : Follows t a r) (g : Grow a b) : Follows t b r := by
  obtain ⟨⟨m, s, h1, h2, h3, h4⟩, h5, h6⟩ := h
  exact ⟨⟨m, s, h1, h2, h3.mono g, h4⟩, h5.mono g, h6⟩
theorem FollowsV.mono {t : Tree K V} {a b : CTree K V} {r : Reader PValues V} (h : FollowsV t a r) (g : Grow a b) : FollowsV t b r := by
  obtain ⟨r', h1, h2⟩ := h
  exact ⟨r', h1.mono g, h2⟩

/-- one turn of a reader -/
theorem Follows.step {t : Tree K V} {root : CTree K V} {r : Reader (PIter K) (List K × V)} (h : Follows t root r) :
    Follows t (r.it.turn root).res.1 (r.after (r.it.turn root).res.2 (r.it.turn root).mem) := by
  obtain ⟨⟨m, s, h1, h2, h3, h4⟩, h5, h6⟩ := h
  obtain ⟨g, hl, _, _, ht⟩ := turn_ok root r.it s h2 h3
  cases hn : (r.it.turn root).res.2 with
  | done =>
    rw [hn] at ht
    exact ⟨⟨m, s, h1, h2, h3.mono g, h4⟩, h5.mono g, fun _ => ht⟩
  | again it =>
    rw [hn] at ht
    obtain ⟨s', e1, e2, e3, e4⟩ := ht
    refine ⟨⟨_, s', h1.again e1, e2, e3, ?_⟩, e4 h5, fun he => ?_⟩
    · exact Nat.add_le_add h4 hl
    · exfalso
      have hst := h6 he
      have : (r.it.turn root).res.2 = .done := by
        unfold PIter.turn
        rw [hst]
        rfl
      rw [hn] at this
      cases this
  | yield x it =>
    rw [hn] at ht
    obtain ⟨s', e1, e2, e3, e4⟩ := ht
    refine ⟨⟨_, s', h1.yield e1, e2, e3, ?_⟩, e4 h5, fun he => ?_⟩
    · exact Nat.add_le_add h4 hl
    · exfalso
      have hst := h6 he
      have : (r.it.turn root).res.2 = .done := by
        unfold PIter.turn
        rw [hst]
        rfl
      rw [hn] at this
      cases this

/-- there is a node at the position found -/
theorem locate_at : ∀ fuel (t : CTree K V) (p : List K) (q : List Nat), (locate fuel t p = .found q ∨ ∃ rt, locate fuel t p = .prefix q rt) → t.at q ≠ none := by
  intro fuel
  induction fuel with
  | zero => intro t p q h; rcases h with h | ⟨_, h⟩ <;> cases h
  | succ fuel ih =>
    intro t p q h
    rw [locate] at h
    split at h
    · rcases h with h | ⟨_, h⟩ <;> cases h
      exact nofun
    split at h
    · rcases h with h | ⟨_, h⟩ <;> cases h
      exact nofun
    split at h
    · split at h
      · rename_i i _
        split at h
        · rcases h with h | ⟨_, h⟩ <;> cases h
        · rename_i c hc
          cases hs : locate fuel c (p.drop (commonPrefix t.pre p)) with
          | notFound => rw [hs] at h; rcases h with h | ⟨_, h⟩ <;> cases h
          | found q' =>
            rw [hs] at h
            rcases h with h | ⟨_, h⟩ <;> cases h
            simp only [CTree.at, hc]
            exact ih c _ q' (.inl hs)
          | «prefix» q' rt =>
            rw [hs] at h
            rcases h with h | ⟨_, h⟩ <;> cases h
            simp only [CTree.at, hc]
            exact ih c _ q' (.inr ⟨rt, hs⟩)
      · rcases h with h | ⟨_, h⟩ <;> cases h
    · rcases h with h | ⟨_, h⟩ <;> cases h

/-- what is known about an iterator that `scan_prefix` has made on a tree with the contents `t` -/
structure Scans (t : Tree K V) (root : CTree K V) (p : List K) (r : Reader (PIter K) (List K × V)) : Prop where
  own : ∃ m s, Run CIter.turn ((opened t).scanPrefix p).res r.turns r.out m s ∧ r.it.path = s.path ∧ Sames root r.it.stack s.stack ∧
    r.loads ≤ ((opened t).scanPrefix p).mem.loads + m.loads
  ended : r.ended = true → r.it.stack = []

theorem Scans.mono {t : Tree K V} {a b : CTree K V} {p : List K} {r : Reader (PIter K) (List K × V)} (h : Scans t a p r) (g : Grow a b) : Scans t b p r := by
  obtain ⟨⟨m, s, h1, h2, h3, h4⟩, h6⟩ := h
  exact ⟨⟨m, s, h1, h2, h3.mono g, h4⟩, h6⟩

/-- one turn -/
theorem Scans.step {t : Tree K V} {root : CTree K V} {p : List K} {r : Reader (PIter K) (List K × V)} (h : Scans t root p r) :
    Scans t (r.it.turn root).res.1 p (r.after (r.it.turn root).res.2 (r.it.turn root).mem) := by
  obtain ⟨⟨m, s, h1, h2, h3, h4⟩, h6⟩ := h
  obtain ⟨g, hl, _, _, ht⟩ := turn_ok root r.it s h2 h3
  have stuck : r.ended = true → (r.it.turn root).res.2 = .done := by
    intro he
    unfold PIter.turn
    rw [h6 he]
    rfl
  cases hn : (r.it.turn root).res.2 with
  | done =>
    rw [hn] at ht
    exact ⟨⟨m, s, h1, h2, h3.mono g, h4⟩, fun _ => ht⟩
  | again it =>
    rw [hn] at ht
    obtain ⟨s', e1, e2, e3, _⟩ := ht
    refine ⟨⟨_, s', h1.again e1, e2, e3, ?_⟩, fun he => ?_⟩
    · exact Nat.le_trans (Nat.add_le_add h4 hl) (Nat.le_of_eq (Nat.add_assoc ..))
    · have := stuck he
      rw [hn] at this
      cases this
  | yield x it =>
    rw [hn] at ht
    obtain ⟨s', e1, e2, e3, _⟩ := ht
    refine ⟨⟨_, s', h1.yield e1, e2, e3, ?_⟩, fun he => ?_⟩
    · exact Nat.le_trans (Nat.add_le_add h4 hl) (Nat.le_of_eq (Nat.add_assoc ..))
    · have := stuck he
      rw [hn] at this
      cases this

theorem Scans.cost {t : Tree K V} {root : CTree K V} {p : List K} {r : Reader (PIter K) (List K × V)} (h : Scans t root p r) :
    Grow root (r.it.turn root).res.1 ∧ Reads 1 (r.it.turn root).mem ∧ (r.it.turn root).mem.loads + unloaded (r.it.turn root).res.1 = unloaded root := by
  obtain ⟨⟨m, s, _, h2, h3, _⟩, _⟩ := h
  obtain ⟨g, _, hr, ha, _⟩ := turn_ok root r.it s h2 h3
  exact ⟨g, hr, ha⟩

theorem scanPrefix_mem (t : CTree K V) (p : List K) : (t.scanPrefix p).mem = (findGo id (t.plain.size + 1) t p).mem := by
  unfold CTree.scanPrefix
  simp only [bind_mem]
  split <;> exact add_zero _

/-- a new iterator -/
theorem Scans.new (root : CTree K V) (p : List K) :
    Scans root.plain (findGo id (root.plain.size + 1) root p).res.2 p
      ⟨(locate (root.plain.size + 1) root p).scan root p, [], false, 0, (findGo id (root.plain.size + 1) root p).mem.loads⟩ := by
  have g := findGo_grow (root.plain.size + 1) root p
  have hop := opened_plain root.plain
  refine ⟨⟨Mem.zero, _, .start, ?_⟩, fun h => by cases h⟩
  have hl : (findGo id (root.plain.size + 1) root p).mem.loads ≤ ((opened root.plain).scanPrefix p).mem.loads + Mem.zero.loads := by
    rw [scanPrefix_mem, hop]
    exact findGo_less _ _ _
  have hres : ((opened root.plain).scanPrefix p).res = match (locate (root.plain.size + 1) root p).node (opened root.plain) with
      | .found t => CIter.new t p
      | .prefix t rt => CIter.new t (p ++ t.pre.drop (t.pre.length - rt))
      | .notFound => CIter.empty := by
    unfold CTree.scanPrefix
    simp only [bind_res]
    rw [hop, findGo_locate, locate_plain _ hop p]
    cases (locate (root.plain.size + 1) root p).node (opened root.plain) <;> rfl
  rw [hres]
  cases hs : locate (root.plain.size + 1) root p with
  | notFound => exact ⟨rfl, .nil, hl⟩
  | found q =>
    simp only [Spot.node, opened_at, Spot.scan]
    cases hq : root.at q with
    | none =>
      exfalso
      exact locate_at _ root p q (.inl hs) hq
    | some c =>
      obtain ⟨u, h1, h2, _⟩ := g.at hq
      exact ⟨rfl, .cons ⟨rfl, u, h1, .inl (by rw [h2])⟩ .nil, hl⟩
  | «prefix» q rt =>
    simp only [Spot.node, opened_at, Spot.scan]
    cases hq : root.at q with
    | none => exact ⟨rfl, .nil, hl⟩
    | some c =>
      obtain ⟨u, h1, h2, _⟩ := g.at hq
      refine ⟨?_, .cons ⟨rfl, u, h1, .inl (by rw [h2])⟩ .nil, hl⟩
      simp [CIter.new, opened_eq, plain_pre]

/-- a turn does not cost more than one load, and never goes wrong -/
theorem Follows.cost {t : Tree K V} {root : CTree K V} {r : Reader (PIter K) (List K × V)} (h : Follows t root r) :
    Grow root (r.it.turn root).res.1 ∧ Reads 1 (r.it.turn root).mem ∧ (r.it.turn root).mem.loads + unloaded (r.it.turn root).res.1 = unloaded root := by
  obtain ⟨⟨m, s, _, h2, h3, _⟩, _, _⟩ := h
  obtain ⟨g, _, hr, ha, _⟩ := turn_ok root r.it s h2 h3
  exact ⟨g, hr, ha⟩

theorem FollowsV.turn {root : CTree K V} {r' : Reader (PIter K) (List K × V)} {r : Reader PValues V} (e : r = ⟨⟨r'.it.stack⟩, r'.out.map (·.2), r'.ended, r'.turns, r'.loads⟩) :
    (r.it.turn root).mem = (r'.it.turn root).mem ∧ (r.it.turn root).res.1 = (r'.it.turn root).res.1 ∧ ∀ m,
    r.after (r.it.turn root).res.2 m = ⟨⟨(r'.after (r'.it.turn root).res.2 m).it.stack⟩, (r'.after (r'.it.turn root).res.2 m).out.map (·.2),
      (r'.after (r'.it.turn root).res.2 m).ended, (r'.after (r'.it.turn root).res.2 m).turns, (r'.after (r'.it.turn root).res.2 m).loads⟩ := by
  subst e
  rw [values_turn root r'.it]
  refine ⟨rfl, rfl, fun m => ?_⟩
  cases (r'.it.turn root).res.2 with
  | done => rfl
  | again it => rfl
  | yield x it => simp [forget, Reader.after]

/-- the invariant -/
structure Inv (t : Tree K V) (s : Visited K V) : Prop where
  plain : s.root.plain = t
  iters : ∀ r ∈ s.iters, Follows t s.root r
  values : ∀ r ∈ s.values, FollowsV t s.root r
  scans : ∀ x ∈ s.scans, Scans t s.root x.1 x.2
  answers : ∀ a ∈ s.answers, t.get a.1 = .ret a.2

theorem mem_set {α : Type} {l : List α} {i : Nat} {x y : α} (h : y ∈ l.set i x) : y = x ∨ y ∈ l := by
  rcases List.mem_or_eq_of_mem_set h with h | h
  · exact .inr h
  · exact .inl h

/-- a new iterator -/
theorem Follows.new (root : CTree K V) : Follows root.plain root ⟨⟨root.pre, [([], 0)]⟩, [], false, 0, 0⟩ := by
  refine ⟨⟨Mem.zero, _, .start, ?_, ?_, Nat.zero_le _⟩, fun x u _ _ => ⟨([], 0), by simp, x, rfl⟩, fun h => by cases h⟩
  · show root.pre = (opened root.plain).pre
    simp [opened_eq]
  · exact .cons ⟨rfl, root, rfl, .inl rfl⟩ .nil

end

end Verif.Cow
