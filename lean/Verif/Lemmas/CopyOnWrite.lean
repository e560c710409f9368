import Verif.Model.CopyOnWrite
import Verif.Lemmas.RadixOps
import Verif.Lemmas.RadixHistory
import Verif.Lemmas.RadixWorkRel
import Verif.Spec.CopyOnWrite
/-! Loads, copies and new vectors: the parts of the in-place operations. -/
namespace Verif.Cow
open Verif.Tree (Valid hd)

@[simp] theorem bind_res {α β : Type} (m : Charged α) (f : α → Charged β) : (m >>= f).res = (f m.res).res := rfl
@[simp] theorem bind_mem {α β : Type} (m : Charged α) (f : α → Charged β) : (m >>= f).mem = m.mem.add (f m.res).mem := rfl
@[simp] theorem pure_res {α : Type} (a : α) : (pure a : Charged α).res = a := rfl
@[simp] theorem pure_mem {α : Type} (a : α) : (pure a : Charged α).mem = Mem.zero := rfl
@[simp] theorem add_zero (a : Mem) : a.add Mem.zero = a := rfl
@[simp] theorem zero_add (a : Mem) : Mem.zero.add a = a := by cases a; simp [Mem.add, Mem.zero]
theorem add_assoc (a b c : Mem) : (a.add b).add c = a.add (b.add c) := by simp [Mem.add, Nat.add_assoc]

/-- short name for the bounds -/
abbrev Spent := Within

theorem Within.zero {w : Nat} : Spent w 0 0 0 Mem.zero := ⟨Nat.le_refl _, by simp [Mem.zero], Nat.le_refl _, Nat.le_refl _⟩
theorem Within.add {w c l f c' l' f' : Nat} {m m' : Mem} (h : Spent w c l f m) (h' : Spent w c' l' f' m') : Spent w (c + c') (l + l') (f + f') (m.add m') :=
  ⟨Nat.add_le_add h.1 h'.1, by rw [Nat.add_mul]; exact Nat.add_le_add h.2 h'.2, Nat.add_le_add h.3 h'.3, Nat.add_le_add h.4 h'.4⟩
theorem Within.mono {w c l f c' l' f' : Nat} {m : Mem} (h : Spent w c l f m) (hc : c ≤ c') (hl : l ≤ l') (hf : f ≤ f') : Spent w c' l' f' m :=
  ⟨Nat.le_trans h.1 hc, Nat.le_trans h.2 (Nat.mul_le_mul_right _ hc), Nat.le_trans h.3 hl, Nat.le_trans h.4 hf⟩

section
variable {K V W : Type}

theorem plains_map : ∀ (l : List (CTree K V)), plains l = l.map CTree.plain
  | [] => rfl
  | c :: cs => by rw [plains, plains_map cs]; rfl
theorem plain_eq (t : CTree K V) : t.plain = ⟨t.pre, t.val, t.kids.map CTree.plain⟩ := by
  cases t; rw [CTree.plain, plains_map]
@[simp] theorem plain_pre (t : CTree K V) : t.plain.pre = t.pre := by rw [plain_eq]
@[simp] theorem plain_val (t : CTree K V) : t.plain.val = t.val := by rw [plain_eq]
@[simp] theorem plain_kids (t : CTree K V) : t.plain.kids = t.kids.map CTree.plain := by rw [plain_eq]

/-- not loaded -/
def CTree.isRaw (t : CTree K V) : Bool := t.held == .raw
/-- number of vectors that are not loaded among some nodes -/
abbrev raws (l : List (CTree K V)) : Nat := l.countP CTree.isRaw
/-- `is_empty` loads nothing any more -/
def CTree.Settled (t : CTree K V) : Prop := t.val.isSome = true ∨ t.held ≠ .raw

/-! ### `children`, `children_mut`, `is_empty` -/

theorem share_plain (t : CTree K V) : t.share.plain = t.plain := by
  rw [plain_eq, plain_eq t]; unfold CTree.share; split <;> rfl
theorem share_isRaw (t : CTree K V) : t.share.isRaw = t.isRaw := by
  unfold CTree.share CTree.isRaw
  split
  · rename_i h; rw [h]; rfl
  · rfl

theorem load_plain (t : CTree K V) : t.load.res.plain = t.plain := by
  rw [plain_eq, plain_eq t]; unfold CTree.load; split <;> rfl
theorem load_kids (t : CTree K V) : t.load.res.kids = t.kids := by unfold CTree.load; split <;> rfl
theorem load_val (t : CTree K V) : t.load.res.val = t.val := by unfold CTree.load; split <;> rfl
theorem load_pre (t : CTree K V) : t.load.res.pre = t.pre := by unfold CTree.load; split <;> rfl
theorem load_held (t : CTree K V) : t.load.res.held ≠ .raw := by unfold CTree.load; split <;> simp_all
theorem load_done {t : CTree K V} (h : t.held ≠ .raw) : t.load = pure t := by unfold CTree.load; split <;> simp_all
theorem load_spent (w : Nat) (t : CTree K V) : Spent w 0 (if t.isRaw then 1 else 0) 0 t.load.mem := by
  cases h : t.held with
  | raw =>
    have e : t.isRaw = true := by rw [CTree.isRaw, h]; rfl
    unfold CTree.load
    rw [e, h]
    exact ⟨Nat.le_refl _, by simp, Nat.le_refl _, Nat.le_refl _⟩
  | _ =>
    rw [load_done (by rw [h]; simp)]
    exact Within.zero.mono (Nat.le_refl _) (Nat.zero_le _) (Nat.le_refl _)

theorem childrenMut_own {t : CTree K V} (h : t.held = .own) : t.childrenMut = pure t := by unfold CTree.childrenMut; rw [h]
theorem childrenMut_held (t : CTree K V) : t.childrenMut.res.held = .own := by unfold CTree.childrenMut; split <;> simp_all
theorem childrenMut_val (t : CTree K V) : t.childrenMut.res.val = t.val := by unfold CTree.childrenMut; split <;> rfl
theorem childrenMut_pre (t : CTree K V) : t.childrenMut.res.pre = t.pre := by unfold CTree.childrenMut; split <;> rfl
theorem childrenMut_plains (t : CTree K V) : t.childrenMut.res.kids.map CTree.plain = t.kids.map CTree.plain := by
  unfold CTree.childrenMut
  split
  · rfl
  · rw [List.map_map]
    exact List.map_congr_left fun c _ => share_plain c
  · rfl
theorem childrenMut_plain (t : CTree K V) : t.childrenMut.res.plain = t.plain := by
  rw [plain_eq, plain_eq t, childrenMut_pre, childrenMut_val, childrenMut_plains]
theorem childrenMut_length (t : CTree K V) : t.childrenMut.res.kids.length = t.kids.length := by
  have := congrArg List.length (childrenMut_plains t); simpa using this
theorem childrenMut_raws (t : CTree K V) : raws t.childrenMut.res.kids = raws t.kids := by
  unfold CTree.childrenMut raws
  split
  · rfl
  · simp only [List.countP_map]
    exact List.countP_congr fun c _ => by simp [share_isRaw]
  · rfl
theorem childrenMut_spent {w : Nat} {t : CTree K V} (h : t.kids.length ≤ w) : Spent w 1 1 0 t.childrenMut.mem := by
  unfold CTree.childrenMut
  split
  · exact ⟨Nat.zero_le _, by simp, Nat.le_refl _, Nat.le_refl _⟩
  · exact ⟨Nat.le_refl _, by simpa using h, Nat.zero_le _, Nat.le_refl _⟩
  · exact Within.zero.mono (Nat.zero_le _) (Nat.zero_le _) (Nat.le_refl _)

theorem plain_isEmpty (t : CTree K V) : t.plain.isEmpty = (t.val.isNone && t.kids.isEmpty) := by
  rw [plain_eq]; simp [Tree.isEmpty]

theorem checkEmpty_flag (t : CTree K V) : t.checkEmpty.res.1 = t.plain.isEmpty := by
  rw [plain_isEmpty]
  unfold CTree.checkEmpty
  split
  · rename_i h
    cases hv : t.val <;> simp_all
  · rename_i h
    cases hv : t.val <;> simp_all [load_kids]
theorem checkEmpty_plain (t : CTree K V) : t.checkEmpty.res.2.plain = t.plain := by
  unfold CTree.checkEmpty; split
  · rfl
  · exact load_plain t
theorem checkEmpty_settled (t : CTree K V) : t.checkEmpty.res.2.Settled := by
  unfold CTree.checkEmpty CTree.Settled
  split
  · exact .inl ‹_›
  · exact .inr (load_held t)
theorem checkEmpty_done {t : CTree K V} (h : t.Settled) : t.checkEmpty = pure (t.plain.isEmpty, t) := by
  rw [plain_isEmpty]
  unfold CTree.checkEmpty
  split
  · rename_i hv
    cases hv' : t.val <;> simp_all
  · rename_i hv
    rcases h with h | h
    · exact absurd h hv
    · rw [load_done h]
      cases hv' : t.val <;> simp_all
      rfl
theorem checkEmpty_spent (w : Nat) (t : CTree K V) : Spent w 0 (if t.isRaw then 1 else 0) 0 t.checkEmpty.mem := by
  unfold CTree.checkEmpty
  by_cases h : t.val.isSome = true
  · rw [if_pos h]
    exact Within.zero.mono (Nat.le_refl _) (Nat.zero_le _) (Nat.le_refl _)
  · rw [if_neg h]
    simp only [bind_mem, pure_mem, add_zero]
    exact load_spent w t

/-! ### `unsplit` -/

theorem retain_plain : ∀ (l : List (CTree K V)), (retain l).res.map CTree.plain = (l.map CTree.plain).filter (fun x => !x.isEmpty)
  | [] => rfl
  | c :: cs => by
    simp only [retain, bind_res, pure_res, checkEmpty_flag, List.map_cons, List.filter_cons]
    cases h : c.plain.isEmpty with
    | true => simpa using retain_plain cs
    | false => simp [checkEmpty_plain, retain_plain cs]
theorem retain_settled : ∀ (l : List (CTree K V)), ∀ c ∈ (retain l).res, c.Settled
  | [], c, h => by cases h
  | c :: cs, d, h => by
    simp only [retain, bind_res, pure_res] at h
    split at h
    · exact retain_settled cs d h
    · rcases List.mem_cons.1 h with rfl | h
      · exact checkEmpty_settled c
      · exact retain_settled cs d h
theorem retain_spent (w : Nat) : ∀ (l : List (CTree K V)), Spent w 0 (raws l) 0 (retain l).mem
  | [] => Within.zero
  | c :: cs => by
    simp only [retain, bind_mem, pure_mem, add_zero]
    have h := (checkEmpty_spent w c).add (retain_spent w cs)
    refine h.mono (Nat.le_refl _) ?_ (Nat.le_refl _)
    unfold raws
    rw [List.countP_cons]
    omega

theorem prepend_eq {c : CTree K V} (h : c.Settled) (p : List K) : (c.prepend p).mem = Mem.zero ∧ (c.prepend p).res.plain = c.plain.prepend p ∧
    (c.prepend p).res.Settled := by
  unfold CTree.prepend Tree.prepend
  cases hp : p.isEmpty with
  | true => exact ⟨rfl, by simp, by simpa using h⟩
  | false =>
    simp only [Bool.false_eq_true, if_false, bind_mem, bind_res, pure_mem, pure_res, checkEmpty_done h, add_zero]
    refine ⟨trivial, ?_, ?_⟩
    · cases he : c.plain.isEmpty with
      | true => simp
      | false => simp [plain_eq]
    · split
      · exact h
      · exact h

theorem mergeOnlyChild_eq {t : CTree K V} (ht : t.Settled) (hk : ∀ c ∈ t.kids, c.Settled) : t.mergeOnlyChild.mem = Mem.zero ∧
    t.mergeOnlyChild.res.plain = t.plain.mergeOnlyChild ∧ t.mergeOnlyChild.res.Settled := by
  unfold CTree.mergeOnlyChild
  split
  · rename_i c h1 h2
    have e : t.plain.mergeOnlyChild = c.plain.prepend t.pre := by
      unfold Tree.mergeOnlyChild; simp [h1, h2]
    rw [e]
    exact prepend_eq (hk c (by simp [h1])) t.pre
  · rename_i h
    refine ⟨rfl, ?_, ht⟩
    unfold Tree.mergeOnlyChild
    split
    · rename_i c h1 h2
      simp only [plain_kids] at h1
      rcases hk' : t.kids with _ | ⟨d, _ | ⟨e, es⟩⟩ <;> rw [hk'] at h1 <;> simp_all
    · rfl

theorem unsplit_ok {w : Nat} {t : CTree K V} (h : t.held = .own ∨ t.kids.length ≤ w) :
    t.unsplit.res.plain = t.plain.unsplit ∧ t.unsplit.res.Settled ∧
    Spent w (if t.held = .own then 0 else 1) ((if t.held = .own then 0 else 1) + raws t.kids) 0 t.unsplit.mem := by
  have e1 : CTree.plain { t.childrenMut.res with kids := (retain t.childrenMut.res.kids).res } = t.plain.dropEmptyKids := by
    rw [plain_eq, plain_eq t]
    simp only [childrenMut_pre, childrenMut_val, retain_plain, childrenMut_plains, Tree.dropEmptyKids]
  have s1 : CTree.Settled { t.childrenMut.res with kids := (retain t.childrenMut.res.kids).res } := .inr (by simp [childrenMut_held])
  obtain ⟨m1, m2, m3⟩ := mergeOnlyChild_eq s1 (retain_settled _)
  rw [e1] at m2
  have hc : Spent w (if t.held = .own then 0 else 1) (if t.held = .own then 0 else 1) 0 t.childrenMut.mem := by
    by_cases ho : t.held = .own
    · rw [childrenMut_own ho]
      simp only [ho, if_true]
      exact Within.zero
    · simp only [ho, if_false]
      exact childrenMut_spent (h.resolve_left ho)
  unfold CTree.unsplit
  simp only [bind_res, bind_mem, pure_res, pure_mem, add_zero, checkEmpty_done m3, m1]
  refine ⟨?_, ?_, ?_⟩
  · rw [Tree.unsplit, ← m2, Tree.clearEmptyPrefix]
    split
    · rw [plain_eq]; simp
    · rfl
  · split
    · exact m3
    · exact m3
  · have := hc.add (retain_spent w t.childrenMut.res.kids)
    rw [childrenMut_raws] at this
    simpa using this

/-! ### New copies -/

mutual
theorem copyOf_eq : ∀ (t : Tree K V) (n : Nat), (copyOf n t).res.plain = ⟨t.pre.drop n, t.val, t.kids⟩ ∧ (copyOf n t).res.held = .own ∧
    (copyOf n t).mem = ⟨0, 0, 0, t.nodes⟩
  | ⟨p, v, ks⟩, n => by
    obtain ⟨h1, h2, h3⟩ := copiesOf_eq ks
    refine ⟨?_, rfl, ?_⟩
    · rw [plain_eq]
      simp [copyOf, h1]
    · simp only [copyOf, bind_mem, h3, Mem.add, Tree.nodes]
      simp [Nat.add_comm]
theorem copiesOf_eq : ∀ (ks : List (Tree K V)), (copiesOf ks).res.map CTree.plain = ks ∧ raws (copiesOf ks).res = 0 ∧
    (copiesOf ks).mem = ⟨0, 0, 0, Tree.nodes.nodesL ks⟩
  | [] => ⟨rfl, rfl, rfl⟩
  | k :: ks => by
    obtain ⟨h1, h2, h3⟩ := copyOf_eq k 0
    obtain ⟨g1, g2, g3⟩ := copiesOf_eq ks
    refine ⟨?_, ?_, ?_⟩
    · simp only [copiesOf, bind_res, pure_res, List.map_cons, h1, g1, List.drop_zero]
      cases k; rfl
    · simp only [copiesOf, bind_res, pure_res, raws, List.countP_cons]
      rw [← raws, g2]
      simp [CTree.isRaw, h2]
    · simp [copiesOf, bind_mem, h3, g3, Mem.add, Mem.zero, Tree.nodes.nodesL]
end


/-! ### Merging children -/

variable [Ord K]

/-- sum of `f` over a list -/
def sumBy {α : Type} (f : α → Nat) : List α → Nat
  | [] => 0
  | x :: xs => f x + sumBy f xs

/-- what takes over children of `that` is the copy, or there is nothing of that kind -/
def ConvOk (conv : Option (Tree K W → Charged (CTree K V))) (gb : Tree K W → Option (Tree K V)) (cost : Tree K W → Nat) : Prop :=
  match conv with
  | none => gb = fun _ => none
  | some f => ∀ b, ∃ t, gb b = some t ∧ (f b).res.plain = t ∧ (f b).res.isRaw = false ∧ ∃ n, n ≤ cost b ∧ (f b).mem = ⟨0, 0, 0, n⟩

theorem takeOver_ok {w : Nat} {conv : Option (Tree K W → Charged (CTree K V))} {gb : Tree K W → Option (Tree K V)} {F : Tree K W → Nat} (h : ConvOk conv gb F) :
    ∀ (bs : List (Tree K W)), (takeOver conv bs).res.map CTree.plain = bs.filterMap gb ∧ raws (takeOver conv bs).res = 0 ∧
      Spent w 0 0 (sumBy F bs) (takeOver conv bs).mem := by
  intro bs
  induction bs with
  | nil => exact ⟨rfl, rfl, Within.zero⟩
  | cons b bs ih =>
    cases conv with
    | none =>
      have h : gb = fun _ => none := h
      refine ⟨?_, rfl, Within.zero.mono (Nat.le_refl _) (Nat.le_refl _) (Nat.zero_le _)⟩
      rw [h]
      simp [takeOver]
    | some f =>
      obtain ⟨h1, h2, h3⟩ := ih
      obtain ⟨t, g1, g2, g3, n, g4, g5⟩ := h b
      refine ⟨?_, ?_, ?_⟩
      · simp only [takeOver, bind_res, pure_res, List.map_cons, h1, g2, List.filterMap_cons, g1]
      · simp only [takeOver, bind_res, pure_res]
        unfold raws at *
        rw [List.countP_cons, g3, h2]
        rfl
      · simp only [takeOver, bind_mem, pure_mem, add_zero, g5]
        have : Spent w 0 0 (F b) ⟨0, 0, 0, n⟩ := ⟨Nat.le_refl _, Nat.zero_le _, Nat.le_refl _, g4⟩
        exact this.add h3

theorem joinKids_ok {w : Nat} {takeA : Bool} {conv : Option (Tree K W → Charged (CTree K V))} {rec : CTree K V → Tree K W → Charged (CTree K V)}
    {ga : Tree K V → Option (Tree K V)} {gb : Tree K W → Option (Tree K V)} {r : Tree K V → Tree K W → Tree K V} {C L F : Tree K W → Nat}
    (hga : ga = if takeA then some else fun _ => none) (hgb : ConvOk conv gb F) : ∀ (as : List (CTree K V)) (bs : List (Tree K W)),
    (∀ a ∈ as, ∀ b ∈ bs, hd a.plain = hd b ∨ compare (hd a.plain) (hd b) = .eq →
      (rec a b).res.plain = r a.plain b ∧ (rec a b).res.Settled ∧ Spent w (C b) (L b) (F b) (rec a b).mem) →
    (joinKids takeA conv rec as bs).res.map CTree.plain = joinList Tree.headCmp ga gb (fun x y => Tree.nonEmpty (r x y)) (as.map CTree.plain) bs ∧
    raws (joinKids takeA conv rec as bs).res ≤ as.length ∧
    Spent w (sumBy C bs) (sumBy L bs) (sumBy F bs) (joinKids takeA conv rec as bs).mem := by
  intro as bs
  fun_induction joinKids takeA conv rec as bs with
  | case1 bs =>
    intro _
    obtain ⟨h1, h2, h3⟩ := takeOver_ok (w := w) hgb bs
    refine ⟨?_, Nat.le_of_eq h2, h3.mono (Nat.zero_le _) (Nat.zero_le _) (Nat.le_refl _)⟩
    rw [h1, List.map_nil, joinList_nil_left]
  | case2 a as =>
    intro _
    refine ⟨?_, ?_, Within.zero⟩
    · rw [joinList_nil_right, hga]
      cases takeA <;> simp
    · simp only [pure_res]
      split
      · exact List.countP_le_length
      · exact Nat.zero_le _
  | case3 a as b bs hc ih =>
    intro hr
    obtain ⟨h1, h2, h3⟩ := ih fun x hx y hy => hr x (List.mem_cons_of_mem _ hx) y hy
    have hc : Tree.headCmp a.plain b = .lt := by
      rw [← hc]; unfold Tree.headCmp headCmp; rw [plain_pre]
    refine ⟨?_, ?_, ?_⟩
    · simp only [bind_res, pure_res, List.map_cons]
      rw [joinList_cons, hc, ← h1, hga]
      cases takeA <;> simp
    · simp only [bind_res, pure_res, List.length_cons]
      unfold raws at *
      split
      · rw [List.countP_cons]
        split <;> omega
      · omega
    · simpa using h3
  | case4 a as b bs hc ih =>
    intro hr
    obtain ⟨h1, h2, h3⟩ := ih fun x hx y hy => hr x hx y (List.mem_cons_of_mem _ hy)
    obtain ⟨g1, g2, g3⟩ := takeOver_ok (w := w) hgb [b]
    have hc : Tree.headCmp a.plain b = .gt := by
      rw [← hc]; unfold Tree.headCmp headCmp; rw [plain_pre]
    refine ⟨?_, ?_, ?_⟩
    · simp only [bind_res, pure_res, List.map_append, g1]
      rw [h1, List.map_cons, joinList_cons, hc]
      simp only [List.filterMap_cons, List.filterMap_nil]
      cases gb b <;> rfl
    · simp only [bind_res, pure_res]
      unfold raws at *
      rw [List.countP_append, g2]
      omega
    · simp only [bind_mem, pure_mem, add_zero]
      exact (g3.add h3).mono (by simp [sumBy]) (by simp [sumBy]) (by simp [sumBy])
  | case5 a as b bs hc ih =>
    intro hr
    obtain ⟨h1, h2, h3⟩ := ih fun x hx y hy => hr x (List.mem_cons_of_mem _ hx) y (List.mem_cons_of_mem _ hy)
    have hc : Tree.headCmp a.plain b = .eq := by
      rw [← hc]; unfold Tree.headCmp headCmp; rw [plain_pre]
    obtain ⟨g1, g2, g3⟩ := hr a (List.mem_cons_self ..) b (List.mem_cons_self ..) (.inr hc)
    refine ⟨?_, ?_, ?_⟩
    · simp only [bind_res, pure_res, checkEmpty_done g2, List.map_cons]
      rw [joinList_cons, hc, ← h1, g1]
      unfold Tree.nonEmpty
      cases (r a.plain b).isEmpty <;> simp [g1]
    · simp only [bind_res, pure_res, checkEmpty_done g2, List.length_cons]
      unfold raws at *
      split
      · omega
      · rw [List.countP_cons]
        split <;> omega
    · simp only [bind_mem, pure_mem, add_zero, checkEmpty_done g2, zero_add, pure_res]
      exact g3.add h3

/-! ### The cases -/

/-- the state after the cases and before `unsplit`: either the vector of children is ours, or nothing was done -/
def CaseOk (w : Nat) (t : Tree K V) (C L F : Nat) (x : Charged (CTree K V)) : Prop :=
  x.res.plain = t ∧ ((x.res.held = .own ∧ raws x.res.kids ≤ w ∧ Spent w (1 + C) (1 + L) F x.mem) ∨ (Spent w C L F x.mem ∧ x.res.kids.length ≤ w))

theorem CaseOk.finish {w : Nat} {t : Tree K V} {C L F : Nat} {x : Charged (CTree K V)} (h : CaseOk w t C L F x) :
    (x >>= fun t => t.unsplit).res.plain = t.unsplit ∧ (x >>= fun t => t.unsplit).res.Settled ∧
    Spent w (1 + C) (1 + L + w) F (x >>= fun t => t.unsplit).mem := by
  obtain ⟨h1, h2⟩ := h
  have := unsplit_ok (w := w) (t := x.res) (h2.elim (fun h => .inl h.1) (fun h => .inr h.2))
  obtain ⟨u1, u2, u3⟩ := this
  refine ⟨by simp [u1, h1], u2, ?_⟩
  simp only [bind_mem]
  rcases h2 with ⟨g1, g2, g3⟩ | ⟨g1, g2⟩
  · rw [g1] at u3
    simp only [if_true] at u3
    exact (g3.add u3).mono (by omega) (by omega) (by omega)
  · have hr : raws x.res.kids ≤ w := Nat.le_trans List.countP_le_length g2
    refine (g1.add u3).mono ?_ ?_ (by omega)
    · split <;> omega
    · split <;> omega

theorem mergeKids_ok {w : Nat} {P : Tree.Par K V W} {takeA : Bool} {conv : Option (Tree K W → Charged (CTree K V))} {rec : CTree K V → Tree K W → Charged (CTree K V)}
    {r : Tree K V → Tree K W → Tree K V} {C L F : Tree K W → Nat} (hga : P.ga = if takeA then some else fun _ => none) (hgb : ConvOk conv P.gb F)
    {t : CTree K V} {bs : List (Tree K W)} (hw : t.kids.length ≤ w)
    (hr : ∀ a : CTree K V, a.plain ∈ t.plain.kids → ∀ b ∈ bs, hd a.plain = hd b ∨ compare (hd a.plain) (hd b) = .eq →
      (rec a b).res.plain = r a.plain b ∧ (rec a b).res.Settled ∧ Spent w (C b) (L b) (F b) (rec a b).mem) :
    (t.mergeKids takeA conv rec bs).res.plain = ⟨t.pre, t.val, Tree.kidsRef P r t.plain.kids bs⟩ ∧ (t.mergeKids takeA conv rec bs).res.held = .own ∧
    raws (t.mergeKids takeA conv rec bs).res.kids ≤ t.kids.length ∧
    Spent w ((if t.held = .own then 0 else 1) + sumBy C bs) ((if t.held = .own then 0 else 1) + sumBy L bs) (sumBy F bs) (t.mergeKids takeA conv rec bs).mem := by
  have hp : t.childrenMut.res.kids.map CTree.plain = t.plain.kids := by rw [childrenMut_plains, plain_kids]
  obtain ⟨h1, h2, h3⟩ := joinKids_ok (w := w) (rec := rec) (r := r) (C := C) (L := L) hga hgb t.childrenMut.res.kids bs
    (fun a ha b hb => hr a (by rw [← hp]; exact List.mem_map_of_mem ha) b hb)
  refine ⟨?_, childrenMut_held t, ?_, ?_⟩
  · rw [plain_eq]
    simp only [CTree.mergeKids, bind_res, pure_res, childrenMut_pre, childrenMut_val, h1, hp]
    rfl
  · rw [childrenMut_length] at h2
    exact h2
  · simp only [CTree.mergeKids, bind_mem, pure_mem, add_zero]
    have hc : Spent w (if t.held = .own then 0 else 1) (if t.held = .own then 0 else 1) 0 t.childrenMut.mem := by
      by_cases ho : t.held = .own
      · rw [childrenMut_own ho]
        simp only [ho, if_true]
        exact Within.zero
      · simp only [ho, if_false]
        exact childrenMut_spent hw
    have := hc.add h3
    rwa [Nat.zero_add] at this

theorem clear_ok {w : Nat} {t : CTree K V} (hw : t.kids.length ≤ w) : CaseOk w t.plain.clear 0 0 0 t.clear := by
  refine ⟨?_, .inl ⟨childrenMut_held t, Nat.zero_le _, ?_⟩⟩
  · rw [plain_eq]
    simp [CTree.clear, Tree.clear, childrenMut_pre]
  · simpa [CTree.clear] using childrenMut_spent hw

theorem nothing_ok {w : Nat} {t : CTree K V} (hw : t.kids.length ≤ w) : CaseOk w t.plain 0 0 0 (pure t) := ⟨rfl, .inr ⟨Within.zero, hw⟩⟩
end
end Verif.Cow
