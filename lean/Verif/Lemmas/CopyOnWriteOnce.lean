import Verif.Lemmas.CopyOnWriteFind
import Verif.Spec.CopyOnWrite
/-! Every vector is loaded at most once, and copied at most once. -/
namespace Verif.Cow
open Verif.Tree (commonPrefix)

section
variable {K V W : Type}

theorem sumBy_append {α : Type} (f : α → Nat) : ∀ (l m : List α), sumBy f (l ++ m) = sumBy f l + sumBy f m
  | [], m => (Nat.zero_add _).symm
  | c :: cs, m => by rw [List.cons_append, sumBy, sumBy_append f cs, sumBy, Nat.add_assoc]

/-- something that is paid for out of what the tree holds -/
structure Purse (K V : Type) where
  pay : Mem → Nat
  pot : CTree K V → Nat
  pay_zero : pay Mem.zero = 0
  pay_add : ∀ a b, pay (a.add b) = pay a + pay b
  pay_fresh : ∀ n, pay ⟨0, 0, 0, n⟩ = 0
  pot_val : ∀ t p v, pot { t with pre := p, val := v } = pot t
  own : ∀ {t}, t.held = .own → pot t = sumBy pot t.kids
  childrenMut : ∀ t, pay t.childrenMut.mem + pot t.childrenMut.res ≤ pot t
  load : ∀ t, pay t.load.mem + pot t.load.res ≤ pot t

attribute [simp] Purse.pay_zero Purse.pay_add

variable (P : Purse K V)

theorem checkEmpty_paid (t : CTree K V) : P.pay t.checkEmpty.mem + P.pot t.checkEmpty.res.2 ≤ P.pot t := by
  unfold CTree.checkEmpty
  split
  · simp
  · simpa using P.load t
theorem retain_paid : ∀ (l : List (CTree K V)), P.pay (retain l).mem + sumBy P.pot (retain l).res ≤ sumBy P.pot l
  | [] => by simp [retain, sumBy]
  | c :: cs => by
    have h1 := checkEmpty_paid P c
    have h2 := retain_paid cs
    simp only [retain, bind_mem, bind_res, pure_mem, pure_res, P.pay_add, add_zero, sumBy]
    split
    · omega
    · rw [sumBy]; omega
theorem prepend_paid (c : CTree K V) (p : List K) : P.pay (c.prepend p).mem + P.pot (c.prepend p).res ≤ P.pot c := by
  unfold CTree.prepend
  split
  · simp
  · have h1 := checkEmpty_paid P c
    simp only [bind_mem, bind_res, pure_mem, pure_res, add_zero]
    split
    · exact h1
    · rw [P.pot_val]; exact h1
theorem mergeOnlyChild_paid {t : CTree K V} (h : t.held = .own) : P.pay t.mergeOnlyChild.mem + P.pot t.mergeOnlyChild.res ≤ P.pot t := by
  unfold CTree.mergeOnlyChild
  split
  · rename_i c h1 h2
    rw [P.own h, h1, sumBy, sumBy]
    exact prepend_paid P c t.pre
  · simp
theorem unsplit_paid (t : CTree K V) : P.pay t.unsplit.mem + P.pot t.unsplit.res ≤ P.pot t := by
  have h1 := P.childrenMut t
  have ho := childrenMut_held t
  have h2 := retain_paid P t.childrenMut.res.kids
  have h3 := mergeOnlyChild_paid P (t := { t.childrenMut.res with kids := (retain t.childrenMut.res.kids).res }) ho
  have h4 := checkEmpty_paid P (CTree.mergeOnlyChild { t.childrenMut.res with kids := (retain t.childrenMut.res.kids).res }).res
  rw [P.own ho] at h1
  rw [P.own (t := { t.childrenMut.res with kids := (retain t.childrenMut.res.kids).res }) ho] at h3
  simp only [CTree.unsplit, bind_mem, bind_res, pure_mem, pure_res, P.pay_add, add_zero]
  simp only at h2 h3 h4
  split
  · rw [P.pot_val]; omega
  · omega

theorem copyOf_paid (t : Tree K V) (n : Nat) : P.pay (copyOf n t).mem = 0 := by rw [(copyOf_eq t n).2.2]; exact P.pay_fresh _
mutual
theorem copyOf_foreign : ∀ (t : Tree K V) (n : Nat), P.pot (copyOf n t).res = 0
  | ⟨p, v, ks⟩, n => by
    have := copiesOf_foreign ks
    rw [P.own (copyOf_eq _ n).2.1]
    simpa [copyOf] using this
theorem copiesOf_foreign : ∀ (ks : List (Tree K V)), sumBy P.pot (copiesOf ks).res = 0
  | [] => rfl
  | k :: ks => by
    simp only [copiesOf, bind_res, pure_res, sumBy, copyOf_foreign k 0, copiesOf_foreign ks]
end

/-- what takes over children of `that` pays nothing -/
def Free (P : Purse K V) (conv : Option (Tree K W → Charged (CTree K V))) : Prop :=
  match conv with
  | none => True
  | some f => ∀ b, P.pay (f b).mem = 0 ∧ P.pot (f b).res = 0
theorem free_copy : Free P (some (copyOf (K := K) (V := V) 0)) := fun b => ⟨copyOf_paid P b 0, copyOf_foreign P b 0⟩

theorem free_none : Free (W := W) P none := trivial

theorem takeOver_paid {conv : Option (Tree K W → Charged (CTree K V))} (h : Free P conv) : ∀ bs, P.pay (takeOver conv bs).mem = 0 ∧ sumBy P.pot (takeOver conv bs).res = 0
  | [] => ⟨P.pay_zero, rfl⟩
  | b :: bs => by
    cases conv with
    | none => exact ⟨P.pay_zero, rfl⟩
    | some f =>
      obtain ⟨h1, h2⟩ := takeOver_paid h bs
      obtain ⟨g1, g2⟩ := h b
      simp only [takeOver, bind_mem, bind_res, pure_mem, pure_res, P.pay_add, add_zero, sumBy, h1, h2, g1, g2]
      trivial

variable [Ord K]

/-- the calls pay for what they load and copy -/
def Pays (P : Purse K V) (rec : CTree K V → Tree K W → Charged (CTree K V)) : Prop := ∀ a b, P.pay (rec a b).mem + P.pot (rec a b).res ≤ P.pot a

theorem joinKids_paid {takeA : Bool} {conv : Option (Tree K W → Charged (CTree K V))} {rec : CTree K V → Tree K W → Charged (CTree K V)}
    (hc : Free P conv) (hr : Pays P rec) (as : List (CTree K V)) (bs : List (Tree K W)) :
    P.pay (joinKids takeA conv rec as bs).mem + sumBy P.pot (joinKids takeA conv rec as bs).res ≤ sumBy P.pot as := by
  fun_induction joinKids takeA conv rec as bs with
  | case1 bs =>
    obtain ⟨h1, h2⟩ := takeOver_paid P hc bs
    omega
  | case2 a as =>
    simp only [pure_mem, pure_res, P.pay_zero]
    split
    · omega
    · simp [sumBy]
  | case3 a as b bs _ ih =>
    simp only [bind_mem, bind_res, pure_mem, pure_res, add_zero, sumBy]
    split
    · rw [sumBy]; omega
    · omega
  | case4 a as b bs _ ih =>
    obtain ⟨h1, h2⟩ := takeOver_paid P hc [b]
    simp only [bind_mem, bind_res, pure_mem, pure_res, add_zero, P.pay_add, sumBy_append]
    omega
  | case5 a as b bs _ ih =>
    have h1 := hr a b
    have h2 := checkEmpty_paid P (rec a b).res
    simp only [bind_mem, bind_res, pure_mem, pure_res, add_zero, P.pay_add, sumBy]
    split
    · omega
    · rw [sumBy]; omega

theorem mergeKids_paid {takeA : Bool} {conv : Option (Tree K W → Charged (CTree K V))} {rec : CTree K V → Tree K W → Charged (CTree K V)}
    (hc : Free P conv) (hr : Pays P rec) (t : CTree K V) (bs : List (Tree K W)) :
    P.pay (t.mergeKids takeA conv rec bs).mem + P.pot (t.mergeKids takeA conv rec bs).res ≤ P.pot t := by
  have h1 := P.childrenMut t
  have h2 := joinKids_paid P (takeA := takeA) hc hr t.childrenMut.res.kids bs
  rw [P.own (childrenMut_held t)] at h1
  simp only [CTree.mergeKids, bind_mem, bind_res, pure_mem, pure_res, add_zero, P.pay_add]
  rw [P.own (t := { t.childrenMut.res with kids := (joinKids takeA conv rec t.childrenMut.res.kids bs).res }) (childrenMut_held t)]
  simp only
  omega
theorem clear_paid (t : CTree K V) : P.pay t.clear.mem + P.pot t.clear.res ≤ P.pot t := by
  have h1 := P.childrenMut t
  simp only [CTree.clear, bind_mem, bind_res, pure_mem, pure_res, add_zero]
  rw [P.own (t := { t.childrenMut.res with val := none, kids := [] }) (childrenMut_held t)]
  simp only [sumBy]
  omega
omit [Ord K] in
theorem split_paid (t : CTree K V) (n : Nat) : P.pay (t.split n).mem = 0 ∧ P.pot (t.split n).res = P.pot t := by
  refine ⟨P.pay_fresh 1, ?_⟩
  rw [CTree.split, P.own rfl]
  simp only [sumBy, Nat.add_zero]
  exact P.pot_val t (t.pre.drop n) t.val

theorem vals_paid {takeA : Bool} {conv : Option (Tree K W → Charged (CTree K V))} {rec : CTree K V → Tree K W → Charged (CTree K V)}
    (hc : Free P conv) (hr : Pays P rec) (t : CTree K V) (v : Option V) (bs : List (Tree K W)) :
    P.pay (CTree.mergeKids takeA conv rec { t with val := v } bs).mem + P.pot (CTree.mergeKids takeA conv rec { t with val := v } bs).res ≤ P.pot t := by
  have := mergeKids_paid P (takeA := takeA) hc hr { t with val := v } bs
  have e := P.pot_val t t.pre v
  omega

theorem splits_paid {takeA : Bool} {conv : Option (Tree K W → Charged (CTree K V))} {rec : CTree K V → Tree K W → Charged (CTree K V)}
    (hc : Free P conv) (hr : Pays P rec) (t : CTree K V) (n : Nat) (v : Option V → Option V) (bs : List (Tree K W)) :
    P.pay (do let s ← t.split n; CTree.mergeKids takeA conv rec { s with val := v s.val } bs : Charged (CTree K V)).mem +
      P.pot (do let s ← t.split n; CTree.mergeKids takeA conv rec { s with val := v s.val } bs : Charged (CTree K V)).res ≤ P.pot t := by
  have := vals_paid P (takeA := takeA) hc hr (t.split n).res (v (t.split n).res.val) bs
  obtain ⟨h1, h2⟩ := split_paid P t n
  simp only [bind_mem, bind_res, P.pay_add]
  omega

theorem copies_paid {X : Type} {n : Nat} {b : Tree K X} {x : Charged (CTree K V)} {k : Nat} (h : P.pay x.mem + P.pot x.res ≤ k) :
    P.pay (do let _ ← copyOf n b; x : Charged (CTree K V)).mem + P.pot (do let _ ← copyOf n b; x : Charged (CTree K V)).res ≤ k := by
  have : P.pay (copyOf n b).mem = 0 := by rw [(copyOf_eq b n).2.2]; exact P.pay_fresh _
  simp only [bind_mem, bind_res, P.pay_add]
  omega

theorem sortTwo_foreign (x y : CTree K V) : sumBy P.pot (sortTwo x y) = P.pot x + P.pot y := by
  unfold sortTwo
  split <;> simp only [sumBy] <;> omega

theorem outerCases_paid {f : Tree.MutFn V V} {n : Nat} {rec : CTree K V → Tree K V → Charged (CTree K V)} (hr : Pays P rec) : Pays P (outerCases rec f n) := by
  intro a b
  unfold outerCases
  split
  · exact vals_paid P (free_copy P) hr a _ _
  split
  · exact copies_paid P (mergeKids_paid P (free_copy P) hr a _)
  split
  · exact splits_paid P (free_copy P) hr a n (fun v => (Tree.outerVal f v b.val).1) _
  · obtain ⟨h1, h2⟩ := split_paid P a n
    have h3 := copyOf_paid P b n
    have h4 := copyOf_foreign P b n
    have h5 := P.childrenMut (a.split n).res
    have e : (a.split n).res.childrenMut.res = (a.split n).res := rfl
    simp only [bind_mem, bind_res, pure_mem, pure_res, add_zero, P.pay_add, h1, h3]
    rw [P.own (t := { (a.split n).res.childrenMut.res with kids := _ }) rfl]
    simp only [e]
    have e2 : (a.split n).res.kids = [{ a with pre := a.pre.drop n }] := rfl
    rw [P.own (t := (a.split n).res) rfl, e2] at h2
    rw [e] at h5
    rw [P.own (t := (a.split n).res) rfl, e2] at h5
    rw [e2]
    simp only [List.flatMap_cons, List.flatMap_nil, List.append_nil, sortTwo_foreign P, h4]
    simp only [sumBy] at h2 h5
    omega
theorem innerCases_paid {f : Tree.MutFn V W} {n : Nat} {rec : CTree K V → Tree K W → Charged (CTree K V)} (hr : Pays P rec) : Pays P (innerCases rec f n) := by
  intro a b
  unfold innerCases
  split
  · exact vals_paid P (free_none P) hr a _ _
  split
  · exact copies_paid P (vals_paid P (free_none P) hr a _ _)
  split
  · exact splits_paid P (free_none P) hr a n id _
  · exact clear_paid P a
theorem leftCases_paid {f : Tree.MutFn V W} {n : Nat} {rec : CTree K V → Tree K W → Charged (CTree K V)} (hr : Pays P rec) : Pays P (leftCases rec f n) := by
  intro a b
  unfold leftCases
  split
  · exact vals_paid P (free_none P) hr a _ _
  split
  · exact copies_paid P (mergeKids_paid P (free_none P) hr a _)
  split
  · exact splits_paid P (free_none P) hr a n id _
  · simp
theorem removeCases_paid {f : W → Bool} {n : Nat} {rec : CTree K V → Tree K W → Charged (CTree K V)} (hr : Pays P rec) : Pays P (removeCases rec f n) := by
  intro a b
  unfold removeCases
  split
  · split
    · exact clear_paid P a
    · exact mergeKids_paid P (free_none P) hr a _
  split
  · split
    · exact clear_paid P a
    · exact splits_paid P (free_none P) hr a n id _
  split
  · exact copies_paid P (mergeKids_paid P (free_none P) hr a _)
  · simp
theorem retainCases_paid {f : W → Bool} {n : Nat} {rec : CTree K V → Tree K W → Charged (CTree K V)} (hr : Pays P rec) : Pays P (retainCases rec f n) := by
  intro a b
  unfold retainCases
  split
  · split
    · exact vals_paid P (free_none P) hr a _ _
    · simp
  split
  · split
    · exact splits_paid P (free_none P) hr a n id _
    · simp
  split
  · exact copies_paid P (vals_paid P (free_none P) hr a _ _)
  · exact clear_paid P a

omit [Ord K] in
theorem unsplits_paid {x : Charged (CTree K V)} {k : Nat} (h : P.pay x.mem + P.pot x.res ≤ k) :
    P.pay (x >>= fun t => t.unsplit).mem + P.pot (x >>= fun t => t.unsplit).res ≤ k := by
  have := unsplit_paid P x.res
  simp only [bind_mem, bind_res, P.pay_add]
  omega

variable [DecidableEq K]

theorem outerGo_paid (f : Tree.MutFn V V) : ∀ fuel, Pays P (outerGo f fuel)
  | 0 => fun a b => by simp [outerGo]
  | fuel + 1 => fun a b => by rw [outerGo]; exact unsplits_paid P (outerCases_paid P (outerGo_paid f fuel) a b)
theorem innerGo_paid (f : Tree.MutFn V W) : ∀ fuel, Pays P (innerGo f fuel)
  | 0 => fun a b => by simp [innerGo]
  | fuel + 1 => fun a b => by rw [innerGo]; exact unsplits_paid P (innerCases_paid P (innerGo_paid f fuel) a b)
theorem leftGo_paid (f : Tree.MutFn V W) : ∀ fuel, Pays P (leftGo f fuel)
  | 0 => fun a b => by simp [leftGo]
  | fuel + 1 => fun a b => by rw [leftGo]; exact unsplits_paid P (leftCases_paid P (leftGo_paid f fuel) a b)
theorem removeGo_paid (f : W → Bool) : ∀ fuel, Pays P (removeGo f fuel)
  | 0 => fun a b => by simp [removeGo]
  | fuel + 1 => fun a b => by rw [removeGo]; exact unsplits_paid P (removeCases_paid P (removeGo_paid f fuel) a b)
theorem retainGo_paid (f : W → Bool) : ∀ fuel, Pays P (retainGo f fuel)
  | 0 => fun a b => by simp [retainGo]
  | fuel + 1 => fun a b => by rw [retainGo]; exact unsplits_paid P (retainCases_paid P (retainGo_paid f fuel) a b)

/-! ### Loads -/

omit [Ord K] [DecidableEq K] in
theorem unloadeds_eq : ∀ (l : List (CTree K V)), unloadeds l = sumBy unloaded l
  | [] => rfl
  | c :: cs => by rw [unloadeds, unloadeds_eq cs]; rfl
omit [Ord K] [DecidableEq K] in
theorem unloaded_eq (t : CTree K V) : unloaded t = (if t.held = .raw then 1 else 0) + sumBy unloaded t.kids := by
  cases t; rw [unloaded, unloadeds_eq]
omit [Ord K] [DecidableEq K] in
theorem share_kids (t : CTree K V) : t.share.kids = t.kids := by unfold CTree.share; split <;> rfl
omit [Ord K] [DecidableEq K] in
theorem share_raw (t : CTree K V) : t.share.held = .raw ↔ t.held = .raw := by
  unfold CTree.share
  split
  · rename_i h; rw [h]; simp
  · rfl
omit [Ord K] [DecidableEq K] in
theorem unloaded_share (t : CTree K V) : unloaded t.share = unloaded t := by
  rw [unloaded_eq, unloaded_eq t, share_kids]
  simp only [share_raw]
omit [Ord K] [DecidableEq K] in
theorem sumBy_map {α β : Type} (f : β → Nat) (g : α → β) : ∀ (l : List α), sumBy f (l.map g) = sumBy (fun x => f (g x)) l
  | [] => rfl
  | x :: xs => by rw [List.map_cons, sumBy, sumBy_map f g xs]; rfl

/-- loads are paid by vectors that are not loaded -/
def loadPurse : Purse K V where
  pay m := m.loads
  pot := unloaded
  pay_zero := rfl
  pay_add _ _ := rfl
  pay_fresh _ := rfl
  pot_val t p v := by rw [unloaded_eq, unloaded_eq t]
  own h := by rw [unloaded_eq, h]; simp
  childrenMut t := by
    rw [unloaded_eq t]
    unfold CTree.childrenMut
    split
    · rename_i h; rw [unloaded_eq, h]; simp
    · rename_i h; rw [unloaded_eq, h]; simp [sumBy_map, unloaded_share]
    · rw [pure_res, unloaded_eq]; exact Nat.le_of_eq (Nat.zero_add _)
  load t := by
    rw [unloaded_eq t]
    unfold CTree.load
    split
    · rename_i h; rw [unloaded_eq, h]; simp
    · rw [pure_res, unloaded_eq]; exact Nat.le_of_eq (Nat.zero_add _)

/-! ### Copies -/

omit [Ord K] [DecidableEq K] in
theorem foreigns_eq : ∀ (l : List (CTree K V)), foreigns l = sumBy foreign l
  | [] => rfl
  | c :: cs => by rw [foreigns, foreigns_eq cs]; rfl
omit [Ord K] [DecidableEq K] in
theorem nodesL_plains : ∀ (l : List (CTree K V)), foreigns l ≤ Tree.nodes.nodesL (plains l)
  | [] => Nat.le_refl _
  | c :: cs => by
    have h1 := nodesL_plains cs
    have h2 : foreign c ≤ c.plain.nodes := by
      obtain ⟨p, v, h, ks⟩ := c
      have := nodesL_plains ks
      rw [CTree.plain, Tree.nodes]
      cases h <;> rw [foreign] <;> omega
    rw [foreigns, plains, Tree.nodes.nodesL]
    omega
omit [Ord K] [DecidableEq K] in
theorem foreign_le (c : CTree K V) : foreign c ≤ c.plain.nodes := by
  have := nodesL_plains [c]
  simpa [foreigns, plains, Tree.nodes.nodesL] using this
omit [Ord K] [DecidableEq K] in
theorem unloadeds_le : ∀ (l : List (CTree K V)), unloadeds l ≤ Tree.nodes.nodesL (plains l)
  | [] => Nat.le_refl _
  | c :: cs => by
    have h1 := unloadeds_le cs
    have h2 : unloaded c ≤ c.plain.nodes := by
      obtain ⟨p, v, h, ks⟩ := c
      have := unloadeds_le ks
      rw [CTree.plain, Tree.nodes, unloaded]
      split <;> omega
    rw [unloadeds, plains, Tree.nodes.nodesL]
    omega
omit [Ord K] [DecidableEq K] in
theorem unloaded_le (c : CTree K V) : unloaded c ≤ c.plain.nodes := by
  have := unloadeds_le [c]
  simpa [unloadeds, plains, Tree.nodes.nodesL] using this
omit [Ord K] [DecidableEq K] in
theorem foreign_own {t : CTree K V} (h : t.held = .own) : foreign t = sumBy foreign t.kids := by
  obtain ⟨p, v, _, ks⟩ := t
  cases h; rw [foreign, foreigns_eq]
omit [Ord K] [DecidableEq K] in
theorem foreign_other {t : CTree K V} (h : t.held ≠ .own) : foreign t = 1 + Tree.nodes.nodesL (plains t.kids) := by
  obtain ⟨p, v, hh, ks⟩ := t
  cases hh with
  | own => exact absurd rfl h
  | raw => rw [foreign]
  | shared => rw [foreign]
omit [Ord K] [DecidableEq K] in
theorem foreign_val (t : CTree K V) (p : List K) (v : Option V) : foreign { t with pre := p, val := v } = foreign t := by
  by_cases h : t.held = .own
  · rw [foreign_own h, foreign_own (t := { t with pre := p, val := v }) h]
  · rw [foreign_other h, foreign_other (t := { t with pre := p, val := v }) h]
omit [Ord K] [DecidableEq K] in
theorem plains_share (l : List (CTree K V)) : plains (l.map CTree.share) = plains l := by
  rw [plains_map, plains_map, List.map_map]
  exact List.map_congr_left fun c _ => share_plain c

/-- copies are paid by vectors that belong to others -/
def copyPurse : Purse K V where
  pay m := m.copies
  pot := foreign
  pay_zero := rfl
  pay_add _ _ := rfl
  pay_fresh _ := rfl
  pot_val := foreign_val
  own := foreign_own
  childrenMut t := by
    unfold CTree.childrenMut
    split
    · rename_i h
      rw [foreign_own (t := { t with held := .own }) rfl, foreign_other (t := t) (by rw [h]; simp), ← foreigns_eq]
      have := nodesL_plains t.kids
      simp only
      omega
    · rename_i h
      rw [foreign_own (t := { t with held := .own, kids := t.kids.map CTree.share }) rfl, foreign_other (t := t) (by rw [h]; simp), ← foreigns_eq]
      have := nodesL_plains (t.kids.map CTree.share)
      rw [plains_share] at this
      exact Nat.add_le_add_left this 1
    · simp [Mem.zero]
  load t := by
    unfold CTree.load
    split
    · rename_i h
      rw [foreign_own (t := { t with held := .own }) rfl, foreign_other (t := t) (by rw [h]; simp), ← foreigns_eq]
      have := nodesL_plains t.kids
      simp only
      omega
    · simp [Mem.zero]

/-! ### Lookups -/

omit [Ord K] [DecidableEq K] in
theorem sumBy_set {α : Type} (f : α → Nat) : ∀ (l : List α) (i : Nat) (c : α), l[i]? = some c → ∀ d m, m + f d ≤ f c → m + sumBy f (l.set i d) ≤ sumBy f l
  | [], i, c, h => by cases i <;> cases h
  | x :: xs, 0, c, h => fun d m hm => by
    cases h
    rw [List.set_cons_zero, sumBy, sumBy]; omega
  | x :: xs, i + 1, c, h => fun d m hm => by
    have := sumBy_set f xs i c (by simpa using h) d m hm
    rw [List.set_cons_succ, sumBy, sumBy]; omega

theorem findGo_loads : ∀ fuel (t : CTree K V) (p : List K), (findGo id fuel t p).mem.loads + unloaded (findGo id fuel t p).res.2 ≤ unloaded t := by
  intro fuel
  induction fuel with
  | zero => intro t p; simp [findGo, Mem.zero]
  | succ fuel ih =>
    intro t p
    by_cases h1 : p.length - commonPrefix t.pre p = 0 ∧ t.pre.length - commonPrefix t.pre p = 0
    · rw [findGo, if_pos h1]; simp [Mem.zero]
    by_cases h2 : p.length - commonPrefix t.pre p = 0
    · rw [findGo, if_neg h1, if_pos h2]; simp [Mem.zero]
    by_cases h3 : t.pre.length - commonPrefix t.pre p = 0
    · rw [findGo_load id fuel t p h1 h2 h3]
      have hl := (loadPurse (K := K) (V := V)).load t
      simp only [loadPurse] at hl
      simp only [bind_mem, bind_res, Mem.add]
      revert hl
      generalize t.load.res = u
      intro hl
      unfold scan
      cases binarySearchBy (fun q : List K => compare q.head? p[commonPrefix u.pre p]?) (u.kids.map CTree.pre) with
      | notFound i => simpa [Mem.zero] using hl
      | found i =>
        simp only
        cases hk : u.kids[i]? with
        | none => simpa [Mem.zero] using hl
        | some c =>
          have := sumBy_set unloaded u.kids i c hk _ _ (ih c (p.drop (commonPrefix u.pre p)))
          rw [unloaded_eq u] at hl
          simp only [bind_mem, bind_res, pure_mem, pure_res, add_zero]
          rw [unloaded_eq]
          simp only
          omega
    · rw [findGo, if_neg h1, if_neg h2, if_neg h3]; simp [Mem.zero]

theorem findGo_foreign (fuel : Nat) (t : CTree K V) (p : List K) : (findGo id fuel t p).mem.copies = 0 ∧ (findGo id fuel t p).res.2.plain = t.plain ∧
    foreign (findGo id fuel t p).res.2 ≤ foreign t := by
  induction fuel generalizing t p with
  | zero => exact ⟨rfl, rfl, Nat.le_refl _⟩
  | succ fuel ih =>
    by_cases h1 : p.length - commonPrefix t.pre p = 0 ∧ t.pre.length - commonPrefix t.pre p = 0
    · rw [findGo, if_pos h1]; exact ⟨rfl, rfl, Nat.le_refl _⟩
    by_cases h2 : p.length - commonPrefix t.pre p = 0
    · rw [findGo, if_neg h1, if_pos h2]; exact ⟨rfl, rfl, Nat.le_refl _⟩
    by_cases h3 : t.pre.length - commonPrefix t.pre p = 0
    · rw [findGo_load id fuel t p h1 h2 h3]
      have hl := (copyPurse (K := K) (V := V)).load t
      simp only [copyPurse] at hl
      have hp := load_plain t
      simp only [bind_mem, bind_res, Mem.add]
      have hz : t.load.mem.copies = 0 := (load_reads t).1
      rw [hz]
      revert hl hp
      generalize t.load.res = u
      intro hl hp
      unfold scan
      cases binarySearchBy (fun q : List K => compare q.head? p[commonPrefix u.pre p]?) (u.kids.map CTree.pre) with
      | notFound i => exact ⟨rfl, hp, by simpa using Nat.le_trans (Nat.le_add_left _ _) hl⟩
      | found i =>
        simp only
        cases hk : u.kids[i]? with
        | none => exact ⟨rfl, hp, by simpa using Nat.le_trans (Nat.le_add_left _ _) hl⟩
        | some c =>
          obtain ⟨g1, g2, g3⟩ := ih c (p.drop (commonPrefix u.pre p))
          simp only [bind_mem, bind_res, pure_mem, pure_res, add_zero]
          have hpl : (u.kids.set i (findGo id fuel c (p.drop (commonPrefix u.pre p))).res.2).map CTree.plain = u.kids.map CTree.plain := by
            have hci : u.kids[i]'(List.getElem?_eq_some_iff.1 hk).1 = c := (List.getElem?_eq_some_iff.1 hk).2
            rw [List.map_set, g2, ← hci]
            apply List.ext_getElem (by simp)
            intro j h1 h2
            rw [List.getElem_set]
            split
            · subst_vars; simp
            · rfl
          refine ⟨by rw [g1], ?_, ?_⟩
          · rw [← hp, plain_eq, plain_eq u]
            simp only [hpl]
          · refine Nat.le_trans ?_ (Nat.le_trans (Nat.le_add_left _ _) hl)
            by_cases ho : u.held = .own
            · rw [foreign_own (t := { u with kids := _ }) ho, foreign_own ho]
              have := sumBy_set foreign u.kids i c hk _ 0 (by rw [Nat.zero_add]; exact g3)
              rwa [Nat.zero_add] at this
            · rw [foreign_other (t := { u with kids := _ }) ho, foreign_other ho, plains_map, plains_map]
              simp only [hpl]
              exact Nat.le_refl _
    · rw [findGo, if_neg h1, if_neg h2, if_neg h3]; exact ⟨rfl, rfl, Nat.le_refl _⟩

end
end Verif.Cow
