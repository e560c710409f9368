import Verif.Lemmas.SharedOps
import Verif.Lemmas.SharedRead
import Verif.Lemmas.SharedBool
import Verif.Lemmas.RadixIter
import Verif.Model.SharedWorld
import Verif.Model.PlainWorld
import Verif.Lemmas.RadixHistory
/-! Histories on handles, executed on the shared heap, act like histories on independent trees. -/
namespace Verif
namespace Tree
open Std
variable {K V W : Type _} [Ord K] [TransOrd K] [LawfulEqOrd K] [DecidableEq K]

omit [DecidableEq K] in
theorem kidsRef_congr {P : Par K V W} {r r' : Tree K V → Tree K W → Tree K V} {as : List (Tree K V)} {bs : List (Tree K W)}
    (h : ∀ x ∈ as, ∀ y ∈ bs, hd x = hd y → r x y = r' x y) : kidsRef P r as bs = kidsRef P r' as bs := by
  have e := joinRef_congr (cmp := headCmp) (fa := fun a => Emit.ret (P.ga a)) (fa' := fun a => Emit.ret (P.ga a))
    (fb := fun b => Emit.ret (P.gb b)) (fb' := fun b => Emit.ret (P.gb b))
    (fc := fun x y => Emit.ret (nonEmpty (r x y))) (fc' := fun x y => Emit.ret (nonEmpty (r' x y))) as bs (fun _ _ => rfl) (fun _ _ => rfl)
    (fun a ha b hb hc => by rw [headCmp_eq] at hc; rw [h a ha b hb (cmp_eq_iff.1 hc)])
  rw [joinRef_ret, joinRef_ret] at e
  unfold kidsRef
  exact (Prod.mk.inj e).1

/-- the fuel does not matter, as long as there is enough -/
theorem ref_fuel (P : Par K V W) : ∀ (m n : Nat) (a : Tree K V) (b : Tree K W), Valid a → Valid b → a.size + b.size < m → a.size + b.size < n →
    ref P m a b = ref P n a b
  | 0, _, _, _, _, _, h, _ => by omega
  | _ + 1, 0, _, _, _, _, _, h => by omega
  | m + 1, n + 1, a, b, ha, hb, hm, hn => by
    have hrec : ∀ x y, Sub a b x y → ref P m x y = ref P n x y :=
      fun x y h => ref_fuel P m n x y h.left h.right (by have := h.size; omega) (by have := h.size; omega)
    unfold ref
    have hla := commonPrefix_le_left a.pre b.pre
    have hlb := commonPrefix_le_right a.pre b.pre
    have hdf := commonPrefix_differ a.pre b.pre
    have hpos := heads_pos a b
    revert hla hlb hdf hpos
    generalize commonPrefix a.pre b.pre = c
    intro hla hlb hdf hpos
    congr 1
    unfold refCases
    by_cases h1 : c = a.pre.length ∧ c = b.pre.length
    · rw [if_pos h1, if_pos h1, kidsRef_congr (agree_kids hrec ha hb hpos hla hlb)]
    rw [if_neg h1, if_neg h1]
    by_cases h2 : c = b.pre.length
    · rw [if_pos h2, if_pos h2, kidsRef_congr (agree_kids_left hrec ha hb (by omega) hpos hlb)]
    rw [if_neg h2, if_neg h2]
    by_cases h3 : c = a.pre.length
    · rw [if_pos h3, if_pos h3, kidsRef_congr (agree_kids_right hrec ha hb (by omega) hpos hla)]
    rw [if_neg h3, if_neg h3]
    cases P.dis with
    | some d => cases d <;> rfl
    | none =>
      simp only
      rw [kidsRef_congr (r := ref P m) (r' := ref P n)]
      intro x hx y hy e
      simp only [List.mem_singleton] at hx hy
      subst hx hy
      exact absurd e (hdf (by omega) (by omega))
end Tree

namespace Shared
open Std
open Verif.Tree (Valid kept closure den closure_noPanic pureOf_closure outerWithGo_eq innerWithGo_eq leftWithGo_eq removePrefixGo_eq retainPrefixGo_eq ref_fuel)
section
variable {K V : Type} [Ord K] [TransOrd K] [LawfulEqOrd K] [DecidableEq K]

/-- the trees that can be combined with the given fuel -/
abbrev Enough (fuel : Nat) (a b : Tree K V) : Prop := Valid a ∧ Valid b ∧ a.size + b.size < fuel

omit [Ord K] [TransOrd K] [LawfulEqOrd K] [DecidableEq K] in
theorem RecOk.of_eq {rec : Loc → Loc → Act K V Unit} {g g' : Tree K V → Tree K V → Tree K V} {x y : Tree K V} (h : RecOk rec g x y)
    (e : g x y = g' x y) : RecOk rec g' x y := fun ts l r hl hr hne => e ▸ h ts l r hl hr hne

theorem outer_run (f : V → V → V × Bool) {fuel : Nat} {a b : Tree K V} (h : Enough fuel a b) :
    RecOk (outerWithP (fun v w => kept (f v w)) fuel) (fun a b => (a.outerCombineWith b (closure f)).1) a b := by
  obtain ⟨ha, hb, hs⟩ := h
  refine (outer_ok _ fuel a b ha hb hs).of_eq ?_
  simp only [Tree.outerCombineWith]
  rw [outerWithGo_eq (closure_noPanic f) _ a b ha hb (Nat.lt_succ_self _), pureOf_closure]
  exact ref_fuel _ _ _ a b ha hb hs (Nat.lt_succ_self _)

theorem inner_run (f : V → V → V × Bool) {fuel : Nat} {a b : Tree K V} (h : Enough fuel a b) :
    RecOk (innerWithP (fun v w => kept (f v w)) fuel) (fun a b => (a.innerCombineWith b (closure f)).1) a b := by
  obtain ⟨ha, hb, hs⟩ := h
  refine (inner_ok _ fuel a b ha hb hs).of_eq ?_
  simp only [Tree.innerCombineWith]
  rw [innerWithGo_eq (closure_noPanic f) _ a b ha hb (Nat.lt_succ_self _), pureOf_closure]
  exact ref_fuel _ _ _ a b ha hb hs (Nat.lt_succ_self _)

theorem left_run (f : V → V → V × Bool) {fuel : Nat} {a b : Tree K V} (h : Enough fuel a b) :
    RecOk (leftWithP (fun v w => kept (f v w)) fuel) (fun a b => (a.leftCombineWith b (closure f)).1) a b := by
  obtain ⟨ha, hb, hs⟩ := h
  refine (left_ok _ fuel a b ha hb hs).of_eq ?_
  simp only [Tree.leftCombineWith]
  rw [leftWithGo_eq (closure_noPanic f) _ a b ha hb (Nat.lt_succ_self _), pureOf_closure]
  exact ref_fuel _ _ _ a b ha hb hs (Nat.lt_succ_self _)

theorem remove_run (f : V → Bool) {fuel : Nat} {a b : Tree K V} (h : Enough fuel a b) :
    RecOk (removePrefixP f fuel) (fun a b => (a.removePrefixWith b f).1) a b := by
  obtain ⟨ha, hb, hs⟩ := h
  refine (remove_ok f fuel a b ha hb hs).of_eq ?_
  simp only [Tree.removePrefixWith]
  rw [removePrefixGo_eq _ a b ha hb (Nat.lt_succ_self _)]
  exact ref_fuel _ _ _ a b ha hb hs (Nat.lt_succ_self _)

theorem retain_run (f : V → Bool) {fuel : Nat} {a b : Tree K V} (h : Enough fuel a b) :
    RecOk (retainPrefixP f fuel) (fun a b => (a.retainPrefixWith b f).1) a b := by
  obtain ⟨ha, hb, hs⟩ := h
  refine (retain_ok f fuel a b ha hb hs).of_eq ?_
  simp only [Tree.retainPrefixWith]
  rw [retainPrefixGo_eq _ a b ha hb (Nat.lt_succ_self _)]
  exact ref_fuel _ _ _ a b ha hb hs (Nat.lt_succ_self _)

theorem union_run {fuel : Nat} {a b : Tree K V} (h : Enough fuel a b) :
    RecOk (unionWithP fuel) (fun a b => (a.unionWith b).1) a b := outer_run (fun a _ => (a, true)) h
theorem intersection_run {fuel : Nat} {a b : Tree K V} (h : Enough fuel a b) :
    RecOk (intersectionWithP fuel) (fun a b => (a.intersectionWith b).1) a b := inner_run (fun a _ => (a, true)) h
theorem difference_run {fuel : Nat} {a b : Tree K V} (h : Enough fuel a b) :
    RecOk (differenceWithP fuel) (fun a b => (a.differenceWith b).1) a b := left_run (fun a _ => (a, false)) h

theorem insert_run {fuel : Nat} {a : Tree K V} {key : List K} {v : V} (ha : Valid a) (hs : a.size + key.length + 1 < fuel) {ts : Vars K V}
    {l : Loc} (hl : ts.at l = some a) : Upd (insertP fuel l key v) ts () l (a.insert key v).1 := by
  refine Upd.withNew (u := Tree.single key v) hl ⟨0, ?_⟩ ?_
  · have := does_make (ts := ts) (c := .new key (some v) []) (ts' := ts ++ [some (Tree.single key v)]) rfl (by simp)
    simpa using this
  · intro ts1 r h1 hne h2 _
    have hz : (Tree.single key v).size = key.length + 1 := by
      simp only [Tree.size_eq, Tree.single, Tree.size.sizeL]; omega
    exact outer_run (fun _ b => (b, true)) ⟨ha, (Tree.canonical_single key v).1, by omega⟩ ts1 l ⟨r, []⟩ h1 h2 hne

/-! ### Combinations into a new tree -/

omit [Ord K] [TransOrd K] [LawfulEqOrd K] [DecidableEq K] in
theorem RecMk.of_eq {rec : Loc → Loc → Act K V Nat} {g g' : Tree K V → Tree K V → Tree K V} {x y : Tree K V} (h : RecMk rec g x y)
    (e : g x y = g' x y) : RecMk rec g' x y := fun ts l r hl hr => e ▸ h ts l r hl hr

theorem outerPure_run (f : V → V → Option V) {fuel : Nat} {a b : Tree K V} (h : Enough fuel a b) :
    RecMk (outerP f fuel) (fun a b => retOr a (a.outerCombine b f)) a b := by
  obtain ⟨ha, hb, hs⟩ := h
  refine (outerP_ok f fuel a b ha hb hs).of_eq ?_
  simp only [Tree.outerCombine]
  rw [Tree.outerGo_eq _ a b ha hb (Nat.lt_succ_self _)]
  exact ref_fuel _ _ _ a b ha hb hs (Nat.lt_succ_self _)

theorem innerPure_run (f : V → V → Option V) {fuel : Nat} {a b : Tree K V} (h : Enough fuel a b) :
    RecMk (innerP f fuel) (fun a b => retOr a (a.innerCombine b f)) a b := by
  obtain ⟨ha, hb, hs⟩ := h
  refine (innerP_ok f fuel a b ha hb hs).of_eq ?_
  simp only [Tree.innerCombine]
  rw [Tree.innerGo_eq _ a b ha hb (Nat.lt_succ_self _)]
  exact ref_fuel _ _ _ a b ha hb hs (Nat.lt_succ_self _)

theorem leftPure_run (f : V → Option V → Option V) {fuel : Nat} {a b : Tree K V} (h : Enough fuel a b) :
    RecMk (leftP f fuel) (fun a b => retOr a (a.leftCombine b f)) a b := by
  obtain ⟨ha, hb, hs⟩ := h
  refine (leftP_ok f fuel a b ha hb hs).of_eq ?_
  simp only [Tree.leftCombine]
  rw [Tree.leftGo_eq _ a b ha hb (Nat.lt_succ_self _)]
  exact ref_fuel _ _ _ a b ha hb hs (Nat.lt_succ_self _)

theorem filterPrefix_makes {fuel : Nat} {a : Tree K V} {p : List K} (ha : Valid a) (hs : a.size < fuel) {ts : Vars K V} {l : Loc}
    (hl : ts.at l = some a) : Makes (filterPrefixP fuel l p) ts (retOr a (a.filterPrefix p)) := by
  obtain ⟨r, hr, -⟩ := Tree.filterPrefix_spec ha p
  rw [hr]
  exact filterPrefix_run hl hs hr

omit [Ord K] [TransOrd K] [LawfulEqOrd K] [DecidableEq K] in
theorem let_ok {m : Act K V Nat} {ts : Vars K V} {u : Tree K V} (h : Makes m ts u) : ∃ d, Does (letP m) ts () (ts ++ dead d ++ [some u]) := by
  obtain ⟨j, j', h⟩ := h
  refine ⟨j + 1 + j', h.bind ?_⟩
  have e1 : (ts ++ dead j ++ [some u] ++ dead j' ++ [some Tree.empty])[ts.length + j]? = some (some u) := by
    rw [List.getElem?_append_left (by simp <;> omega), List.getElem?_append_left (by simp <;> omega), List.getElem?_append_right (by simp)]; simp
  have e2 : (ts ++ dead j ++ [some u] ++ dead j' ++ [some Tree.empty])[(ts ++ dead j ++ [some u] ++ dead j').length]? = some (some Tree.empty) := by
    simp
  have hne : (ts ++ dead j ++ [some u] ++ dead j').length ≠ ts.length + j := by simp <;> omega
  have hm := does_make (ts := ts ++ dead j ++ [some u] ++ dead j') (c := .default) (ts' := ts ++ dead j ++ [some u] ++ dead j' ++ [some Tree.empty]) rfl
    (by simp <;> omega)
  have p1 : Vars.put (ts ++ dead j ++ [some u] ++ dead j' ++ [some Tree.empty]) ⟨(ts ++ dead j ++ [some u] ++ dead j').length, []⟩ u =
      ts ++ dead j ++ [some u] ++ dead j' ++ [some u] := by
    have := put_last (xs := ts ++ dead j ++ [some u] ++ dead j') [] Tree.empty u
    simpa using this
  have hsw : Vars.step (ts ++ dead j ++ [some u] ++ dead j' ++ [some Tree.empty])
      (.swap ⟨(ts ++ dead j ++ [some u] ++ dead j').length, []⟩ (ts.length + j)) =
      (ts ++ dead j ++ [some Tree.empty] ++ dead j' ++ [some u], .ok) := by
    simp only [Vars.step, if_neg hne, at_temp e2, e1, p1]
    rw [List.set_append_left _ _ (by simp <;> omega), List.set_append_left _ _ (by simp <;> omega), List.set_append_right _ _ (by simp)]
    simp
  have e3 : (ts ++ dead j ++ [some Tree.empty] ++ dead j' ++ [some u])[ts.length + j]? = some (some Tree.empty) := by
    rw [List.getElem?_append_left (by simp <;> omega), List.getElem?_append_left (by simp <;> omega), List.getElem?_append_right (by simp)]; simp
  refine hm.bind (Does.bind (a := ()) (does_exec hsw (by simp)) (does_exec ?_ (by simp <;> omega)))
  simp only [Vars.step, e3]
  rw [List.set_append_left _ _ (by simp <;> omega), List.set_append_left _ _ (by simp <;> omega), List.set_append_right _ _ (by simp)]
  simp [dead, replicate_plus]

/-! ### From the value machine to the heap -/

omit [Ord K] [TransOrd K] [LawfulEqOrd K] [DecidableEq K] in
theorem runAct_ok {α : Type _} {s : St K V} {F ts ts'} {m : Act K V α} {a : α} (ho : Ok s F ts) (h : Does m ts a ts') : Ok (s.runAct m) F ts' := by
  have h1 := (run_ok (m s.regs.length (fun _ _ => .done)) ho).1
  have h2 := h (fun _ _ => .done)
  rw [← ho.regs.len] at h2
  rw [h2] at h1
  exact h1

/-! ### Histories -/

open Classical in
/-- a number with a property, if there is one -/
noncomputable def bound (P : Nat → Prop) : Nat := if h : ∃ N, P N then Classical.choose h else 0

theorem bound_spec {P : Nat → Prop} (h : ∃ N, P N) : P (bound P) := by
  unfold bound; rw [dif_pos h]; exact Classical.choose_spec h

/-- a query that is answered if there is enough fuel -/
def Answered {α : Type} (m : Nat → Loc → Act K V α) (t : Tree K V) (N : Nat) : Prop :=
  ∀ (ts : Vars K V) l, ts.at l = some t → ∀ fuel, N ≤ fuel → ∃ x, Looks (m fuel l) ts x

theorem entries_answered {t : Tree K V} (h : Valid t) : ∃ N, Answered entriesP t N := by
  obtain ⟨l, h1, -⟩ := Tree.iter_new h []
  obtain ⟨N, hN⟩ := entries_run h1
  exact ⟨N, fun ts q hq fuel hf => ⟨_, hN ts q hq fuel hf⟩⟩
theorem values_answered {t : Tree K V} (h : Valid t) : ∃ N, Answered valuesP t N := by
  obtain ⟨l, -, -, -, h1⟩ := Tree.iter_new h []
  obtain ⟨N, hN⟩ := values_run h1
  exact ⟨N, fun ts q hq fuel hf => ⟨_, hN ts q hq fuel hf⟩⟩
theorem scanPrefix_answered {t : Tree K V} (h : Valid t) (p : List K) : ∃ N, Answered (fun n l => scanPrefixP n l p) t N := by
  obtain ⟨it, h1, l, h2, -⟩ := Tree.scanPrefix_spec h p
  obtain ⟨N, hN⟩ := scanPrefix_run h1 h2
  exact ⟨N, fun ts q hq fuel hf => ⟨_, hN ts q hq fuel hf⟩⟩

/-- the size of a tree -/
def Trees.sz (xs : Trees K V) (i : Nat) : Nat := match xs[i]? with | some (some t) => t.size | _ => 0

/-- the fuel a call needs -/
noncomputable def Trees.need (xs : Trees K V) : HandleOp K V → Nat
  | .insert i k _ => (match xs[i]? with | some (some t) => t.size | _ => 0) + k.length + 2
  | .unionWith i j | .intersectionWith i j | .differenceWith i j | .outerCombineWith i j _ | .innerCombineWith i j _ | .leftCombineWith i j _
  | .removePrefixWith i j _ | .retainPrefixWith i j _ | .union i j | .intersection i j | .difference i j | .outerCombine i j _
  | .innerCombine i j _ =>
    (match xs[i]? with | some (some t) => t.size | _ => 0) + (match xs[j]? with | some (some t) => t.size | _ => 0) + 1
  | .filterPrefix i _ => (match xs[i]? with | some (some t) => t.size | _ => 0) + 1
  | .get i _ | .containsKey i _ => xs.sz i + 1
  | .intersects i j | .isSubset i j => xs.sz i + xs.sz j + 1
  | .iter i => match xs[i]? with | some (some t) => bound (Answered entriesP t) | _ => 0
  | .values i => match xs[i]? with | some (some t) => bound (Answered valuesP t) | _ => 0
  | .scanPrefix i p => match xs[i]? with | some (some t) => bound (Answered (fun n l => scanPrefixP n l p) t) | _ => 0
  | _ => 0

noncomputable def Trees.needs : Trees K V → List (HandleOp K V) → Nat
  | _, [] => 0
  | xs, op :: ops => max (xs.need op) (Trees.needs (xs.apply op) ops)

/-- The handles of `w` hold the trees `xs`, in different variables `ts`; there are no other live variables. -/
structure Holds (w : HeapWorld K V) (ts : Vars K V) (xs : Trees K V) : Prop where
  ok : Ok w.st [] ts
  len : w.vars.length = xs.length
  dead : ∀ i : Nat, w.vars[i]? = some none → xs[i]? = some none
  live : ∀ (i : Nat) a, w.vars[i]? = some (some a) → ∃ t, ts[a]? = some (some t) ∧ xs[i]? = some (some t)
  inj : ∀ (i j : Nat) a, w.vars[i]? = some (some a) → w.vars[j]? = some (some a) → i = j
  owned : ∀ (a : Nat) t, ts[a]? = some (some t) → ∃ i : Nat, w.vars[i]? = some (some a)

omit [Ord K] [TransOrd K] [LawfulEqOrd K] [DecidableEq K] in
theorem Holds.var {w : HeapWorld K V} {ts : Vars K V} {xs : Trees K V} (h : Holds w ts xs) {i : Nat} {t : Tree K V} (hx : xs[i]? = some (some t)) :
    ∃ a, w.vars[i]? = some (some a) ∧ ts[a]? = some (some t) := by
  have hi : i < w.vars.length := by rw [h.len]; exact lt_of_getElem? hx
  have hv : w.vars[i]? = some w.vars[i] := List.getElem?_eq_getElem hi
  cases hw : w.vars[i] with
  | none => rw [hw] at hv; rw [h.dead i hv] at hx; cases hx
  | some a =>
    rw [hw] at hv
    obtain ⟨t', h1, h2⟩ := h.live i a hv
    rw [hx] at h2; cases h2
    exact ⟨a, hv, h1⟩

omit [Ord K] [TransOrd K] [LawfulEqOrd K] [DecidableEq K] in
theorem Holds.not_live {w : HeapWorld K V} {ts : Vars K V} {xs : Trees K V} (h : Holds w ts xs) {i : Nat} (hx : ∀ t, xs[i]? ≠ some (some t)) :
    ∀ a, w.vars[i]? ≠ some (some a) := by
  intro a ha
  obtain ⟨t, -, h2⟩ := h.live i a ha
  exact hx t h2

theorem getElem?_snoc {α : Type _} (l : List α) (x : α) (i : Nat) :
    (l ++ [x])[i]? = if i = l.length then some x else l[i]? := by
  by_cases h : i = l.length
  · subst h; simp
  · rw [if_neg h]
    rcases Nat.lt_or_gt_of_ne h with h' | h'
    · rw [List.getElem?_append_left h']
    · rw [List.getElem?_append_right (by omega), List.getElem?_eq_none (by omega : l.length ≤ i), List.getElem?_eq_none (by simp; omega)]

omit [Ord K] [TransOrd K] [LawfulEqOrd K] [DecidableEq K] in
theorem holds_make {w : HeapWorld K V} {ts : Vars K V} {xs : Trees K V} (h : Holds w ts xs) {c : Cmd K V} {t : Tree K V}
    (hc : ts.step c = (ts ++ [some t], .ok)) : Holds (w.make c) (ts ++ [some t]) (xs ++ [some t]) := by
  have hl : w.st.regs.length = ts.length := h.ok.regs.len
  have hlt : ∀ i a, w.vars[i]? = some (some a) → a < ts.length := fun i a ha => by
    obtain ⟨t', h1, -⟩ := h.live i a ha; exact lt_of_getElem? h1
  refine ⟨runAct_ok h.ok (does_make hc (by simp)), by simp [HeapWorld.make, h.len], ?_, ?_, ?_, ?_⟩
  · intro i hi
    simp only [HeapWorld.make, getElem?_snoc] at hi ⊢
    split at hi
    · cases hi
    · rename_i e
      rw [h.len] at e
      rw [if_neg e]; exact h.dead i hi
  · intro i a hi
    simp only [HeapWorld.make, getElem?_snoc] at hi ⊢
    split at hi
    · rename_i e
      cases hi
      exact ⟨t, by rw [hl, if_pos rfl], by rw [if_pos (by rw [← h.len]; exact e)]⟩
    · rename_i e
      obtain ⟨t', h1, h2⟩ := h.live i a hi
      have := hlt i a hi
      exact ⟨t', by rw [if_neg (by omega)]; exact h1, by rw [if_neg (by rw [← h.len]; exact e)]; exact h2⟩
  · intro i j a hi hj
    simp only [HeapWorld.make, getElem?_snoc] at hi hj
    split at hi <;> split at hj
    · omega
    · cases hi; have := hlt j _ hj; omega
    · cases hj; have := hlt i _ hi; omega
    · exact h.inj i j a hi hj
  · intro a u ha
    simp only [HeapWorld.make, getElem?_snoc] at ha ⊢
    split at ha
    · rename_i e
      exact ⟨w.vars.length, by rw [if_pos rfl, hl, e]⟩
    · obtain ⟨i, hi⟩ := h.owned a u ha
      refine ⟨i, ?_⟩
      rw [if_neg (by have := lt_of_getElem? hi; omega)]; exact hi

omit [Ord K] [TransOrd K] [LawfulEqOrd K] [DecidableEq K] in
/-- a program part whose result goes to a new handle -/
theorem holds_let {w : HeapWorld K V} {ts : Vars K V} {xs : Trees K V} (h : Holds w ts xs) {m : Act K V Nat} {t : Tree K V} (hm : Makes m ts t) :
    ∃ ts', Holds ⟨w.st.runAct (letP m), w.vars ++ [some ((w.st.runAct (letP m)).regs.length - 1)]⟩ ts' (xs ++ [some t]) := by
  obtain ⟨d, hd⟩ := let_ok hm
  have hok := runAct_ok h.ok hd
  have hl : (w.st.runAct (letP m)).regs.length - 1 = ts.length + d := by rw [hok.regs.len]; simp
  have hlt : ∀ i a, w.vars[i]? = some (some a) → a < ts.length := fun i a ha => by
    obtain ⟨t', h1, -⟩ := h.live i a ha; exact lt_of_getElem? h1
  have hold : ∀ a, a < ts.length → (ts ++ dead d ++ [some t])[a]? = ts[a]? := fun a ha => by
    rw [List.getElem?_append_left (by simp; omega), List.getElem?_append_left ha]
  rw [hl]
  refine ⟨_, ⟨hok, by simp [h.len], ?_, ?_, ?_, ?_⟩⟩
  · intro i hi
    simp only [getElem?_snoc] at hi ⊢
    split at hi
    · cases hi
    · rename_i e
      rw [h.len] at e
      rw [if_neg e]; exact h.dead i hi
  · intro i a hi
    rw [getElem?_snoc] at hi
    split at hi
    · rename_i e
      cases hi
      refine ⟨t, ?_, by rw [getElem?_snoc, if_pos (by rw [← h.len]; exact e)]⟩
      rw [List.getElem?_append_right (by simp)]; simp
    · rename_i e
      obtain ⟨t', h1, h2⟩ := h.live i a hi
      exact ⟨t', by rw [hold a (hlt i a hi)]; exact h1, by rw [getElem?_snoc, if_neg (by rw [← h.len]; exact e)]; exact h2⟩
  · intro i j a hi hj
    simp only [getElem?_snoc] at hi hj
    split at hi <;> split at hj
    · omega
    · cases hi; have := hlt j _ hj; omega
    · cases hj; have := hlt i _ hi; omega
    · exact h.inj i j a hi hj
  · intro a u ha
    rcases Nat.lt_or_ge a ts.length with hlt' | hge
    · rw [hold a hlt'] at ha
      obtain ⟨i, hi⟩ := h.owned a u ha
      refine ⟨i, ?_⟩
      rw [getElem?_snoc, if_neg (by have := lt_of_getElem? hi; omega)]; exact hi
    · refine ⟨w.vars.length, ?_⟩
      rw [getElem?_snoc, if_pos rfl]
      rcases Nat.lt_or_ge a (ts.length + d) with h3 | h3
      · rw [List.getElem?_append_left (by simp; omega), List.getElem?_append_right hge] at ha
        simp only [dead, List.getElem?_replicate] at ha
        split at ha <;> cases ha
      · have := lt_of_getElem? ha
        simp at this
        have : a = ts.length + d := by omega
        rw [this]

omit [Ord K] [TransOrd K] [LawfulEqOrd K] [DecidableEq K] in
theorem holds_drop {w : HeapWorld K V} {ts : Vars K V} {xs : Trees K V} (h : Holds w ts xs) {i a : Nat} (hi : w.vars[i]? = some (some a)) :
    Holds ⟨w.st.runAct (exec (.drop a)), w.vars.set i none⟩ (ts.set a none) (xs.set i none) := by
  obtain ⟨t, h1, h2⟩ := h.live i a hi
  have hil := lt_of_getElem? hi
  have hst : ts.step (.drop a) = (ts.set a none, .ok) := by simp only [Vars.step, h1]
  refine ⟨runAct_ok h.ok (does_exec hst (by simp)), by simp [h.len], ?_, ?_, ?_, ?_⟩
  · intro j hj
    simp only [List.getElem?_set] at hj ⊢
    split at hj
    · rename_i e
      subst e
      rw [if_pos rfl, if_pos (by rw [← h.len]; exact hil)]
    · rename_i e
      rw [if_neg e]; exact h.dead j hj
  · intro j b hj
    simp only [List.getElem?_set] at hj ⊢
    split at hj
    · cases hj
    · rename_i e
      obtain ⟨t', h3, h4⟩ := h.live j b hj
      refine ⟨t', ?_, by rw [if_neg e]; exact h4⟩
      rw [if_neg (by intro e'; subst e'; exact e (h.inj i j a hi hj))]; exact h3
  · intro j k b hj hk
    simp only [List.getElem?_set] at hj hk
    split at hj
    · cases hj
    split at hk
    · cases hk
    exact h.inj j k b hj hk
  · intro b u hb
    simp only [List.getElem?_set] at hb ⊢
    split at hb
    · split at hb <;> cases hb
    · rename_i e
      obtain ⟨j, hj⟩ := h.owned b u hb
      refine ⟨j, ?_⟩
      rw [if_neg (by intro e'; subst e'; rw [hi] at hj; cases hj; exact e rfl)]; exact hj

omit [Ord K] [TransOrd K] [LawfulEqOrd K] [DecidableEq K] in
/-- a program part that changes the tree of handle `i` -/
theorem holds_upd {w : HeapWorld K V} {ts : Vars K V} {xs : Trees K V} (h : Holds w ts xs) {i a : Nat} (hi : w.vars[i]? = some (some a))
    {m : Act K V Unit} {t' : Tree K V} (hm : Upd m ts () ⟨a, []⟩ t') :
    ∃ ts', Holds { w with st := w.st.runAct m } ts' (xs.set i (some t')) := by
  obtain ⟨t, h1, h2⟩ := h.live i a hi
  have hil := lt_of_getElem? hi
  have hal := lt_of_getElem? h1
  obtain ⟨d, hd⟩ := hm
  rw [put_temp h1] at hd
  refine ⟨_, ⟨runAct_ok h.ok hd, by simp [h.len], ?_, ?_, h.inj, ?_⟩⟩
  · intro j hj
    rw [List.getElem?_set, if_neg (by intro e; subst e; simp [hi] at hj)]
    exact h.dead j hj
  · intro j b hj
    obtain ⟨u, h3, h4⟩ := h.live j b hj
    by_cases e : i = j
    · subst e
      rw [hi] at hj; cases hj
      exact ⟨t', by rw [List.getElem?_append_left (by simpa using hal)]; simp [hal], by simp [← h.len, hil]⟩
    · refine ⟨u, ?_, by rw [List.getElem?_set, if_neg e]; exact h4⟩
      rw [List.getElem?_append_left (by simpa using lt_of_getElem? h3), List.getElem?_set,
        if_neg (by intro e'; subst e'; exact e (h.inj i j a hi hj))]
      exact h3
  · intro b u hb
    have hbl : b < ts.length := by
      rcases Nat.lt_or_ge b ts.length with hb' | hb'
      · exact hb'
      · rw [List.getElem?_append_right (by simpa using hb')] at hb
        simp only [dead, List.getElem?_replicate] at hb
        split at hb <;> cases hb
    rw [List.getElem?_append_left (by simpa using hbl), List.getElem?_set] at hb
    split at hb
    · rename_i e; subst e; exact ⟨i, hi⟩
    · exact h.owned b u hb

/-- a call that combines the trees of two handles -/
theorem holds_on2 {w : HeapWorld K V} {ts : Vars K V} {xs : Trees K V} (h : Holds w ts xs) (i j : Nat) {fuel : Nat}
    {rec : Loc → Loc → Act K V Unit} {g : Tree K V → Tree K V → Tree K V} (hv : ∀ (k : Nat) t, xs[k]? = some (some t) → Valid t)
    (hn : (match xs[i]? with | some (some t) => t.size | _ => 0) + (match xs[j]? with | some (some t) => t.size | _ => 0) + 1 ≤ fuel)
    (hr : ∀ a b, Enough fuel a b → RecOk rec g a b) : ∃ ts', Holds (w.on2 i j rec) ts' (xs.update2 i j g) := by
  unfold HeapWorld.on2 Trees.update2
  by_cases e : i = j
  · rw [if_pos e, if_pos e]; exact ⟨ts, h⟩
  rw [if_neg e, if_neg e]
  by_cases hj : ∃ u, xs[j]? = some (some u)
  · obtain ⟨u, hj⟩ := hj
    obtain ⟨b, hb, hbt⟩ := h.var hj
    rw [hb, hj]
    simp only
    unfold HeapWorld.on Trees.update
    by_cases hi : ∃ t, xs[i]? = some (some t)
    · obtain ⟨t, hi⟩ := hi
      obtain ⟨a, ha, hat⟩ := h.var hi
      rw [ha, hi]
      simp only
      rw [hi, hj] at hn
      exact holds_upd h ha (hr t u ⟨hv i t hi, hv j u hj, by simp only at hn; omega⟩ ts ⟨a, []⟩ ⟨b, []⟩ (at_temp hat) (at_temp hbt)
        (by intro e'; simp only at e'; subst e'; exact e (h.inj i j b ha hb)))
    · have hi' := h.not_live (i := i) (fun t ht => hi ⟨t, ht⟩)
      refine ⟨ts, ?_⟩
      split
      · rename_i a ha; exact absurd ha (hi' a)
      · split
        · rename_i t ht; exact absurd ⟨t, ht⟩ hi
        · exact h
  · have hj' := h.not_live (i := j) (fun t ht => hj ⟨t, ht⟩)
    refine ⟨ts, ?_⟩
    split
    · rename_i a ha; exact absurd ha (hj' a)
    · split
      · rename_i t ht; exact absurd ⟨t, ht⟩ hj
      · exact h

omit [Ord K] [TransOrd K] [LawfulEqOrd K] [DecidableEq K] in
theorem holds_derive {w : HeapWorld K V} {ts : Vars K V} {xs : Trees K V} (h : Holds w ts xs) (i : Nat) {m : Loc → Act K V Nat}
    {g : Tree K V → Tree K V} (hm : ∀ t a, xs[i]? = some (some t) → ts.at ⟨a, []⟩ = some t → Makes (m ⟨a, []⟩) ts (g t)) :
    ∃ ts', Holds (w.derive i m) ts' (xs.derive i g) := by
  unfold HeapWorld.derive Trees.derive
  by_cases hi : ∃ t, xs[i]? = some (some t)
  · obtain ⟨t, hi⟩ := hi
    obtain ⟨a, ha, hat⟩ := h.var hi
    rw [ha, hi]
    exact holds_let h (hm t a hi (at_temp hat))
  · have hi' := h.not_live (i := i) (fun t ht => hi ⟨t, ht⟩)
    refine ⟨ts, ?_⟩
    split
    · rename_i a ha; exact absurd ha (hi' a)
    · split
      · rename_i t ht; exact absurd ⟨t, ht⟩ hi
      · exact h

theorem holds_derive2 {w : HeapWorld K V} {ts : Vars K V} {xs : Trees K V} (h : Holds w ts xs) (i j : Nat) {fuel : Nat}
    {rec : Loc → Loc → Act K V Nat} {g : Tree K V → Tree K V → Tree K V} (hv : ∀ (k : Nat) t, xs[k]? = some (some t) → Valid t)
    (hn : (match xs[i]? with | some (some t) => t.size | _ => 0) + (match xs[j]? with | some (some t) => t.size | _ => 0) + 1 ≤ fuel)
    (hr : ∀ a b, Enough fuel a b → RecMk rec g a b) : ∃ ts', Holds (w.derive2 i j rec) ts' (xs.derive2 i j g) := by
  unfold HeapWorld.derive2 Trees.derive2
  by_cases hj : ∃ u, xs[j]? = some (some u)
  · obtain ⟨u, hj⟩ := hj
    obtain ⟨b, hb, hbt⟩ := h.var hj
    rw [hb, hj]
    refine holds_derive h i ?_
    intro t a hi ha
    rw [hi, hj] at hn
    exact hr t u ⟨hv i t hi, hv j u hj, by simp only at hn; omega⟩ ts ⟨a, []⟩ ⟨b, []⟩ ha (at_temp hbt)
  · have hj' := h.not_live (i := j) (fun t ht => hj ⟨t, ht⟩)
    refine ⟨ts, ?_⟩
    split
    · rename_i a ha; exact absurd ha (hj' a)
    · split
      · rename_i t ht; exact absurd ⟨t, ht⟩ hj
      · exact h

omit [Ord K] [TransOrd K] [LawfulEqOrd K] [DecidableEq K] in
theorem ignore_ok {α : Type} {m : Act K V α} {ts : Vars K V} {x : α} (h : Looks m ts x) : Does (ignore m) ts () ts := h.does.bind (Does.pure _ _)

omit [Ord K] [TransOrd K] [LawfulEqOrd K] [DecidableEq K] in
theorem holds_same {α : Type} {w : HeapWorld K V} {ts : Vars K V} {xs : Trees K V} (h : Holds w ts xs) {m : Act K V α} {x : α} (hm : Looks m ts x) :
    Holds { w with st := w.st.runAct (ignore m) } ts xs :=
  ⟨runAct_ok h.ok (ignore_ok hm), h.len, h.dead, h.live, h.inj, h.owned⟩

omit [Ord K] [TransOrd K] [LawfulEqOrd K] [DecidableEq K] in
theorem holds_ask {α : Type} {w : HeapWorld K V} {ts : Vars K V} {xs : Trees K V} (h : Holds w ts xs) (i : Nat) {m : Loc → Act K V α}
    (hm : ∀ t a, xs[i]? = some (some t) → ts.at ⟨a, []⟩ = some t → ∃ x, Looks (m ⟨a, []⟩) ts x) :
    Holds (w.on i fun l => ignore (m l)) ts xs := by
  unfold HeapWorld.on
  split
  · rename_i a ha
    obtain ⟨t, h1, h2⟩ := h.live i a ha
    obtain ⟨x, hx⟩ := hm t a h2 (at_temp h1)
    exact holds_same h hx
  · exact h

omit [Ord K] [TransOrd K] [LawfulEqOrd K] [DecidableEq K] in
theorem holds_ask2 {α : Type} {w : HeapWorld K V} {ts : Vars K V} {xs : Trees K V} (h : Holds w ts xs) (i j : Nat) {m : Loc → Loc → Act K V α}
    (hm : ∀ t u a b, xs[i]? = some (some t) → xs[j]? = some (some u) → ts.at ⟨a, []⟩ = some t → ts.at ⟨b, []⟩ = some u →
      ∃ x, Looks (m ⟨a, []⟩ ⟨b, []⟩) ts x) : Holds (w.ask2 i j m) ts xs := by
  unfold HeapWorld.ask2
  split
  · rename_i b hb
    obtain ⟨u, h1, h2⟩ := h.live j b hb
    exact holds_ask h i fun t a hi ha => hm t u a b hi h2 ha (at_temp h1)
  · exact h

theorem holds_apply {w : HeapWorld K V} {ts : Vars K V} {xs : Trees K V} (h : Holds w ts xs) (op : HandleOp K V) {fuel : Nat}
    (hv : ∀ (k : Nat) t, xs[k]? = some (some t) → Valid t) (hn : xs.need op ≤ fuel) : ∃ ts', Holds (w.apply fuel op) ts' (xs.apply op) := by
  cases op with
  | empty => exact ⟨_, holds_make h rfl⟩
  | single k v => exact ⟨_, holds_make h rfl⟩
  | load t => exact ⟨_, holds_make h rfl⟩
  | convert t => exact ⟨_, holds_make h rfl⟩
  | clone i =>
    simp only [HeapWorld.apply, Trees.apply, Trees.derive]
    by_cases hi : ∃ t, xs[i]? = some (some t)
    · obtain ⟨t, hi⟩ := hi
      obtain ⟨a, ha, hat⟩ := h.var hi
      rw [ha, hi]
      exact ⟨_, holds_make h (by simp only [Vars.step, at_temp hat])⟩
    · have hi' := h.not_live (i := i) (fun t ht => hi ⟨t, ht⟩)
      refine ⟨ts, ?_⟩
      split
      · rename_i a ha; exact absurd ha (hi' a)
      · split
        · rename_i t ht; exact absurd ⟨t, ht⟩ hi
        · exact h
  | drop i =>
    simp only [HeapWorld.apply, Trees.apply]
    by_cases hi : ∃ t, xs[i]? = some (some t)
    · obtain ⟨t, hi⟩ := hi
      obtain ⟨a, ha, hat⟩ := h.var hi
      rw [ha]
      exact ⟨_, holds_drop h ha⟩
    · have hi' := h.not_live (i := i) (fun t ht => hi ⟨t, ht⟩)
      refine ⟨ts, ?_⟩
      have e : xs.set i none = xs := by
        rcases Nat.lt_or_ge i xs.length with hl | hl
        · have hg : xs[i]? = some xs[i] := List.getElem?_eq_getElem hl
          cases hx : xs[i] with
          | none => rw [← hx]; exact List.set_getElem_self hl
          | some t => rw [hx] at hg; exact absurd ⟨t, hg⟩ hi
        · exact List.set_eq_of_length_le hl
      rw [e]
      split
      · rename_i a ha; exact absurd ha (hi' a)
      · exact h
  | insert i k v =>
    simp only [HeapWorld.apply, Trees.apply]
    unfold HeapWorld.on Trees.update
    by_cases hi : ∃ t, xs[i]? = some (some t)
    · obtain ⟨t, hi⟩ := hi
      obtain ⟨a, ha, hat⟩ := h.var hi
      simp only [Trees.need, hi] at hn
      rw [ha, hi]
      exact holds_upd h ha (insert_run (hv i t hi) (by omega) (at_temp hat))
    · have hi' := h.not_live (i := i) (fun t ht => hi ⟨t, ht⟩)
      refine ⟨ts, ?_⟩
      split
      · rename_i a ha; exact absurd ha (hi' a)
      · split
        · rename_i t ht; exact absurd ⟨t, ht⟩ hi
        · exact h
  | prepend i p =>
    simp only [HeapWorld.apply, Trees.apply]
    unfold HeapWorld.on Trees.update
    by_cases hi : ∃ t, xs[i]? = some (some t)
    · obtain ⟨t, hi⟩ := hi
      obtain ⟨a, ha, hat⟩ := h.var hi
      rw [ha, hi]
      exact holds_upd h ha (prepend_ok (at_temp hat) p)
    · have hi' := h.not_live (i := i) (fun t ht => hi ⟨t, ht⟩)
      refine ⟨ts, ?_⟩
      split
      · rename_i a ha; exact absurd ha (hi' a)
      · split
        · rename_i t ht; exact absurd ⟨t, ht⟩ hi
        · exact h
  | filterPrefix i p =>
    refine holds_derive (m := fun l => filterPrefixP fuel l p) (g := fun t => retOr t (t.filterPrefix p)) h i ?_
    intro t a hi ha
    simp only [Trees.need, hi] at hn
    exact filterPrefix_makes (hv i t hi) (by omega) ha
  | union i j => exact holds_derive2 h i j hv hn (fun _ _ => outerPure_run _)
  | intersection i j => exact holds_derive2 h i j hv hn (fun _ _ => innerPure_run _)
  | difference i j => exact holds_derive2 h i j hv hn (fun _ _ => leftPure_run _)
  | outerCombine i j f => exact holds_derive2 h i j hv hn (fun _ _ => outerPure_run f)
  | innerCombine i j f => exact holds_derive2 h i j hv hn (fun _ _ => innerPure_run f)
  | get i k =>
    refine ⟨ts, holds_ask (m := fun l => getP fuel l k) h i fun t a hi ha => ⟨_, get_run ha ?_ (Tree.get_eq (hv i t hi) k)⟩⟩
    simp only [Trees.need, Trees.sz, hi] at hn; omega
  | containsKey i k =>
    refine ⟨ts, holds_ask (m := fun l => containsKeyP fuel l k) h i fun t a hi ha => ⟨_, containsKey_run ha ?_ (Tree.containsKey_eq (hv i t hi) k)⟩⟩
    simp only [Trees.need, Trees.sz, hi] at hn; omega
  | iter i =>
    refine ⟨ts, holds_ask h i fun t a hi ha => bound_spec (entries_answered (hv i t hi)) ts _ ha fuel ?_⟩
    simpa only [Trees.need, hi] using hn
  | values i =>
    refine ⟨ts, holds_ask h i fun t a hi ha => bound_spec (values_answered (hv i t hi)) ts _ ha fuel ?_⟩
    simpa only [Trees.need, hi] using hn
  | scanPrefix i p =>
    refine ⟨ts, holds_ask (m := fun l => scanPrefixP fuel l p) h i fun t a hi ha => bound_spec (scanPrefix_answered (hv i t hi) p) ts _ ha fuel ?_⟩
    simpa only [Trees.need, hi] using hn
  | intersects i j =>
    refine ⟨ts, holds_ask2 h i j fun t u a b hi hj ha hb => ?_⟩
    obtain ⟨o, ho, -⟩ := Tree.intersects_spec (t.size + u.size + 1) t u (hv i t hi) (hv j u hj) (by omega)
    refine ⟨_, intersects_run ha hb (hv i t hi) (hv j u hj) ?_ ho⟩
    simp only [Trees.need, Trees.sz, hi, hj] at hn; omega
  | isSubset i j =>
    refine ⟨ts, holds_ask2 h i j fun t u a b hi hj ha hb => ?_⟩
    obtain ⟨o, ho, -⟩ := Tree.isSubset_sound (t.size + u.size + 1) t u (hv i t hi) (hv j u hj) (by omega)
    refine ⟨_, isSubset_run ha hb (hv i t hi) (hv j u hj) ?_ ho⟩
    simp only [Trees.need, Trees.sz, hi, hj] at hn; omega
  | unionWith i j => exact holds_on2 h i j hv hn (fun _ _ => union_run)
  | intersectionWith i j => exact holds_on2 h i j hv hn (fun _ _ => intersection_run)
  | differenceWith i j => exact holds_on2 h i j hv hn (fun _ _ => difference_run)
  | outerCombineWith i j f => exact holds_on2 h i j hv hn (fun _ _ => outer_run f)
  | innerCombineWith i j f => exact holds_on2 h i j hv hn (fun _ _ => inner_run f)
  | leftCombineWith i j f => exact holds_on2 h i j hv hn (fun _ _ => left_run f)
  | removePrefixWith i j f => exact holds_on2 h i j hv hn (fun _ _ => remove_run f)
  | retainPrefixWith i j f => exact holds_on2 h i j hv hn (fun _ _ => retain_run f)

/-! ### What the trees mean -/

/-- the trees are valid and hold the maps -/
structure Means (xs : Trees K V) (hs : Handles K V) : Prop where
  len : xs.length = hs.length
  dead : ∀ i : Nat, xs[i]? = some none → hs[i]? = some none
  live : ∀ (i : Nat) t, xs[i]? = some (some t) → Valid t ∧ ∃ m, hs[i]? = some (some m) ∧ ∀ k, den t k = m k

omit [TransOrd K] [LawfulEqOrd K] in
theorem Means.tree {xs : Trees K V} {hs : Handles K V} (h : Means xs hs) {i : Nat} {m} (hm : hs[i]? = some (some m)) :
    ∃ t, xs[i]? = some (some t) ∧ Valid t ∧ ∀ k, den t k = m k := by
  have hi : i < xs.length := by rw [h.len]; exact lt_of_getElem? hm
  have hx : xs[i]? = some xs[i] := List.getElem?_eq_getElem hi
  cases hxi : xs[i] with
  | none => rw [hxi] at hx; rw [h.dead i hx] at hm; cases hm
  | some t =>
    rw [hxi] at hx
    obtain ⟨h1, m', h2, h3⟩ := h.live i t hx
    rw [hm] at h2; cases h2
    exact ⟨t, hx, h1, h3⟩

omit [TransOrd K] [LawfulEqOrd K] in
theorem means_snoc {xs : Trees K V} {hs : Handles K V} (h : Means xs hs) {t : Tree K V} {m} (hv : Valid t) (hm : ∀ k, den t k = m k) :
    Means (xs ++ [some t]) (hs ++ [some m]) := by
  refine ⟨by simp [h.len], ?_, ?_⟩
  · intro i hi
    rw [getElem?_snoc] at hi ⊢
    split at hi
    · cases hi
    · rename_i e; rw [if_neg (by rw [← h.len]; exact e)]; exact h.dead i hi
  · intro i u hi
    rw [getElem?_snoc] at hi ⊢
    split at hi
    · rename_i e; cases hi; exact ⟨hv, m, by rw [if_pos (by rw [← h.len]; exact e)], hm⟩
    · rename_i e; rw [if_neg (by rw [← h.len]; exact e)]; exact h.live i u hi

omit [TransOrd K] [LawfulEqOrd K] in
theorem means_set {xs : Trees K V} {hs : Handles K V} (h : Means xs hs) {i : Nat} {t : Tree K V} {m} (hv : Valid t) (hm : ∀ k, den t k = m k) :
    Means (xs.set i (some t)) (hs.set i (some m)) := by
  refine ⟨by simp [h.len], ?_, ?_⟩
  · intro j hj
    rw [List.getElem?_set] at hj ⊢
    split at hj
    · split at hj <;> cases hj
    · rename_i e; rw [if_neg e]; exact h.dead j hj
  · intro j u hj
    rw [List.getElem?_set] at hj ⊢
    split at hj
    · rename_i e
      split at hj
      · rename_i e2; cases hj; exact ⟨hv, m, by rw [if_pos e, if_pos (by rw [← h.len]; exact e2)], hm⟩
      · cases hj
    · rename_i e; rw [if_neg e]; exact h.live j u hj

omit [TransOrd K] [LawfulEqOrd K] in
theorem means_update {xs : Trees K V} {hs : Handles K V} (h : Means xs hs) (i : Nat) {g : Tree K V → Tree K V} {F}
    (hg : ∀ t m, Valid t → (∀ k, den t k = m k) → Valid (g t) ∧ ∀ k, den (g t) k = F m k) : Means (xs.update i g) (hs.update i F) := by
  unfold Trees.update Handles.update
  by_cases hi : ∃ t, xs[i]? = some (some t)
  · obtain ⟨t, hi⟩ := hi
    obtain ⟨h1, m, h2, h3⟩ := h.live i t hi
    rw [hi, h2]
    obtain ⟨h4, h5⟩ := hg t m h1 h3
    exact means_set h h4 h5
  · split
    · rename_i t ht; exact absurd ⟨t, ht⟩ hi
    · split
      · rename_i m hm
        obtain ⟨t, ht, -⟩ := h.tree hm
        exact absurd ⟨t, ht⟩ hi
      · exact h

omit [TransOrd K] [LawfulEqOrd K] in
theorem means_update2 {xs : Trees K V} {hs : Handles K V} (h : Means xs hs) (i j : Nat) {g : Tree K V → Tree K V → Tree K V} {F}
    (hg : ∀ t u, Valid t → Valid u → Valid (g t u) ∧ ∀ k, den (g t u) k = F (den t) (den u) k) :
    Means (xs.update2 i j g) (hs.update2 i j F) := by
  unfold Trees.update2 Handles.update2
  by_cases e : i = j
  · rw [if_pos e, if_pos e]; exact h
  rw [if_neg e, if_neg e]
  by_cases hj : ∃ u, xs[j]? = some (some u)
  · obtain ⟨u, hj⟩ := hj
    obtain ⟨h1, m, h2, h3⟩ := h.live j u hj
    rw [hj, h2]
    refine means_update h i ?_
    intro t m' ht hm'
    obtain ⟨h4, h5⟩ := hg t u ht h1
    refine ⟨h4, fun k => ?_⟩
    rw [h5, show den t = m' from funext hm', show den u = m from funext h3]
  · split
    · rename_i t ht; exact absurd ⟨t, ht⟩ hj
    · split
      · rename_i m hm
        obtain ⟨t, ht, -⟩ := h.tree hm
        exact absurd ⟨t, ht⟩ hj
      · exact h

omit [TransOrd K] [LawfulEqOrd K] in
theorem means_derive {xs : Trees K V} {hs : Handles K V} (h : Means xs hs) (i : Nat) {g : Tree K V → Tree K V} {F}
    (hg : ∀ t m, Valid t → (∀ k, den t k = m k) → Valid (g t) ∧ ∀ k, den (g t) k = F m k) : Means (xs.derive i g) (hs.derive i F) := by
  unfold Trees.derive Handles.derive
  by_cases hi : ∃ t, xs[i]? = some (some t)
  · obtain ⟨t, hi⟩ := hi
    obtain ⟨h1, m, h2, h3⟩ := h.live i t hi
    rw [hi, h2]
    obtain ⟨h4, h5⟩ := hg t m h1 h3
    exact means_snoc h h4 h5
  · split
    · rename_i t ht; exact absurd ⟨t, ht⟩ hi
    · split
      · rename_i m hm
        obtain ⟨t, ht, -⟩ := h.tree hm
        exact absurd ⟨t, ht⟩ hi
      · exact h

omit [TransOrd K] [LawfulEqOrd K] in
theorem means_derive2 {xs : Trees K V} {hs : Handles K V} (h : Means xs hs) (i j : Nat) {g : Tree K V → Tree K V → Tree K V} {F}
    (hg : ∀ t u, Valid t → Valid u → Valid (g t u) ∧ ∀ k, den (g t u) k = F (den t) (den u) k) :
    Means (xs.derive2 i j g) (hs.derive2 i j F) := by
  unfold Trees.derive2 Handles.derive2
  by_cases hj : ∃ u, xs[j]? = some (some u)
  · obtain ⟨u, hj⟩ := hj
    obtain ⟨h1, m, h2, h3⟩ := h.live j u hj
    rw [hj, h2]
    refine means_derive h i ?_
    intro t m' ht hm'
    obtain ⟨h4, h5⟩ := hg t u ht h1
    refine ⟨h4, fun k => ?_⟩
    rw [h5, show den t = m' from funext hm', show den u = m from funext h3]
  · split
    · rename_i t ht; exact absurd ⟨t, ht⟩ hj
    · split
      · rename_i m hm
        obtain ⟨t, ht, -⟩ := h.tree hm
        exact absurd ⟨t, ht⟩ hj
      · exact h

theorem contents_eq {t : Tree K V} (h : Valid t) (k : List K) : den t k = contents t k := by
  unfold contents
  split
  · rename_i hv
    rw [Tree.den_iff_entry h]; exact Classical.choose_spec hv
  · rename_i hv
    cases hd : den t k with
    | none => rfl
    | some v => exact absurd ⟨v, (Tree.den_iff_entry h k v).1 hd⟩ hv

open Classical in
theorem means_apply {xs : Trees K V} {hs : Handles K V} (h : Means xs hs) (op : HandleOp K V) (ho : op.Validated) :
    Means (xs.apply op) (hs.apply op) := by
  cases op with
  | empty => exact means_snoc h Tree.canonical_empty.1 (fun k => Tree.den_empty_none rfl k)
  | single k v => exact means_snoc h (Tree.canonical_single k v).1 (fun k' => by rw [Tree.den_single]; by_cases e : k' = k <;> simp [e])
  | load t => exact means_snoc h ho (contents_eq ho)
  | convert t => exact means_snoc h ho (contents_eq ho)
  | clone i => exact means_derive h i fun t m ht hm => ⟨ht, hm⟩
  | drop i =>
    refine ⟨by simp [Trees.apply, Handles.apply, h.len], ?_, ?_⟩
    · intro j hj
      simp only [Trees.apply, Handles.apply, List.getElem?_set] at hj ⊢
      split at hj
      · rename_i e; rw [if_pos e]; split at hj
        · rename_i e2; rw [if_pos (by rw [← h.len]; exact e2)]
        · cases hj
      · rename_i e; rw [if_neg e]; exact h.dead j hj
    · intro j u hj
      simp only [Trees.apply, Handles.apply, List.getElem?_set] at hj ⊢
      split at hj
      · split at hj <;> cases hj
      · rename_i e; rw [if_neg e]; exact h.live j u hj
  | insert i k v =>
    refine means_update h i ?_
    intro t m ht hm
    obtain ⟨r, h1, h2, -, h4⟩ := Tree.insert_good ht k v
    rw [h1]
    exact ⟨h2, fun k' => by rw [h4, hm]; by_cases e : k' = k <;> simp [e]⟩
  | prepend i p =>
    refine means_update h i ?_
    intro t m ht hm
    exact ⟨ht.prepend p, fun k => by rw [Tree.prepend_den', hm]; by_cases e : p <+: k <;> simp [e]⟩
  | filterPrefix i p =>
    refine means_derive h i ?_
    intro t m ht hm
    obtain ⟨r, hr, hv, -, hin, hout⟩ := Tree.filterPrefix_spec ht p
    rw [hr]
    refine ⟨hv, fun k => ?_⟩
    by_cases hp : p <+: k
    · rw [if_pos hp, ← hm]
      obtain ⟨s, rfl⟩ := hp
      exact hin s
    · rw [if_neg hp]
      exact hout k (fun s e => hp ⟨s, e.symm⟩)
  | union i j =>
    refine means_derive2 h i j ?_
    intro t u ht hu
    obtain ⟨r, -, h1, h3, h4⟩ := Tree.unionWith_good ht hu
    rw [h1]; exact ⟨h3.valid, fun k => by rw [← h4]; rfl⟩
  | intersection i j =>
    refine means_derive2 h i j ?_
    intro t u ht hu
    obtain ⟨r, -, h1, h3, h4⟩ := Tree.intersectionWith_good ht hu
    rw [h1]; exact ⟨h3.valid, fun k => by rw [← h4]; rfl⟩
  | difference i j =>
    refine means_derive2 h i j ?_
    intro t u ht hu
    obtain ⟨r, -, h1, h3, h4⟩ := Tree.differenceWith_good ht hu
    rw [h1]; exact ⟨h3.valid, fun k => by rw [← h4]; rfl⟩
  | outerCombine i j f =>
    refine means_derive2 h i j ?_
    intro t u ht hu
    obtain ⟨r, h1, h3, h4⟩ := Tree.outerCombine_spec ht hu f
    rw [h1]; exact ⟨h3.valid, fun k => by rw [← Tree.outerPureVal_eq, ← h4]; rfl⟩
  | innerCombine i j f =>
    refine means_derive2 h i j ?_
    intro t u ht hu
    obtain ⟨r, h1, h3, h4⟩ := Tree.innerCombine_spec ht hu f
    rw [h1]; exact ⟨h3.valid, fun k => by rw [← Tree.innerPureVal_eq, ← h4]; rfl⟩
  | unionWith i j =>
    refine means_update2 h i j ?_
    intro t u ht hu
    obtain ⟨r, h1, -, h3, h4⟩ := Tree.unionWith_good ht hu
    rw [h1]; exact ⟨h3.valid, fun k => by rw [h4]⟩
  | intersectionWith i j =>
    refine means_update2 h i j ?_
    intro t u ht hu
    obtain ⟨r, h1, -, h3, h4⟩ := Tree.intersectionWith_good ht hu
    rw [h1]; exact ⟨h3.valid, fun k => by rw [h4]⟩
  | differenceWith i j =>
    refine means_update2 h i j ?_
    intro t u ht hu
    obtain ⟨r, h1, -, h3, h4⟩ := Tree.differenceWith_good ht hu
    rw [h1]; exact ⟨h3.valid, fun k => by rw [h4]⟩
  | outerCombineWith i j f =>
    refine means_update2 h i j ?_
    intro t u ht hu
    obtain ⟨r, h1, -, h3, h4⟩ := Tree.outerWith_good ht hu f
    rw [h1]; exact ⟨h3.valid, h4⟩
  | innerCombineWith i j f =>
    refine means_update2 h i j ?_
    intro t u ht hu
    obtain ⟨r, h1, -, h3, h4⟩ := Tree.innerWith_good ht hu f
    rw [h1]; exact ⟨h3.valid, h4⟩
  | leftCombineWith i j f =>
    refine means_update2 h i j ?_
    intro t u ht hu
    obtain ⟨r, h1, -, h3, h4⟩ := Tree.leftWith_good ht hu f
    rw [h1]; exact ⟨h3.valid, h4⟩
  | removePrefixWith i j f =>
    refine means_update2 h i j ?_
    intro t u ht hu
    obtain ⟨r, h1, h2, h3⟩ := Tree.removePrefixWith_spec ht hu f
    rw [h1]
    refine ⟨h2.valid, fun k => ?_⟩
    by_cases hc : Tree.Covered f u k
    · rw [(h3 k).1 hc, if_pos (show Tree.KeyMap.Covers (den u) f k from hc)]
    · rw [(h3 k).2 hc, if_neg (show ¬Tree.KeyMap.Covers (den u) f k from hc)]
  | retainPrefixWith i j f =>
    refine means_update2 h i j ?_
    intro t u ht hu
    obtain ⟨r, h1, h2, h3⟩ := Tree.retainPrefixWith_spec ht hu f
    rw [h1]
    refine ⟨h2.valid, fun k => ?_⟩
    by_cases hc : Tree.Covered f u k
    · rw [(h3 k).1 hc, if_pos (show Tree.KeyMap.Covers (den u) f k from hc)]
    · rw [(h3 k).2 hc, if_neg (show ¬Tree.KeyMap.Covers (den u) f k from hc)]
  | get | containsKey | iter | values | scanPrefix | intersects | isSubset => exact h

theorem run_holds : ∀ (ops : List (HandleOp K V)) {w : HeapWorld K V} {ts : Vars K V} {xs : Trees K V} {hs : Handles K V} {fuel : Nat},
    Holds w ts xs → Means xs hs → (∀ op ∈ ops, op.Validated) → xs.needs ops ≤ fuel →
    (∃ ts', Holds (w.run fuel ops) ts' (xs.run ops)) ∧ Means (xs.run ops) (hs.run ops)
  | [], _, _, _, _, _, h1, h2, _, _ => ⟨⟨_, h1⟩, h2⟩
  | op :: ops, _, _, _, _, fuel, h1, h2, h3, h4 => by
    simp only [Trees.needs] at h4
    obtain ⟨ts', h5⟩ := holds_apply (fuel := fuel) h1 op (fun k t hk => (h2.live k t hk).1) (by omega)
    exact run_holds ops h5 (means_apply h2 op (h3 op (List.mem_cons_self ..))) (fun o ho => h3 o (List.mem_cons_of_mem _ ho)) (by omega)

omit [Ord K] [TransOrd K] [LawfulEqOrd K] [DecidableEq K] in
theorem holds_start (arc : Bool) : Holds (HeapWorld.start arc : HeapWorld K V) [] [] :=
  ⟨ok_start arc, rfl, fun i h => by simp [HeapWorld.start] at h, fun i a h => by simp [HeapWorld.start] at h, fun i j a h => by simp [HeapWorld.start] at h,
    fun a t h => by simp at h⟩
omit [TransOrd K] [LawfulEqOrd K] in
theorem means_start : Means ([] : Trees K V) [] := ⟨rfl, fun i h => by simp at h, fun i t h => by simp at h⟩

/-! ### Canonical trees -/

def All (P : Tree K V → Prop) (xs : Trees K V) : Prop := ∀ (i : Nat) t, xs[i]? = some (some t) → P t

section all
omit [Ord K] [TransOrd K] [LawfulEqOrd K] [DecidableEq K]
variable {P : Tree K V → Prop} {xs : Trees K V}

theorem all_snoc (h : All P xs) {t : Tree K V} (ht : P t) : All P (xs ++ [some t]) := by
  intro i u hi
  rw [getElem?_snoc] at hi
  split at hi
  · cases hi; exact ht
  · exact h i u hi
theorem all_set (h : All P xs) {i : Nat} {o : Option (Tree K V)} (ho : ∀ t, o = some t → P t) : All P (xs.set i o) := by
  intro j u hj
  rw [List.getElem?_set] at hj
  split at hj
  · split at hj
    · exact ho u (by simpa using hj)
    · cases hj
  · exact h j u hj
theorem all_update (h : All P xs) (i : Nat) {g : Tree K V → Tree K V} (hg : ∀ t, P t → P (g t)) : All P (xs.update i g) := by
  unfold Trees.update
  split
  · rename_i t ht
    exact all_set h fun u hu => by cases hu; exact hg t (h i t ht)
  · exact h
theorem all_update2 (h : All P xs) (i j : Nat) {g : Tree K V → Tree K V → Tree K V} (hg : ∀ t u, P t → P u → P (g t u)) : All P (xs.update2 i j g) := by
  unfold Trees.update2
  split
  · exact h
  · split
    · rename_i u hu
      exact all_update h i fun t ht => hg t u ht (h j u hu)
    · exact h
theorem all_derive (h : All P xs) (i : Nat) {g : Tree K V → Tree K V} (hg : ∀ t, P t → P (g t)) : All P (xs.derive i g) := by
  unfold Trees.derive
  split
  · rename_i t ht
    exact all_snoc h (hg t (h i t ht))
  · exact h
theorem all_derive2 (h : All P xs) (i j : Nat) {g : Tree K V → Tree K V → Tree K V} (hg : ∀ t u, P t → P u → P (g t u)) : All P (xs.derive2 i j g) := by
  unfold Trees.derive2
  split
  · rename_i u hu
    exact all_derive h i fun t ht => hg t u ht (h j u hu)
  · exact h
end all

theorem canonical_apply {xs : Trees K V} (h : All Tree.Canonical xs) (op : HandleOp K V) (ho : op.FromCanonical) : All Tree.Canonical (xs.apply op) := by
  cases op with
  | empty => exact all_snoc h Tree.canonical_empty
  | single k v => exact all_snoc h (Tree.canonical_single k v)
  | load t => exact all_snoc h ho
  | convert t => exact all_snoc h ho
  | clone i => exact all_derive h i fun t ht => ht
  | drop i => exact all_set h fun t ht => by cases ht
  | insert i k v =>
    refine all_update h i fun t ht => ?_
    obtain ⟨r, h1, -, h3, -⟩ := Tree.insert_good ht.1 k v
    rw [h1]; exact h3 ht
  | prepend i p => exact all_update h i fun t ht => ht.prepend p
  | filterPrefix i p =>
    refine all_derive h i fun t ht => ?_
    obtain ⟨r, h1, -, h3, -⟩ := Tree.filterPrefix_spec ht.1 p
    rw [h1]; exact h3 ht
  | union i j =>
    refine all_derive2 h i j fun t u ht hu => ?_
    obtain ⟨r, -, h1, h3, -⟩ := Tree.unionWith_good ht.1 hu.1
    rw [h1]; exact h3.canonical ht hu
  | intersection i j =>
    refine all_derive2 h i j fun t u ht hu => ?_
    obtain ⟨r, -, h1, h3, -⟩ := Tree.intersectionWith_good ht.1 hu.1
    rw [h1]; exact h3.canonical ht hu
  | difference i j =>
    refine all_derive2 h i j fun t u ht hu => ?_
    obtain ⟨r, -, h1, h3, -⟩ := Tree.differenceWith_good ht.1 hu.1
    rw [h1]; exact h3.canonical ht hu
  | outerCombine i j f =>
    refine all_derive2 h i j fun t u ht hu => ?_
    obtain ⟨r, h1, h3, -⟩ := Tree.outerCombine_spec ht.1 hu.1 f
    rw [h1]; exact h3.canonical ht hu
  | innerCombine i j f =>
    refine all_derive2 h i j fun t u ht hu => ?_
    obtain ⟨r, h1, h3, -⟩ := Tree.innerCombine_spec ht.1 hu.1 f
    rw [h1]; exact h3.canonical ht hu
  | unionWith i j =>
    refine all_update2 h i j fun t u ht hu => ?_
    obtain ⟨r, h1, -, h3, -⟩ := Tree.unionWith_good ht.1 hu.1
    rw [h1]; exact h3.canonical ht hu
  | intersectionWith i j =>
    refine all_update2 h i j fun t u ht hu => ?_
    obtain ⟨r, h1, -, h3, -⟩ := Tree.intersectionWith_good ht.1 hu.1
    rw [h1]; exact h3.canonical ht hu
  | differenceWith i j =>
    refine all_update2 h i j fun t u ht hu => ?_
    obtain ⟨r, h1, -, h3, -⟩ := Tree.differenceWith_good ht.1 hu.1
    rw [h1]; exact h3.canonical ht hu
  | outerCombineWith i j f =>
    refine all_update2 h i j fun t u ht hu => ?_
    obtain ⟨r, h1, -, h3, -⟩ := Tree.outerWith_good ht.1 hu.1 f
    rw [h1]; exact h3.canonical ht hu
  | innerCombineWith i j f =>
    refine all_update2 h i j fun t u ht hu => ?_
    obtain ⟨r, h1, -, h3, -⟩ := Tree.innerWith_good ht.1 hu.1 f
    rw [h1]; exact h3.canonical ht hu
  | leftCombineWith i j f =>
    refine all_update2 h i j fun t u ht hu => ?_
    obtain ⟨r, h1, -, h3, -⟩ := Tree.leftWith_good ht.1 hu.1 f
    rw [h1]; exact h3.canonical ht hu
  | removePrefixWith i j f =>
    refine all_update2 h i j fun t u ht hu => ?_
    obtain ⟨r, h1, h3, -⟩ := Tree.removePrefixWith_spec ht.1 hu.1 f
    rw [h1]; exact h3.canonical ht hu
  | retainPrefixWith i j f =>
    refine all_update2 h i j fun t u ht hu => ?_
    obtain ⟨r, h1, h3, -⟩ := Tree.retainPrefixWith_spec ht.1 hu.1 f
    rw [h1]; exact h3.canonical ht hu
  | get | containsKey | iter | values | scanPrefix | intersects | isSubset => exact h

theorem canonical_run : ∀ (ops : List (HandleOp K V)) {xs : Trees K V}, All Tree.Canonical xs → (∀ op ∈ ops, op.FromCanonical) →
    All Tree.Canonical (xs.run ops)
  | [], _, h, _ => h
  | op :: ops, _, h, ho => canonical_run ops (canonical_apply h op (ho op (List.mem_cons_self ..))) (fun o h' => ho o (List.mem_cons_of_mem _ h'))

end
end Shared
end Verif
