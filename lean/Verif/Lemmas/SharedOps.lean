import Verif.Model.SharedOps
import Verif.Lemmas.SharedStep
import Verif.Lemmas.RadixOps
/-! The in-place operations, as programs, compute on the value machine what the operations of `Model/RadixTree.lean` compute. -/
namespace Verif.Shared
open Std
variable {K V : Type _}

/-! ### Places -/

theorem treeAt_append : ∀ (p q : List Nat) (t : Tree K V), treeAt (p ++ q) t = (treeAt p t).bind (treeAt q)
  | [], q, t => rfl
  | i :: p, q, t => by
    simp only [List.cons_append, treeAt]
    cases h : t.kids[i]? with
    | none => rfl
    | some c => exact treeAt_append p q c

theorem treeAt_putAt (u : Tree K V) : ∀ (p : List Nat) {t c : Tree K V}, treeAt p t = some c → treeAt p (putAt u p t) = some u
  | [], t, c, h => rfl
  | i :: p, t, c, h => by
    simp only [treeAt, putAt] at h ⊢
    cases hk : t.kids[i]? with
    | none => rw [hk] at h; cases h
    | some d =>
      rw [hk] at h
      have hi : i < t.kids.length := lt_of_getElem? hk
      simp only [List.getElem?_set_self hi]
      exact treeAt_putAt u p h

theorem putAt_putAt (u w : Tree K V) : ∀ (p : List Nat) (t : Tree K V), putAt w p (putAt u p t) = putAt w p t
  | [], t => rfl
  | i :: p, t => by
    simp only [putAt]
    cases hk : t.kids[i]? with
    | none => simp only [hk]
    | some d =>
      have hi : i < t.kids.length := lt_of_getElem? hk
      simp only [List.getElem?_set_self hi, putAt_putAt u w p, List.set_set]

theorem putAt_self : ∀ (p : List Nat) {t c : Tree K V}, treeAt p t = some c → putAt c p t = t
  | [], t, c, h => by simp only [treeAt, Option.some.injEq] at h; exact h.symm
  | i :: p, t, c, h => by
    simp only [treeAt, putAt] at h ⊢
    cases hk : t.kids[i]? with
    | none => rw [hk] at h
    | some d =>
      rw [hk] at h
      simp only [putAt_self p h]
      have hi : i < t.kids.length := lt_of_getElem? hk
      have : t.kids.set i d = t.kids := by
        rw [List.getElem?_eq_getElem hi, Option.some.injEq] at hk
        rw [← hk]; exact List.set_getElem_self hi
      rw [this]
      cases t; rfl

theorem putAt_kid (u : Tree K V) (i : Nat) : ∀ (p : List Nat) {t c : Tree K V}, treeAt p t = some c → i < c.kids.length →
    putAt u (p ++ [i]) t = putAt { c with kids := c.kids.set i u } p t
  | [], t, c, h, hi => by
    simp only [treeAt, Option.some.injEq] at h; subst h
    simp only [List.nil_append, putAt, List.getElem?_eq_getElem hi]
  | j :: p, t, c, h, hi => by
    simp only [treeAt] at h
    simp only [List.cons_append, putAt]
    cases hk : t.kids[j]? with
    | none => rw [hk] at h
    | some d =>
      rw [hk] at h
      simp only [putAt_kid u i p h hi]

/-! ### Variables -/
variable {ts : Vars K V} {l r : Loc} {t u : Tree K V}

theorem at_lt (h : ts.at l = some t) : ∃ w, ts[l.reg]? = some (some w) ∧ treeAt l.path w = some t := by
  unfold Vars.at at h
  split at h
  · exact ⟨_, by assumption, h⟩
  · cases h

theorem at_append (xs : Vars K V) (h : ts.at l = some t) : Vars.at (ts ++ xs) l = some t := by
  obtain ⟨w, hw, hp⟩ := at_lt h
  rw [Vars.at_some (t := w) (by rw [List.getElem?_append_left (lt_of_getElem? hw)]; exact hw)]
  exact hp

theorem put_append (xs : Vars K V) (h : ts.at l = some t) : Vars.put (ts ++ xs) l u = ts.put l u ++ xs := by
  obtain ⟨w, hw, hp⟩ := at_lt h
  have hlt := lt_of_getElem? hw
  rw [Vars.put_some (t := w) (by rw [List.getElem?_append_left hlt]; exact hw), Vars.put_some hw, List.set_append_left _ _ hlt]

theorem put_length : (ts.put l u).length = ts.length := by
  unfold Vars.put; split <;> simp

theorem at_put (h : ts.at l = some t) : (ts.put l u).at l = some u := by
  obtain ⟨w, hw, hp⟩ := at_lt h
  rw [Vars.put_some hw, Vars.at_some (t := putAt u l.path w) (by simp [lt_of_getElem? hw])]
  exact treeAt_putAt u _ hp

theorem put_put {w : Tree K V} (h : ts.at l = some t) : (ts.put l u).put l w = ts.put l w := by
  obtain ⟨x, hx, hp⟩ := at_lt h
  rw [Vars.put_some hx, Vars.put_some hx, Vars.put_some (t := putAt u l.path x) (by simp [lt_of_getElem? hx]), putAt_putAt, List.set_set]

theorem put_self (h : ts.at l = some t) : ts.put l t = ts := by
  obtain ⟨x, hx, hp⟩ := at_lt h
  rw [Vars.put_some hx, putAt_self _ hp]
  have hi := lt_of_getElem? hx
  rw [List.getElem?_eq_getElem hi, Option.some.injEq] at hx
  rw [← hx]; exact List.set_getElem_self hi

theorem at_put_ne (h : r.reg ≠ l.reg) : (ts.put l u).at r = ts.at r := by
  unfold Vars.at; rw [put_ne h]

theorem at_kid {i : Nat} {c : Tree K V} (h : ts.at l = some t) (hc : t.kids[i]? = some c) : ts.at (l.kid i) = some c := by
  obtain ⟨w, hw, hp⟩ := at_lt h
  rw [Vars.at_some (l := l.kid i) hw]
  simp only [Loc.kid, treeAt_append, hp, Option.bind_some, treeAt, hc]

theorem put_kid {i : Nat} {c : Tree K V} (h : ts.at l = some t) (hc : i < t.kids.length) :
    ts.put (l.kid i) c = ts.put l { t with kids := t.kids.set i c } := by
  obtain ⟨w, hw, hp⟩ := at_lt h
  rw [Vars.put_some (l := l.kid i) hw, Vars.put_some hw]
  simp only [Loc.kid, putAt_kid c i _ hp hc]

theorem at_temp {xs : Vars K V} {n : Nat} (h : xs[n]? = some (some t)) : xs.at ⟨n, []⟩ = some t := by
  rw [Vars.at_some (l := ⟨n, []⟩) h]; rfl
theorem put_temp {xs : Vars K V} {n : Nat} (h : xs[n]? = some (some t)) : xs.put ⟨n, []⟩ u = xs.set n (some u) := by
  rw [Vars.put_some (l := ⟨n, []⟩) h]; rfl

/-! ### Running program parts -/

/-- running the part turns the variables `ts` into `ts'`, with result `a` -/
def Does {α : Type _} (m : Act K V α) (ts : Vars K V) (a : α) (ts' : Vars K V) : Prop :=
  ∀ k, (ts.run (m ts.length k)).1 = (ts'.run (k ts'.length a)).1

/-- variables that were moved out or dropped -/
abbrev dead (j : Nat) : Vars K V := List.replicate j none

/-- the part changes the tree at `l` to `u`, and nothing else except leaving dead variables behind -/
def Upd {α : Type _} (m : Act K V α) (ts : Vars K V) (a : α) (l : Loc) (u : Tree K V) : Prop := ∃ j, Does m ts a (ts.put l u ++ dead j)

/-- the part makes a new variable holding `u`, and changes nothing else except leaving dead variables behind -/
def Mk (m : Act K V Nat) (ts : Vars K V) (u : Tree K V) : Prop := ∃ j, Does m ts (ts.length + j) (ts ++ dead j ++ [some u])

/-- everything outside variable `r` is as before -/
def Keeps (ts ts1 : Vars K V) (r : Nat) : Prop := ∀ q : Loc, q.reg ≠ r → ∀ u, ts.at q = some u → ts1.at q = some u

theorem Does.bind {α β : Type _} {m : Act K V α} {f : α → Act K V β} {ts ts1 ts2 : Vars K V} {a : α} {b : β} (h : Does m ts a ts1)
    (h2 : Does (f a) ts1 b ts2) : Does (m >>= f) ts b ts2 := fun k => (h _).trans (h2 k)

theorem Does.pure {α : Type _} (a : α) (ts : Vars K V) : Does (pure a : Act K V α) ts a ts := fun _ => rfl

theorem does_look (h : ts.at l = some t) : Does (look l) ts ⟨t.pre, t.val, t.kids.length⟩ ts := by
  intro k
  simp only [look, Vars.run, Vars.step, h]

theorem does_exec {c : Cmd K V} {ts' : Vars K V} (h : ts.step c = (ts', .ok)) (hl : ts'.length = ts.length) : Does (exec c) ts () ts' := by
  intro k
  simp only [exec, Vars.run, h, hl]

theorem does_make {c : Cmd K V} {ts' : Vars K V} (h : ts.step c = (ts', .ok)) (hl : ts'.length = ts.length + 1) :
    Does (make c) ts ts.length ts' := by
  intro k
  simp only [make, Vars.run, h, hl]

theorem dead_append (i j : Nat) : (dead i : Vars K V) ++ dead j = dead (i + j) := by simp [dead, List.replicate_append_replicate]

theorem Keeps.put (x : Tree K V) (xs : Vars K V) : Keeps ts (ts.put l x ++ xs) l.reg := by
  intro q hq u hu
  exact at_append _ ((at_put_ne hq).trans hu)

theorem Keeps.append (xs : Vars K V) (r : Nat) : Keeps ts (ts ++ xs) r := fun _ _ _ hu => at_append _ hu

theorem Upd.look {α : Type _} {f : Seen K V → Act K V α} {a : α} {q : Loc} {x w : Tree K V} (hq : ts.at q = some x)
    (h : Upd (f ⟨x.pre, x.val, x.kids.length⟩) ts a l w) : Upd (look q >>= f) ts a l w := by
  obtain ⟨j, hj⟩ := h
  exact ⟨j, (does_look hq).bind hj⟩

theorem Upd.pure (h : ts.at l = some t) : Upd (pure () : Act K V Unit) ts () l t := ⟨0, by
  rw [put_self h]; simpa using Does.pure () ts⟩

theorem Upd.bind {α β : Type _} {m : Act K V α} {f : α → Act K V β} {a : α} {b : β} {t1 t2 : Tree K V} (hl : ts.at l = some t)
    (h : Upd m ts a l t1) (h2 : ∀ ts1 : Vars K V, ts1.at l = some t1 → Keeps ts ts1 l.reg → Upd (f a) ts1 b l t2) : Upd (m >>= f) ts b l t2 := by
  obtain ⟨j, hj⟩ := h
  have h3 : Vars.at (ts.put l t1 ++ dead j) l = some t1 := at_append _ (at_put hl)
  obtain ⟨j', hj'⟩ := h2 _ h3 (Keeps.put t1 _)
  refine ⟨j + j', hj.bind ?_⟩
  rw [put_append _ (at_put hl), put_put hl, List.append_assoc, dead_append] at hj'
  exact hj'

/-- an exec command that overwrites the tree at `l` -/
theorem Upd.exec {c : Cmd K V} (h : ts.step c = (ts.put l u, .ok)) : Upd (exec c) ts () l u :=
  ⟨0, by simpa using does_exec h put_length⟩

theorem Upd.setVal (h : ts.at l = some t) (v : Option V) : Upd (Shared.exec (.setVal l v)) ts () l { t with val := v } :=
  .exec (by simp only [Vars.step, h])
theorem Upd.setPre (h : ts.at l = some t) (p : List K) : Upd (Shared.exec (.setPre l p)) ts () l { t with pre := p } :=
  .exec (by simp only [Vars.step, h])

/-- a change of a child is a change of the node -/
theorem Upd.kid {α : Type _} {m : Act K V α} {a : α} {i : Nat} {c : Tree K V} (hl : ts.at l = some t) (hi : i < t.kids.length)
    (h : Upd m ts a (l.kid i) c) : Upd m ts a l { t with kids := t.kids.set i c } := by
  obtain ⟨j, hj⟩ := h
  rw [put_kid hl hi] at hj
  exact ⟨j, hj⟩

/-! ### Temporaries -/

theorem Upd.erase {i : Nat} (hl : ts.at l = some t) (hi : i < t.kids.length) :
    Upd (eraseP l i) ts () l { t with kids := t.kids.take i ++ t.kids.drop (i + 1) } := by
  refine ⟨1, ?_⟩
  have h1 : ts.step (.removeKid l i) = (ts.put l { t with kids := t.kids.take i ++ t.kids.drop (i + 1) } ++ [some t.kids[i]], .ok) := by
    simp only [Vars.step, hl, List.getElem?_eq_getElem hi]
  refine (does_make h1 (by simp [put_length])).bind (does_exec ?_ (by simp [put_length]))
  have h2 : (ts.put l { t with kids := t.kids.take i ++ t.kids.drop (i + 1) } ++ [some t.kids[i]])[ts.length]? = some (some t.kids[i]) := by
    rw [← put_length (ts := ts) (l := l) (u := { t with kids := t.kids.take i ++ t.kids.drop (i + 1) })]; simp
  simp only [Vars.step, h2]
  rw [List.set_append_right _ _ (by simp [put_length])]
  simp [put_length, dead]

/-- a new tree moved into a child vector -/
theorem Upd.insertNew {m : Act K V Nat} {i : Nat} (hl : ts.at l = some t) (hm : Mk m ts u) (hi : i ≤ t.kids.length) :
    Upd (do let v ← m; Shared.exec (.insertKid l i v)) ts () l { t with kids := t.kids.take i ++ u :: t.kids.drop i } := by
  obtain ⟨j, hj⟩ := hm
  refine ⟨j + 1, hj.bind (does_exec ?_ (by simp [put_length]))⟩
  obtain ⟨w, hw, -⟩ := at_lt hl
  have hlt := lt_of_getElem? hw
  have h2 : (ts ++ dead j ++ [some u])[ts.length + j]? = some (some u) := by
    rw [List.getElem?_append_right (by simp)]; simp
  have h3 : Vars.at (ts ++ dead j ++ [some u]) l = some t := at_append _ (at_append _ hl)
  simp only [Vars.step, h2, h3, if_pos hi, if_neg (show l.reg ≠ ts.length + j by omega)]
  rw [put_append _ (at_append _ hl), put_append _ hl, List.append_assoc, List.set_append_right _ _ (by simp [put_length]),
    List.set_append_right _ _ (by simp [put_length])]
  simp [put_length, ← dead_append]

/-- a new tree that is only read, then dropped -/
theorem Upd.withNew {m : Act K V Nat} {f : Nat → Act K V Unit} {w : Tree K V} (hl : ts.at l = some t) (hm : Mk m ts u)
    (h2 : ∀ (ts1 : Vars K V) (v : Nat), ts1.at l = some t → v ≠ l.reg → ts1.at ⟨v, []⟩ = some u → Keeps ts ts1 l.reg → Upd (f v) ts1 () l w) :
    Upd (do let v ← m; f v; Shared.exec (.drop v)) ts () l w := by
  obtain ⟨j, hj⟩ := hm
  obtain ⟨x, hx, -⟩ := at_lt hl
  have hlt := lt_of_getElem? hx
  have h3 : (ts ++ dead j ++ [some u])[ts.length + j]? = some (some u) := by
    rw [List.getElem?_append_right (by simp)]; simp
  obtain ⟨j', hj'⟩ := h2 (ts ++ dead j ++ [some u]) (ts.length + j) (at_append _ (at_append _ hl)) (by omega)
    (by rw [Vars.at_some (l := ⟨ts.length + j, []⟩) h3]; rfl)
    (fun q hq u hu => at_append _ (at_append _ hu))
  refine ⟨j + (1 + j'), hj.bind (hj'.bind (does_exec ?_ (by simp [put_length]; omega)))⟩
  rw [put_append _ (at_append _ hl), put_append _ hl]
  have h4 : (ts.put l w ++ dead j ++ [some u] ++ dead j')[ts.length + j]? = some (some u) := by
    rw [List.getElem?_append_left (by simp [put_length]), List.getElem?_append_right (by simp [put_length])]; simp [put_length]
  simp only [Vars.step, h4]
  rw [List.append_assoc, List.append_assoc, List.set_append_right _ _ (by simp [put_length]), List.set_append_right _ _ (by simp [put_length])]
  have e : ts.length + j - (ts.put l w).length - (dead j : Vars K V).length = 0 := by simp [put_length]
  rw [e]
  have e2 : ([some u] ++ dead j' : Vars K V).set 0 none = dead (1 + j') := by simp [dead, Nat.add_comm 1 j', List.replicate_succ]
  rw [e2, dead_append]

/-! ### Deep copies -/

theorem matKids_ok {rec : Loc → Nat → Act K V Nat} {l : Loc} : ∀ (cs : List (Tree K V)) (i : Nat) (ts : Vars K V),
    (∀ k c, cs[k]? = some c → ts.at (l.kid (i + k)) = some c) →
    (∀ c ∈ cs, ∀ (ts : Vars K V) q, ts.at q = some c → Mk (rec q 0) ts c) →
    ∃ ys rs, Does (matKidsP rec l cs.length i) ts rs (ts ++ ys) ∧
      ∀ zs : Vars K V, zs.length = ts.length → takeVars (zs ++ ys) rs = some (cs, zs ++ dead ys.length)
  | [], i, ts, _, _ => ⟨[], [], by rw [List.append_nil]; exact Does.pure _ ts, fun zs _ => by simp [takeVars]⟩
  | c :: cs, i, ts, hat, hrec => by
    obtain ⟨j, hj⟩ := hrec c (by simp) ts (l.kid i) (by simpa using hat 0 c (by simp))
    obtain ⟨ys, rs, h1, h2⟩ := matKids_ok (rec := rec) (l := l) cs (i + 1) (ts ++ dead j ++ [some c])
      (fun k d hk => at_append _ (at_append _ (by have := hat (k + 1) d (by simpa using hk); rwa [show i + 1 + k = i + (k + 1) by omega])))
      (fun d hd => hrec d (by simp [hd]))
    refine ⟨dead j ++ some c :: ys, (ts.length + j) :: rs, ?_, fun zs hz => ?_⟩
    · refine hj.bind (h1.bind ?_)
      have e : ts ++ (dead j ++ some c :: ys) = ts ++ dead j ++ [some c] ++ ys := by simp
      rw [e]; exact Does.pure _ _
    · have e : zs ++ (dead j ++ some c :: ys) = zs ++ dead j ++ [some c] ++ ys := by simp
      have e1 : (zs ++ dead j ++ [some c] ++ ys)[ts.length + j]? = some (some c) := by
        rw [List.getElem?_append_left (by simp [hz]), List.getElem?_append_right (by simp [hz])]; simp [hz]
      have e2 : (zs ++ dead j ++ [some c] ++ ys).set (ts.length + j) none = zs ++ dead j ++ [none] ++ ys := by
        rw [List.set_append_left _ _ (by simp [hz]), List.set_append_right _ _ (by simp [hz])]; simp [hz]
      rw [e, takeVars, e1]
      simp only [e2]
      rw [h2 (zs ++ dead j ++ [none]) (by simp [hz])]
      simp only [Option.some.injEq, Prod.mk.injEq, true_and, List.append_assoc, List.append_cancel_left_eq]
      have : ([none] : Vars K V) = dead 1 := rfl
      rw [this, dead_append, dead_append]
      congr 1; simp; omega

theorem matP_ok [Ord K] : ∀ (fuel : Nat) (u : Tree K V), Tree.Valid u → u.size < fuel → ∀ n, n < u.pre.length → ∀ (ts : Vars K V) q,
    ts.at q = some u → Mk (matP fuel q n) ts (u.shorten n)
  | 0, _, _, h, _, _, _, _, _ => by omega
  | fuel + 1, u, hv, hs, n, hn, ts, q, hq => by
    obtain ⟨ys, rs, h1, h2⟩ := matKids_ok (rec := matP fuel) (l := q) u.kids 0 ts (fun k c hc => at_kid hq (by simpa using hc))
      (fun c hc ts' q' hq' => by
        have hp := hv.kids.ne c hc
        have := matP_ok fuel c (hv.kids.valid c hc) (by have := Tree.kid_size hc; omega) 0 (by cases hx : c.pre <;> simp_all) ts' q' hq'
        have e : c.shorten 0 = c := by cases c; rfl
        rwa [e] at this)
    refine ⟨ys.length, ?_⟩
    show Does (look q >>= _) _ _ _
    refine (does_look hq).bind ?_
    simp only [if_pos hn]
    refine h1.bind ?_
    have h3 := h2 ts rfl
    have := does_make (ts := ts ++ ys) (c := .new (u.pre.drop n) u.val rs) (ts' := ts ++ dead ys.length ++ [some (u.shorten n)])
      (by simp only [Vars.step, h3]; rfl) (by simp; omega)
    simpa using this

/-! ### `split` and `unsplit` -/

theorem split_ok {n : Nat} (hl : ts.at l = some t) (hn : n < t.pre.length) : Upd (splitP l n) ts () l ⟨t.pre.take n, none, [t.shorten n]⟩ := by
  refine .look hl ?_
  simp only [if_pos hn]
  obtain ⟨w, hw, -⟩ := at_lt hl
  have hlt := lt_of_getElem? hw
  have hne : l.reg ≠ ts.length := by omega
  refine ⟨1, ?_⟩
  have h1 : ts.step (.new (t.pre.take n) none []) = (ts ++ [some ⟨t.pre.take n, none, []⟩], .ok) := by simp [Vars.step, takeVars]
  refine (does_make h1 (by simp)).bind ?_
  have h2 : Vars.step (ts ++ [some ⟨t.pre.take n, none, []⟩]) (.swap l ts.length) = (ts.put l ⟨t.pre.take n, none, []⟩ ++ [some t], .ok) := by
    simp only [Vars.step, if_neg hne, at_append [some ⟨t.pre.take n, none, []⟩] hl, put_append _ hl]
    simp only [List.getElem?_append_right (Nat.le_refl _), Nat.sub_self, List.getElem?_cons_zero]
    rw [List.set_append_right _ _ (by simp [put_length])]
    simp [put_length]
  refine (does_exec h2 (by simp [put_length])).bind ?_
  have hz : ∀ (x : Tree K V) (y : Option (Tree K V)), (ts.put l x ++ [y])[ts.length]? = some y := by
    intro x y
    rw [List.getElem?_append_right (by simp [put_length])]; simp [put_length]
  have hz2 : ∀ (x : Tree K V) (y z : Option (Tree K V)), (ts.put l x ++ [y]).set ts.length z = ts.put l x ++ [z] := by
    intro x y z
    rw [List.set_append_right _ _ (by simp [put_length])]; simp [put_length]
  have h3 : Vars.step (ts.put l ⟨t.pre.take n, none, []⟩ ++ [some t]) (.setPre ⟨ts.length, []⟩ (t.pre.drop n)) =
      (ts.put l ⟨t.pre.take n, none, []⟩ ++ [some (t.shorten n)], .ok) := by
    simp only [Vars.step, at_temp (hz _ _), put_temp (hz _ _), hz2]
    rfl
  refine (does_exec h3 (by simp [put_length])).bind ?_
  refine does_exec ?_ (by simp [put_length])
  have h4 : Vars.at (ts.put l ⟨t.pre.take n, none, []⟩ ++ [some (t.shorten n)]) l = some ⟨t.pre.take n, none, []⟩ := at_append _ (at_put hl)
  simp only [Vars.step, if_neg hne, h4, hz, List.length_nil, Nat.le_refl, if_true, List.take_nil, List.drop_nil, List.nil_append]
  rw [put_append _ (at_put hl), put_put hl, hz2]
  rfl

theorem prepend_ok (hl : ts.at l = some t) (p : List K) : Upd (prependP l p) ts () l (t.prepend p) := by
  refine .look hl ?_
  have e : (⟨t.pre, t.val, t.kids.length⟩ : Seen K V).isEmpty = t.isEmpty := by
    simp only [Seen.isEmpty, Tree.isEmpty]; cases t.kids <;> rfl
  simp only [e, Tree.prepend]
  split
  · exact .setPre hl _
  · exact .pure hl

theorem seen_isEmpty (t : Tree K V) : (⟨t.pre, t.val, t.kids.length⟩ : Seen K V).isEmpty = t.isEmpty := by
  simp only [Seen.isEmpty, Tree.isEmpty]; cases t.kids <;> rfl

theorem retainKids_ok : ∀ (as ds : List (Tree K V)) {ts : Vars K V} {t : Tree K V}, ts.at l = some t → t.kids = ds ++ as →
    Upd (retainKidsP l as.length ds.length) ts () l { t with kids := ds ++ as.filter (fun x => !x.isEmpty) }
  | [], ds, ts, t, hl, hk => by
    have : ({ t with kids := ds ++ [] } : Tree K V) = t := by cases t; simp_all
    rw [List.filter_nil, this]
    exact .pure hl
  | a :: as, ds, ts, t, hl, hk => by
    have ha : t.kids[ds.length]? = some a := by rw [hk]; simp
    refine .look (at_kid hl ha) ?_
    simp only [seen_isEmpty]
    cases he : a.isEmpty with
    | true =>
      simp only [if_true, List.filter_cons, he, Bool.not_true, Bool.false_eq_true, if_false]
      refine Upd.bind hl (.erase hl (lt_of_getElem? ha)) fun ts1 h1 _ => ?_
      simpa using retainKids_ok as ds h1 (by simp [hk])
    | false =>
      simp only [Bool.false_eq_true, if_false, List.filter_cons, he, Bool.not_false, if_true]
      have := retainKids_ok as (ds ++ [a]) hl (by simp [hk])
      simpa using this

theorem mergeOnlyChild_ok (hl : ts.at l = some t) : Upd (mergeOnlyChildP l) ts () l t.mergeOnlyChild := by
  refine .look hl ?_
  rcases t with ⟨p, v, ks⟩
  by_cases h : ks.length = 1 ∧ v.isNone
  · obtain ⟨h1, h2⟩ := h
    simp only [h1, h2, if_true]
    cases v with
    | some _ => simp at h2
    | none =>
    match ks, h1 with
    | [c], _ =>
    simp only [Tree.mergeOnlyChild]
    obtain ⟨w, hw, -⟩ := at_lt hl
    have hlt := lt_of_getElem? hw
    have hne : l.reg ≠ ts.length := by omega
    have h1 : ts.step (.removeKid l 0) = (ts.put l ⟨p, none, []⟩ ++ [some c], .ok) := by simp [Vars.step, hl]
    have hz : ∀ (x : Tree K V) (y : Option (Tree K V)), (ts.put l x ++ [y])[ts.length]? = some y := by
      intro x y
      rw [List.getElem?_append_right (by simp [put_length])]; simp [put_length]
    have hz2 : ∀ (x : Tree K V) (y z : Option (Tree K V)), (ts.put l x ++ [y]).set ts.length z = ts.put l x ++ [z] := by
      intro x y z
      rw [List.set_append_right _ _ (by simp [put_length])]; simp [put_length]
    have hc : Vars.at (ts.put l ⟨p, none, []⟩ ++ [some c]) ⟨ts.length, []⟩ = some c := by
      exact at_temp (hz _ _)
    obtain ⟨j, hj⟩ := prepend_ok hc p
    have hc2 : Vars.put (ts.put l ⟨p, none, []⟩ ++ [some c]) ⟨ts.length, []⟩ (c.prepend p) = ts.put l ⟨p, none, []⟩ ++ [some (c.prepend p)] := by
      rw [put_temp (hz _ _), hz2]
    rw [hc2] at hj
    refine ⟨1 + j, (does_make h1 (by simp [put_length])).bind (hj.bind ?_)⟩
    have hz3 : (ts.put l ⟨p, none, []⟩ ++ [some (c.prepend p)] ++ dead j)[ts.length]? = some (some (c.prepend p)) := by
      rw [List.getElem?_append_left (by simp [put_length]), hz]
    have h4 : Vars.at (ts.put l ⟨p, none, []⟩ ++ [some (c.prepend p)] ++ dead j) l = some ⟨p, none, []⟩ := at_append _ (at_append _ (at_put hl))
    have h2 : Vars.step (ts.put l ⟨p, none, []⟩ ++ [some (c.prepend p)] ++ dead j) (.swap l ts.length) =
        (ts.put l (c.prepend p) ++ [some ⟨p, none, []⟩] ++ dead j, .ok) := by
      simp only [Vars.step, if_neg hne, h4, hz3]
      rw [put_append _ (at_append _ (at_put hl)), put_append _ (at_put hl), put_put hl, List.set_append_left _ _ (by simp [put_length]), hz2]
    refine (does_exec h2 (by simp [put_length])).bind (does_exec ?_ (by simp [put_length]; omega))
    have hz4 : (ts.put l (c.prepend p) ++ [some ⟨p, none, []⟩] ++ dead j)[ts.length]? = some (some ⟨p, none, []⟩) := by
      rw [List.getElem?_append_left (by simp [put_length]), hz]
    simp only [Vars.step, hz4]
    rw [List.set_append_left _ _ (by simp [put_length]), hz2, List.append_assoc]
    have : ([none] : Vars K V) = dead 1 := rfl
    rw [this, dead_append]
  · rw [if_neg h]
    have e : Tree.mergeOnlyChild (⟨p, v, ks⟩ : Tree K V) = ⟨p, v, ks⟩ := by
      unfold Tree.mergeOnlyChild
      split
      · rename_i h1 h2; simp at h1 h2; subst h1 h2; simp at h
      · rfl
    rw [e]
    exact .pure hl

theorem unsplit_ok (hl : ts.at l = some t) : Upd (unsplitP l) ts () l t.unsplit := by
  refine .look hl ?_
  refine Upd.bind (a := ()) hl (t1 := t.dropEmptyKids) ?_ fun ts1 h1 _ => ?_
  · simpa [Tree.dropEmptyKids] using retainKids_ok t.kids [] hl (by simp)
  refine Upd.bind h1 (mergeOnlyChild_ok h1) fun ts2 h2 _ => ?_
  refine .look h2 ?_
  simp only [seen_isEmpty, Tree.unsplit, Tree.clearEmptyPrefix]
  split
  · exact .setPre h2 _
  · exact .pure h2

/-! ### Merging children -/

/-- the places hold the trees, outside variable `x` -/
def Ats (ts : Vars K V) (x : Nat) (rhs : List Loc) (bs : List (Tree K V)) : Prop :=
  (∀ r ∈ rhs, r.reg ≠ x) ∧ rhs.map ts.at = bs.map some

theorem Ats.keep {ts1 : Vars K V} {x : Nat} {rhs : List Loc} {bs : List (Tree K V)} (h : Ats ts x rhs bs) (hk : Keeps ts ts1 x) :
    Ats ts1 x rhs bs := by
  refine ⟨h.1, ?_⟩
  obtain ⟨h1, h2⟩ := h
  induction rhs generalizing bs with
  | nil => cases bs <;> simp_all
  | cons r rs ih =>
    cases bs with
    | nil => simp at h2
    | cons b bs =>
      simp only [List.map_cons, List.cons.injEq] at h2 ⊢
      exact ⟨hk r (h1 r (by simp)) b h2.1, ih (fun q hq => h1 q (by simp [hq])) h2.2⟩

theorem Ats.cons {x : Nat} {r : Loc} {rs : List Loc} {b : Tree K V} {bs : List (Tree K V)} (h : Ats ts x (r :: rs) (b :: bs)) :
    r.reg ≠ x ∧ ts.at r = some b ∧ Ats ts x rs bs := by
  obtain ⟨h1, h2⟩ := h
  simp only [List.map_cons, List.cons.injEq] at h2
  exact ⟨h1 r (by simp), h2.1, fun q hq => h1 q (by simp [hq]), h2.2⟩

theorem Ats.length {x : Nat} {rs : List Loc} {bs : List (Tree K V)} (h : Ats ts x rs bs) : rs.length = bs.length := by
  have := congrArg List.length h.2
  simpa using this

theorem Upd.insertThen {m : Act K V Nat} {f : Act K V Unit} {i : Nat} {w : Tree K V} (hl : ts.at l = some t) (hm : Mk m ts u)
    (hi : i ≤ t.kids.length)
    (h2 : ∀ ts1 : Vars K V, ts1.at l = some { t with kids := t.kids.take i ++ u :: t.kids.drop i } → Keeps ts ts1 l.reg → Upd f ts1 () l w) :
    Upd (do let v ← m; Shared.exec (.insertKid l i v); f) ts () l w :=
  Upd.bind (m := do let v ← m; Shared.exec (.insertKid l i v)) (f := fun _ => f) hl (.insertNew hl hm hi) h2

section
variable [Ord K]

theorem mat_whole {fuel : Nat} {b : Tree K V} (hv : Tree.Valid b) (hp : b.pre ≠ []) (hs : b.size < fuel) (hr : ts.at r = some b) :
    Mk (matP fuel r 0) ts b := by
  have := matP_ok fuel b hv hs 0 (by cases hx : b.pre <;> simp_all) ts r hr
  have e : b.shorten 0 = b := by cases b; rfl
  rwa [e] at this

theorem takeAll_ok {fuel : Nat} : ∀ (bs : List (Tree K V)) (rhs : List Loc) (ds : List (Tree K V)) {ts : Vars K V} {t : Tree K V}, ts.at l = some t →
    t.kids = ds → Ats ts l.reg rhs bs → (∀ b ∈ bs, Tree.Valid b ∧ b.pre ≠ [] ∧ b.size < fuel) →
    Upd (takeAllP fuel l ds.length rhs) ts () l { t with kids := ds ++ bs }
  | [], [], ds, ts, t, hl, hk, _, _ => by
    have : ({ t with kids := ds ++ [] } : Tree K V) = t := by cases t; simp_all
    rw [this]
    exact .pure hl
  | [], _ :: _, _, _, _, _, _, ha, _ => by have := ha.length; simp at this
  | _ :: _, [], _, _, _, _, _, ha, _ => by have := ha.length; simp at this
  | b :: bs, r :: rs, ds, ts, t, hl, hk, ha, hv => by
    obtain ⟨h1, h2, h3⟩ := ha.cons
    obtain ⟨v1, v2, v3⟩ := hv b (by simp)
    refine Upd.insertThen hl (mat_whole v1 v2 v3 h2) (by simp [hk]) fun ts1 h4 h5 => ?_
    have := takeAll_ok bs rs (ds ++ [b]) h4 (by simp [hk]) (h3.keep h5) (fun c hc => hv c (by simp [hc]))
    simpa using this

theorem eraseAll_ok : ∀ (as ds : List (Tree K V)) {ts : Vars K V} {t : Tree K V}, ts.at l = some t → t.kids = ds ++ as →
    Upd (eraseAllP l ds.length as.length) ts () l { t with kids := ds }
  | [], ds, ts, t, hl, hk => by
    have : ({ t with kids := ds } : Tree K V) = t := by cases t; simp_all
    rw [this]
    exact .pure hl
  | a :: as, ds, ts, t, hl, hk => by
    refine Upd.bind hl (.erase hl (by simp [hk])) fun ts1 h1 _ => ?_
    simpa using eraseAll_ok as ds h1 (by simp [hk])

/-- what a recursive call does: it replaces the left tree by `g x y` -/
def RecOk (rec : Loc → Loc → Act K V Unit) (g : Tree K V → Tree K V → Tree K V) (x y : Tree K V) : Prop :=
  ∀ (ts : Vars K V) (l r : Loc), ts.at l = some x → ts.at r = some y → r.reg ≠ l.reg → Upd (rec l r) ts () l (g x y)

theorem set_mid (ds : List (Tree K V)) (a z : Tree K V) (as : List (Tree K V)) : (ds ++ a :: as).set ds.length z = ds ++ z :: as := by
  simp

/-- the merged children -/
abbrev joinKids (takeA takeB : Bool) (g : Tree K V → Tree K V → Tree K V) (as bs : List (Tree K V)) : List (Tree K V) :=
  joinList Tree.headCmp (fun a => if takeA then some a else none) (fun b => if takeB then some b else none) (fun x y => Tree.nonEmpty (g x y)) as bs

theorem children_ok {takeA takeB : Bool} {fuel : Nat} {rec : Loc → Loc → Act K V Unit} {g : Tree K V → Tree K V → Tree K V} :
    ∀ (s : Nat) (as bs : List (Tree K V)) (rhs : List Loc) (ds : List (Tree K V)) {ts : Vars K V} {t : Tree K V}, as.length + bs.length ≤ s →
    ts.at l = some t → t.kids = ds ++ as → Ats ts l.reg rhs bs →
    (∀ b ∈ bs, Tree.Valid b ∧ b.pre ≠ [] ∧ b.size < fuel) → (∀ a ∈ as, ∀ b ∈ bs, Tree.headCmp a b = .eq → RecOk rec g a b) →
    Upd (childrenP takeA takeB fuel rec l s ds.length as.length rhs) ts () l
      { t with kids := ds ++ joinKids takeA takeB g as bs }
  | s, [], bs, rhs, ds, ts, t, hs, hl, hk, ha, hv, hr => by
    have e : childrenP takeA takeB fuel rec l s ds.length ([] : List (Tree K V)).length rhs = if takeB then takeAllP fuel l ds.length rhs else pure () := by
      cases s <;> rfl
    rw [e, joinKids, joinList_nil_left]
    have hk' : t.kids = ds := by simpa using hk
    cases takeB with
    | true =>
      simp only [if_true, List.filterMap_some]
      exact takeAll_ok bs rhs ds hl hk' ha hv
    | false =>
      simp only [Bool.false_eq_true, if_false]
      have : ({ t with kids := ds ++ bs.filterMap (fun _ => none) } : Tree K V) = t := by
        rw [show bs.filterMap (fun _ => (none : Option (Tree K V))) = [] by simp]; cases t; simp_all
      rw [this]
      exact .pure hl
  | s, a :: as, [], rhs, ds, ts, t, hs, hl, hk, ha, hv, hr => by
    have hr0 : rhs = [] := by have := ha.length; simpa [joinKids] using this
    subst hr0
    have e : childrenP takeA takeB fuel rec l s ds.length (a :: as).length [] = if takeA then pure () else eraseAllP l ds.length (as.length + 1) := by
      cases s <;> rfl
    rw [e, joinKids, joinList_nil_right]
    cases takeA with
    | true =>
      simp only [if_true, List.filterMap_some]
      have : ({ t with kids := ds ++ a :: as } : Tree K V) = t := by cases t; simp_all
      rw [this]
      exact .pure hl
    | false =>
      simp only [Bool.false_eq_true, if_false]
      have := eraseAll_ok (a :: as) ds hl hk
      rw [show (a :: as).filterMap (fun _ => (none : Option (Tree K V))) = [] by simp, List.append_nil]
      exact this
  | 0, _ :: _, _ :: _, _, _, _, _, hs, _, _, _, _, _ => by simp at hs
  | s + 1, a :: as, b :: bs, [], _, _, _, _, _, _, ha, _, _ => by have := ha.length; simp at this
  | s + 1, a :: as, b :: bs, r :: rs, ds, ts, t, hs, hl, hk, ha, hv, hr => by
    obtain ⟨h1, h2, h3⟩ := ha.cons
    obtain ⟨v1, v2, v3⟩ := hv b (by simp)
    have hka : t.kids[ds.length]? = some a := by rw [hk]; simp
    have hlt := lt_of_getElem? hka
    simp only [List.length_cons] at hs
    refine .look (at_kid hl hka) (.look h2 ?_)
    rw [joinKids, joinList_cons]
    have hcmp : compare a.pre.head? b.pre.head? = Tree.headCmp a b := rfl
    simp only [hcmp]
    cases hc : Tree.headCmp a b with
    | lt =>
      simp only
      cases takeA with
      | true =>
        have := children_ok s as (b :: bs) (r :: rs) (ds ++ [a]) (takeA := true) (takeB := takeB) (fuel := fuel) (rec := rec) (g := g)
          (by simp; omega) hl (by simp [hk]) ha hv (fun x hx => hr x (by simp [hx]))
        simpa [joinKids] using this
      | false =>
        simp only [Bool.false_eq_true, if_false]
        refine Upd.bind hl (.erase hl hlt) fun ts1 h4 h5 => ?_
        have := children_ok s as (b :: bs) (r :: rs) ds (takeA := false) (takeB := takeB) (fuel := fuel) (rec := rec) (g := g)
          (by simp; omega) h4 (by simp [hk]) (ha.keep h5) hv (fun x hx => hr x (by simp [hx]))
        simpa [joinKids] using this
    | gt =>
      simp only
      cases takeB with
      | true =>
        simp only [if_true]
        refine Upd.insertThen hl (mat_whole v1 v2 v3 h2) (by simp [hk]) fun ts1 h4 h5 => ?_
        have := children_ok s (a :: as) bs rs (ds ++ [b]) (takeA := takeA) (takeB := true) (fuel := fuel) (rec := rec) (g := g)
          (by simp; omega) h4 (by simp [hk]) (h3.keep h5) (fun c hc => hv c (by simp [hc])) (fun x hx y hy => hr x hx y (by simp [hy]))
        simpa [joinKids] using this
      | false =>
        simp only [Bool.false_eq_true, if_false]
        have := children_ok s (a :: as) bs rs ds (takeA := takeA) (takeB := false) (fuel := fuel) (rec := rec) (g := g)
          (by simp; omega) hl hk h3 (fun c hc => hv c (by simp [hc])) (fun x hx y hy => hr x hx y (by simp [hy]))
        simpa [joinKids] using this
    | eq =>
      simp only
      refine Upd.bind (a := ()) hl (.kid hl hlt (hr a (by simp) b (by simp) hc ts (l.kid ds.length) r (at_kid hl hka) h2 h1)) fun ts1 h4 h5 => ?_
      have h6 : (t.kids.set ds.length (g a b))[ds.length]? = some (g a b) := by simp [hlt]
      refine .look (at_kid h4 h6) ?_
      simp only [seen_isEmpty]
      have hn : Tree.nonEmpty (g a b) = if (g a b).isEmpty then none else some (g a b) := rfl
      rw [hn]
      cases he : (g a b).isEmpty with
      | true =>
        simp only [if_true]
        refine Upd.bind h4 (.erase h4 (lt_of_getElem? h6)) fun ts2 h7 h8 => ?_
        have := children_ok s as bs rs ds (takeA := takeA) (takeB := takeB) (fuel := fuel) (rec := rec) (g := g)
          (by omega) h7 (by simp [hk]) ((h3.keep h5).keep h8) (fun c hc => hv c (by simp [hc]))
          (fun x hx y hy => hr x (by simp [hx]) y (by simp [hy]))
        simpa [joinKids] using this
      | false =>
        simp only [Bool.false_eq_true, if_false]
        have := children_ok s as bs rs (ds ++ [g a b]) (takeA := takeA) (takeB := takeB) (fuel := fuel) (rec := rec) (g := g)
          (by omega) h4 (by simp [hk]) (h3.keep h5) (fun c hc => hv c (by simp [hc]))
          (fun x hx y hy => hr x (by simp [hx]) y (by simp [hy]))
        simpa [joinKids] using this

theorem mergeKids_ok {takeA takeB : Bool} {fuel : Nat} {rec : Loc → Loc → Act K V Unit} {g : Tree K V → Tree K V → Tree K V}
    {bs : List (Tree K V)} {rhs : List Loc} {n : Nat} (hl : ts.at l = some t) (hn : n = t.kids.length) (ha : Ats ts l.reg rhs bs)
    (hv : ∀ b ∈ bs, Tree.Valid b ∧ b.pre ≠ [] ∧ b.size < fuel) (hr : ∀ a ∈ t.kids, ∀ b ∈ bs, Tree.headCmp a b = .eq → RecOk rec g a b) :
    Upd (mergeKidsP takeA takeB fuel rec l n rhs) ts () l { t with kids := joinKids takeA takeB g t.kids bs } := by
  subst hn
  have := children_ok (l := l) (takeA := takeA) (takeB := takeB) (fuel := fuel) (rec := rec) (g := g) (t.kids.length + rhs.length) t.kids bs rhs []
    (by rw [ha.length]; omega) hl (by simp) ha hv hr
  simpa [mergeKidsP] using this

theorem Ats.allKids {x : Nat} (hr : ts.at r = some u) (hx : r.reg ≠ x) : Ats ts x (r.allKids u.kids.length) u.kids := by
  refine ⟨fun q hq => ?_, ?_⟩
  · simp only [Loc.allKids, List.mem_map] at hq
    obtain ⟨i, -, rfl⟩ := hq
    exact hx
  · apply List.ext_getElem?
    intro i
    simp only [Loc.allKids, List.getElem?_map]
    by_cases hi : i < u.kids.length
    · rw [List.getElem?_range hi, List.getElem?_eq_getElem hi]
      simp only [Option.map_some]
      rw [at_kid hr (List.getElem?_eq_getElem hi)]
    · rw [List.getElem?_eq_none (by simpa using hi), List.getElem?_eq_none (by simpa using hi)]
      rfl

theorem mergeShortened_ok {takeA takeB : Bool} {fuel : Nat} {rec : Loc → Loc → Act K V Unit} {g : Tree K V → Tree K V → Tree K V} {n m : Nat}
    (hl : ts.at l = some t) (hm : m = t.kids.length) (hr : ts.at r = some u) (hv : Tree.Valid u) (hs : u.size < fuel)
    (hn : n < u.pre.length) (hrec : ∀ a ∈ t.kids, RecOk rec g a (u.shorten n)) :
    Upd (mergeShortenedP takeA takeB fuel rec l m r n) ts () l { t with kids := joinKids takeA takeB g t.kids [u.shorten n] } := by
  refine Upd.withNew hl (matP_ok fuel u hv hs n hn ts r hr) fun ts1 v h1 h2 h3 h4 => ?_
  refine mergeKids_ok h1 hm ⟨by simpa using h2, by simpa using h3⟩ (fun b hb => ?_) (fun a ha b hb _ => ?_)
  · simp only [List.mem_singleton] at hb
    subst hb
    refine ⟨Tree.Valid.setPre hv _, by intro h; have := congrArg List.length h; simp [Tree.shorten] at this; omega, ?_⟩
    have := Tree.size_shorten u n (by omega)
    omega
  · simp only [List.mem_singleton] at hb
    subst hb
    exact hrec a ha

theorem clearKids_ok : ∀ (as : List (Tree K V)) {ts : Vars K V} {t : Tree K V}, ts.at l = some t → t.kids = as →
    Upd (clearKidsP l as.length) ts () l { t with kids := [] }
  | [], ts, t, hl, hk => by
    have : ({ t with kids := [] } : Tree K V) = t := by cases t; simp_all
    rw [this]
    exact .pure hl
  | a :: as, ts, t, hl, hk => by
    refine Upd.bind hl (.erase hl (by simp [hk])) fun ts1 h1 _ => ?_
    simpa using clearKids_ok as h1 (by simp [hk])

theorem nuke_ok {n : Nat} (hl : ts.at l = some t) (hn : n = t.kids.length) : Upd (nukeP l n) ts () l t.clear := by
  refine Upd.bind hl (.setVal hl none) fun ts1 h1 _ => ?_
  subst hn
  exact clearKids_ok t.kids h1 rfl

theorem sortTwo_ok {p : List K} {v : Option V} {a b : Tree K V} (hl : ts.at l = some ⟨p, v, [a, b]⟩) :
    Upd (sortTwoP l) ts () l ⟨p, v, if Tree.headCmp a b = .gt then [b, a] else [a, b]⟩ := by
  refine .look (at_kid hl (i := 0) (c := a) rfl) (.look (at_kid hl (i := 1) (c := b) rfl) ?_)
  have hcmp : compare a.pre.head? b.pre.head? = Tree.headCmp a b := rfl
  simp only [hcmp]
  by_cases h : Tree.headCmp a b = .gt
  · rw [if_pos h, if_pos h]
    obtain ⟨w, hw, -⟩ := at_lt hl
    have hlt := lt_of_getElem? hw
    have hne : l.reg ≠ ts.length := by omega
    refine ⟨1, ?_⟩
    have h1 : ts.step (.removeKid l 0) = (ts.put l ⟨p, v, [b]⟩ ++ [some a], .ok) := by simp [Vars.step, hl]
    refine (does_make h1 (by simp [put_length])).bind (does_exec ?_ (by simp [put_length]))
    have hz : (ts.put l ⟨p, v, [b]⟩ ++ [some a])[ts.length]? = some (some a) := by
      rw [List.getElem?_append_right (by simp [put_length])]; simp [put_length]
    have h4 : Vars.at (ts.put l ⟨p, v, [b]⟩ ++ [some a]) l = some ⟨p, v, [b]⟩ := at_append _ (at_put hl)
    simp only [Vars.step, if_neg hne, h4, hz]
    rw [put_append _ (at_put hl), put_put hl, List.set_append_right _ _ (by simp [put_length])]
    simp [put_length, dead]
  · rw [if_neg h, if_neg h]
    exact .pure hl

end

/-! ### The operations -/
section
variable [Ord K] [TransOrd K] [LawfulEqOrd K] [DecidableEq K]
open Verif.Tree (Valid Kids commonPrefix commonPrefix_le_left commonPrefix_le_right refCases kidsRef outerPar innerPar leftPar removePar retainPar)

theorem kidsOk {fuel : Nat} {b : Tree K V} (hb : Valid b) (hs : b.size < fuel) : ∀ y ∈ b.kids, Valid y ∧ y.pre ≠ [] ∧ y.size < fuel := by
  intro y hy
  exact ⟨hb.kids.valid y hy, hb.kids.ne y hy, by have := Tree.kid_size hy; omega⟩

theorem outer_ok (f : V → V → Option V) : ∀ (fuel : Nat) (a b : Tree K V), Valid a → Valid b → a.size + b.size < fuel →
    RecOk (outerWithP f fuel) (Tree.ref (outerPar f) fuel) a b
  | 0, _, _, _, _, hs => by omega
  | fuel + 1, a, b, ha, hb, hs => by
    intro ts l r hl hr hne
    have hrec : ∀ x y, Valid x → Valid y → x.size + y.size < a.size + b.size → RecOk (outerWithP f fuel) (Tree.ref (outerPar f) fuel) x y :=
      fun x y hx hy hxy => outer_ok f fuel x y hx hy (by omega)
    have hsa : 1 ≤ a.size := by rw [Tree.size_eq]; omega
    have hla := commonPrefix_le_left a.pre b.pre
    have hlb := commonPrefix_le_right a.pre b.pre
    have hdf := Tree.commonPrefix_differ a.pre b.pre
    unfold Tree.ref refCases
    refine .look hl (.look hr ?_)
    simp only
    revert hla hlb hdf
    generalize commonPrefix a.pre b.pre = n
    intro hla hlb hdf
    by_cases h1 : n = a.pre.length ∧ n = b.pre.length
    · rw [if_pos h1, if_pos h1]
      refine Upd.bind hl (.setVal hl _) fun ts1 h2 h3 => ?_
      refine Upd.bind (a := ()) h2 (mergeKids_ok (g := Tree.ref (outerPar f) fuel) h2 rfl (Ats.allKids (h3 r hne b hr) hne) (kidsOk hb (by omega)) ?_)
        fun ts2 h4 _ => ?_
      · intro x hx y hy _
        exact hrec x y (ha.kids.valid x hx) (hb.kids.valid y hy) (by have := Tree.kid_size (t := a) hx; have := Tree.kid_size hy; omega)
      · have e : outerV f a.val b.val = Tree.outerPureVal f a.val b.val := by cases a.val <;> cases b.val <;> rfl
        rw [e] at h4
        exact unsplit_ok h4
    rw [if_neg h1, if_neg h1]
    by_cases h3 : n = a.pre.length
    · have hnb : n < b.pre.length := by omega
      rw [if_pos h3, if_neg (by omega), if_pos h3]
      refine Upd.bind (a := ()) hl (mergeShortened_ok (g := Tree.ref (outerPar f) fuel) hl rfl hr hb (by omega) hnb ?_) fun ts2 h4 _ => unsplit_ok h4
      intro x hx
      exact hrec x _ (ha.kids.valid x hx) (hb.shorten n) (by have := Tree.kid_size (t := a) hx; have := Tree.size_shorten b n (by omega); omega)
    rw [if_neg h3]
    have hna : n < a.pre.length := by omega
    by_cases h2 : n = b.pre.length
    · rw [if_pos h2, if_pos h2]
      refine Upd.bind hl (split_ok hl hna) fun ts1 k1 k2 => ?_
      refine Upd.bind k1 (.setVal k1 _) fun ts2 k3 k4 => ?_
      refine Upd.bind (a := ()) k3 (mergeKids_ok (g := Tree.ref (outerPar f) fuel) k3 rfl (Ats.allKids (k4 r hne b (k2 r hne b hr)) hne) (kidsOk hb (by omega)) ?_)
        fun ts3 k5 _ => ?_
      · intro x hx y hy _
        simp only [List.mem_singleton] at hx
        subst hx
        exact hrec _ y (ha.shorten n) (hb.kids.valid y hy) (by have := Tree.kid_size hy; have := Tree.size_shorten a n (by omega); omega)
      · have e : outerV f none b.val = b.val := by cases b.val <;> rfl
        rw [e] at k5
        exact unsplit_ok k5
    · have hnb : n < b.pre.length := by omega
      rw [if_neg h2, if_neg h2, if_neg h3]
      refine Upd.bind hl (split_ok hl hna) fun ts1 k1 k2 => ?_
      refine Upd.insertThen k1 (matP_ok fuel b hb (by omega) n hnb ts1 r (k2 r hne b hr)) (by simp) fun ts2 k3 _ => ?_
      simp only [List.take_succ_cons, List.take_nil, List.drop_succ_cons, List.drop_nil, List.cons_append, List.nil_append] at k3
      refine Upd.bind k3 (sortTwo_ok k3) fun ts3 k5 _ => ?_
      have e : (if Tree.headCmp (a.shorten n) (b.shorten n) = .gt then [b.shorten n, a.shorten n] else [a.shorten n, b.shorten n]) =
          kidsRef (outerPar f) (Tree.ref (outerPar f) fuel) [a.shorten n] [b.shorten n] := by
        rw [kidsRef, joinList_cons]
        cases hc : Tree.headCmp (a.shorten n) (b.shorten n) with
        | lt => simp [joinList_nil_left, outerPar]
        | gt => simp [joinList_nil_right, outerPar]
        | eq => rw [Tree.headCmp_eq] at hc; exact absurd (cmp_eq_iff.1 hc) (hdf hna hnb)
      rw [e] at k5
      exact unsplit_ok k5
theorem inner_ok (f : V → V → Option V) : ∀ (fuel : Nat) (a b : Tree K V), Valid a → Valid b → a.size + b.size < fuel →
    RecOk (innerWithP f fuel) (Tree.ref (innerPar f) fuel) a b
  | 0, _, _, _, _, hs => by omega
  | fuel + 1, a, b, ha, hb, hs => by
    intro ts l r hl hr hne
    have hrec : ∀ x y, Valid x → Valid y → x.size + y.size < a.size + b.size → RecOk (innerWithP f fuel) (Tree.ref (innerPar f) fuel) x y :=
      fun x y hx hy hxy => inner_ok f fuel x y hx hy (by omega)
    have hsa : 1 ≤ a.size := by rw [Tree.size_eq]; omega
    have hla := commonPrefix_le_left a.pre b.pre
    have hlb := commonPrefix_le_right a.pre b.pre
    have hkk : ∀ x ∈ a.kids, ∀ y ∈ b.kids, RecOk (innerWithP f fuel) (Tree.ref (innerPar f) fuel) x y := fun x hx y hy =>
      hrec x y (ha.kids.valid x hx) (hb.kids.valid y hy) (by have := Tree.kid_size hx; have := Tree.kid_size hy; omega)
    have hks : ∀ n, n ≤ b.pre.length → ∀ x ∈ a.kids, RecOk (innerWithP f fuel) (Tree.ref (innerPar f) fuel) x (b.shorten n) := fun n hn x hx =>
      hrec x _ (ha.kids.valid x hx) (hb.shorten n) (by have := Tree.kid_size hx; have := Tree.size_shorten b n hn; omega)
    have hsk : ∀ n, n ≤ a.pre.length → ∀ x ∈ [a.shorten n], ∀ y ∈ b.kids, RecOk (innerWithP f fuel) (Tree.ref (innerPar f) fuel) x y := by
      intro n hn x hx y hy
      simp only [List.mem_singleton] at hx
      subst hx
      exact hrec _ y (ha.shorten n) (hb.kids.valid y hy) (by have := Tree.kid_size hy; have := Tree.size_shorten a n hn; omega)
    unfold Tree.ref refCases
    refine .look hl (.look hr ?_)
    simp only
    revert hla hlb
    generalize commonPrefix a.pre b.pre = n
    intro hla hlb
    by_cases h1 : n = a.pre.length ∧ n = b.pre.length
    · rw [if_pos h1, if_pos h1]
      refine Upd.bind hl (.setVal hl _) fun ts1 k1 k2 => ?_
      refine Upd.bind (a := ()) k1 (mergeKids_ok (g := Tree.ref (innerPar f) fuel) k1 rfl (Ats.allKids (k2 r hne b hr) hne) (kidsOk hb (by omega)) (fun x hx y hy _ => hkk x hx y hy))
        fun ts2 k3 _ => ?_
      have e : innerV f a.val b.val = Tree.innerPureVal f a.val b.val := by cases a.val <;> cases b.val <;> rfl
      rw [e] at k3
      exact unsplit_ok k3
    rw [if_neg h1, if_neg h1]
    by_cases h2 : n = b.pre.length
    · have h3 : n ≠ a.pre.length := by omega
      have hna : n < a.pre.length := by omega
      rw [if_pos h2, if_neg h3, if_pos h2]
      refine Upd.bind hl (split_ok hl hna) fun ts1 k1 k2 => ?_
      refine Upd.bind (a := ()) k1 (mergeKids_ok (g := Tree.ref (innerPar f) fuel) k1 rfl (Ats.allKids (k2 r hne b hr) hne) (kidsOk hb (by omega)) (fun x hx y hy _ => hsk n hla x hx y hy))
        fun ts2 k3 _ => ?_
      exact unsplit_ok k3
    simp only [if_neg h2]
    by_cases h3 : n = a.pre.length
    · have hnb : n < b.pre.length := by omega
      simp only [if_pos h3]
      refine Upd.bind hl (.setVal hl none) fun ts1 k1 k2 => ?_
      refine Upd.bind (a := ()) k1 (mergeShortened_ok (g := Tree.ref (innerPar f) fuel) k1 rfl (k2 r hne b hr) hb (by omega) hnb (hks n hlb)) fun ts2 k3 _ => unsplit_ok k3
    simp only [if_neg h3]
    refine Upd.bind (a := ()) hl (nuke_ok hl rfl) fun ts1 k1 _ => unsplit_ok k1

theorem left_ok (f : V → V → Option V) : ∀ (fuel : Nat) (a b : Tree K V), Valid a → Valid b → a.size + b.size < fuel →
    RecOk (leftWithP f fuel) (Tree.ref (leftPar (Tree.leftMutVal f)) fuel) a b
  | 0, _, _, _, _, hs => by omega
  | fuel + 1, a, b, ha, hb, hs => by
    intro ts l r hl hr hne
    have hrec : ∀ x y, Valid x → Valid y → x.size + y.size < a.size + b.size → RecOk (leftWithP f fuel) (Tree.ref (leftPar (Tree.leftMutVal f)) fuel) x y :=
      fun x y hx hy hxy => left_ok f fuel x y hx hy (by omega)
    have hsa : 1 ≤ a.size := by rw [Tree.size_eq]; omega
    have hla := commonPrefix_le_left a.pre b.pre
    have hlb := commonPrefix_le_right a.pre b.pre
    have hkk : ∀ x ∈ a.kids, ∀ y ∈ b.kids, RecOk (leftWithP f fuel) (Tree.ref (leftPar (Tree.leftMutVal f)) fuel) x y := fun x hx y hy =>
      hrec x y (ha.kids.valid x hx) (hb.kids.valid y hy) (by have := Tree.kid_size hx; have := Tree.kid_size hy; omega)
    have hks : ∀ n, n ≤ b.pre.length → ∀ x ∈ a.kids, RecOk (leftWithP f fuel) (Tree.ref (leftPar (Tree.leftMutVal f)) fuel) x (b.shorten n) := fun n hn x hx =>
      hrec x _ (ha.kids.valid x hx) (hb.shorten n) (by have := Tree.kid_size hx; have := Tree.size_shorten b n hn; omega)
    have hsk : ∀ n, n ≤ a.pre.length → ∀ x ∈ [a.shorten n], ∀ y ∈ b.kids, RecOk (leftWithP f fuel) (Tree.ref (leftPar (Tree.leftMutVal f)) fuel) x y := by
      intro n hn x hx y hy
      simp only [List.mem_singleton] at hx
      subst hx
      exact hrec _ y (ha.shorten n) (hb.kids.valid y hy) (by have := Tree.kid_size hy; have := Tree.size_shorten a n hn; omega)
    unfold Tree.ref refCases
    refine .look hl (.look hr ?_)
    simp only
    revert hla hlb
    generalize commonPrefix a.pre b.pre = n
    intro hla hlb
    by_cases h1 : n = a.pre.length ∧ n = b.pre.length
    · rw [if_pos h1, if_pos h1]
      refine Upd.bind hl (.setVal hl _) fun ts1 k1 k2 => ?_
      refine Upd.bind (a := ()) k1 (mergeKids_ok (g := Tree.ref (leftPar (Tree.leftMutVal f)) fuel) k1 rfl (Ats.allKids (k2 r hne b hr) hne) (kidsOk hb (by omega)) (fun x hx y hy _ => hkk x hx y hy))
        fun ts2 k3 _ => ?_
      have e : leftV f a.val b.val = Tree.leftMutVal f a.val b.val := by cases a.val <;> cases b.val <;> rfl
      rw [e] at k3
      exact unsplit_ok k3
    rw [if_neg h1, if_neg h1]
    by_cases h2 : n = b.pre.length
    · have h3 : n ≠ a.pre.length := by omega
      have hna : n < a.pre.length := by omega
      rw [if_pos h2, if_neg h3, if_pos h2]
      refine Upd.bind hl (split_ok hl hna) fun ts1 k1 k2 => ?_
      refine Upd.bind (a := ()) k1 (mergeKids_ok (g := Tree.ref (leftPar (Tree.leftMutVal f)) fuel) k1 rfl (Ats.allKids (k2 r hne b hr) hne) (kidsOk hb (by omega)) (fun x hx y hy _ => hsk n hla x hx y hy))
        fun ts2 k3 _ => ?_
      exact unsplit_ok k3
    simp only [if_neg h2]
    by_cases h3 : n = a.pre.length
    · have hnb : n < b.pre.length := by omega
      simp only [if_pos h3]
      refine Upd.bind (a := ()) hl (mergeShortened_ok (g := Tree.ref (leftPar (Tree.leftMutVal f)) fuel) hl rfl hr hb (by omega) hnb (hks n hlb)) fun ts2 k3 _ => unsplit_ok k3
    simp only [if_neg h3]
    exact unsplit_ok hl

theorem remove_ok (f : V → Bool) : ∀ (fuel : Nat) (a b : Tree K V), Valid a → Valid b → a.size + b.size < fuel →
    RecOk (removePrefixP f fuel) (Tree.ref (removePar f) fuel) a b
  | 0, _, _, _, _, hs => by omega
  | fuel + 1, a, b, ha, hb, hs => by
    intro ts l r hl hr hne
    have hrec : ∀ x y, Valid x → Valid y → x.size + y.size < a.size + b.size → RecOk (removePrefixP f fuel) (Tree.ref (removePar f) fuel) x y :=
      fun x y hx hy hxy => remove_ok f fuel x y hx hy (by omega)
    have hsa : 1 ≤ a.size := by rw [Tree.size_eq]; omega
    have hla := commonPrefix_le_left a.pre b.pre
    have hlb := commonPrefix_le_right a.pre b.pre
    have hkk : ∀ x ∈ a.kids, ∀ y ∈ b.kids, RecOk (removePrefixP f fuel) (Tree.ref (removePar f) fuel) x y := fun x hx y hy =>
      hrec x y (ha.kids.valid x hx) (hb.kids.valid y hy) (by have := Tree.kid_size hx; have := Tree.kid_size hy; omega)
    have hks : ∀ n, n ≤ b.pre.length → ∀ x ∈ a.kids, RecOk (removePrefixP f fuel) (Tree.ref (removePar f) fuel) x (b.shorten n) := fun n hn x hx =>
      hrec x _ (ha.kids.valid x hx) (hb.shorten n) (by have := Tree.kid_size hx; have := Tree.size_shorten b n hn; omega)
    have hsk : ∀ n, n ≤ a.pre.length → ∀ x ∈ [a.shorten n], ∀ y ∈ b.kids, RecOk (removePrefixP f fuel) (Tree.ref (removePar f) fuel) x y := by
      intro n hn x hx y hy
      simp only [List.mem_singleton] at hx
      subst hx
      exact hrec _ y (ha.shorten n) (hb.kids.valid y hy) (by have := Tree.kid_size hy; have := Tree.size_shorten a n hn; omega)
    unfold Tree.ref refCases
    refine .look hl (.look hr ?_)
    simp only
    revert hla hlb
    generalize commonPrefix a.pre b.pre = n
    intro hla hlb
    by_cases h1 : n = a.pre.length ∧ n = b.pre.length
    · rw [if_pos h1, if_pos h1]
      have e : (removePar f : Tree.Par K V V).stop b.val = hit f b.val := by cases b.val <;> rfl
      rw [e]
      cases hh : hit f b.val with
      | true =>
        simp only [if_true]
        refine Upd.bind (a := ()) hl (nuke_ok hl rfl) fun ts1 k1 _ => unsplit_ok k1
      | false =>
        simp only [Bool.false_eq_true, if_false]
        refine Upd.bind (a := ()) hl (mergeKids_ok (g := Tree.ref (removePar f) fuel) hl rfl (Ats.allKids hr hne) (kidsOk hb (by omega)) (fun x hx y hy _ => hkk x hx y hy))
          fun ts2 k3 _ => ?_
        exact unsplit_ok k3
    rw [if_neg h1, if_neg h1]
    by_cases h2 : n = b.pre.length
    · have h3 : n ≠ a.pre.length := by omega
      have hna : n < a.pre.length := by omega
      rw [if_pos h2, if_pos h2]
      have e : (removePar f : Tree.Par K V V).stop b.val = hit f b.val := by cases b.val <;> rfl
      rw [e]
      cases hh : hit f b.val with
      | true =>
        simp only [if_true]
        refine Upd.bind (a := ()) hl (nuke_ok hl rfl) fun ts1 k1 _ => unsplit_ok k1
      | false =>
        simp only [Bool.false_eq_true, if_false]
        refine Upd.bind hl (split_ok hl hna) fun ts1 k1 k2 => ?_
        refine Upd.bind (a := ()) k1 (mergeKids_ok (g := Tree.ref (removePar f) fuel) k1 rfl (Ats.allKids (k2 r hne b hr) hne) (kidsOk hb (by omega)) (fun x hx y hy _ => hsk n hla x hx y hy))
          fun ts2 k3 _ => ?_
        exact unsplit_ok k3
    simp only [if_neg h2]
    by_cases h3 : n = a.pre.length
    · have hnb : n < b.pre.length := by omega
      simp only [if_pos h3]
      refine Upd.bind (a := ()) hl (mergeShortened_ok (g := Tree.ref (removePar f) fuel) hl rfl hr hb (by omega) hnb (hks n hlb)) fun ts2 k3 _ => unsplit_ok k3
    simp only [if_neg h3]
    exact unsplit_ok hl

theorem retain_ok (f : V → Bool) : ∀ (fuel : Nat) (a b : Tree K V), Valid a → Valid b → a.size + b.size < fuel →
    RecOk (retainPrefixP f fuel) (Tree.ref (retainPar f) fuel) a b
  | 0, _, _, _, _, hs => by omega
  | fuel + 1, a, b, ha, hb, hs => by
    intro ts l r hl hr hne
    have hrec : ∀ x y, Valid x → Valid y → x.size + y.size < a.size + b.size → RecOk (retainPrefixP f fuel) (Tree.ref (retainPar f) fuel) x y :=
      fun x y hx hy hxy => retain_ok f fuel x y hx hy (by omega)
    have hsa : 1 ≤ a.size := by rw [Tree.size_eq]; omega
    have hla := commonPrefix_le_left a.pre b.pre
    have hlb := commonPrefix_le_right a.pre b.pre
    have hkk : ∀ x ∈ a.kids, ∀ y ∈ b.kids, RecOk (retainPrefixP f fuel) (Tree.ref (retainPar f) fuel) x y := fun x hx y hy =>
      hrec x y (ha.kids.valid x hx) (hb.kids.valid y hy) (by have := Tree.kid_size hx; have := Tree.kid_size hy; omega)
    have hks : ∀ n, n ≤ b.pre.length → ∀ x ∈ a.kids, RecOk (retainPrefixP f fuel) (Tree.ref (retainPar f) fuel) x (b.shorten n) := fun n hn x hx =>
      hrec x _ (ha.kids.valid x hx) (hb.shorten n) (by have := Tree.kid_size hx; have := Tree.size_shorten b n hn; omega)
    have hsk : ∀ n, n ≤ a.pre.length → ∀ x ∈ [a.shorten n], ∀ y ∈ b.kids, RecOk (retainPrefixP f fuel) (Tree.ref (retainPar f) fuel) x y := by
      intro n hn x hx y hy
      simp only [List.mem_singleton] at hx
      subst hx
      exact hrec _ y (ha.shorten n) (hb.kids.valid y hy) (by have := Tree.kid_size hy; have := Tree.size_shorten a n hn; omega)
    unfold Tree.ref refCases
    refine .look hl (.look hr ?_)
    simp only
    revert hla hlb
    generalize commonPrefix a.pre b.pre = n
    intro hla hlb
    by_cases h1 : n = a.pre.length ∧ n = b.pre.length
    · rw [if_pos h1, if_pos h1]
      have e : (retainPar f : Tree.Par K V V).stop b.val = hit f b.val := by cases b.val <;> rfl
      rw [e]
      cases hh : hit f b.val with
      | true =>
        simp only [if_true]
        exact unsplit_ok hl
      | false =>
        simp only [Bool.false_eq_true, if_false]
        refine Upd.bind hl (.setVal hl none) fun ts1 k1 k2 => ?_
        refine Upd.bind (a := ()) k1 (mergeKids_ok (g := Tree.ref (retainPar f) fuel) k1 rfl (Ats.allKids (k2 r hne b hr) hne) (kidsOk hb (by omega)) (fun x hx y hy _ => hkk x hx y hy))
          fun ts2 k3 _ => ?_
        exact unsplit_ok k3
    rw [if_neg h1, if_neg h1]
    by_cases h2 : n = b.pre.length
    · have h3 : n ≠ a.pre.length := by omega
      have hna : n < a.pre.length := by omega
      rw [if_pos h2, if_pos h2]
      have e : (retainPar f : Tree.Par K V V).stop b.val = hit f b.val := by cases b.val <;> rfl
      rw [e]
      cases hh : hit f b.val with
      | true =>
        simp only [if_true]
        exact unsplit_ok hl
      | false =>
        simp only [Bool.false_eq_true, if_false]
        refine Upd.bind hl (split_ok hl hna) fun ts1 k1 k2 => ?_
        refine Upd.bind (a := ()) k1 (mergeKids_ok (g := Tree.ref (retainPar f) fuel) k1 rfl (Ats.allKids (k2 r hne b hr) hne) (kidsOk hb (by omega)) (fun x hx y hy _ => hsk n hla x hx y hy))
          fun ts2 k3 _ => ?_
        exact unsplit_ok k3
    simp only [if_neg h2]
    by_cases h3 : n = a.pre.length
    · have hnb : n < b.pre.length := by omega
      simp only [if_pos h3]
      refine Upd.bind hl (.setVal hl none) fun ts1 k1 k2 => ?_
      refine Upd.bind (a := ()) k1 (mergeShortened_ok (g := Tree.ref (retainPar f) fuel) k1 rfl (k2 r hne b hr) hb (by omega) hnb (hks n hlb)) fun ts2 k3 _ => unsplit_ok k3
    simp only [if_neg h3]
    refine Upd.bind (a := ()) hl (nuke_ok hl rfl) fun ts1 k1 _ => unsplit_ok k1
end
end Verif.Shared
