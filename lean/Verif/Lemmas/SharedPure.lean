import Verif.Model.SharedPure
import Verif.Lemmas.SharedOps
import Verif.Lemmas.RadixFind
/-! Reading, and combining into a new tree: as programs on the value machine they compute what `Model/RadixTree.lean` says. -/
namespace Verif.Shared
open Std
variable {K V : Type _} {ts : Vars K V} {l r : Loc} {t u : Tree K V}

/-! ### Making several trees -/

theorem replicate_plus {α : Type _} (a b : Nat) (x : α) : List.replicate (a + b) x = List.replicate a x ++ List.replicate b x :=
  List.replicate_append_replicate.symm

/-- everything is as before -/
def Grows (ts ts1 : Vars K V) : Prop := ∀ q u, ts.at q = some u → ts1.at q = some u
/-- the trees at some places -/
def Sees (ts : Vars K V) (rhs : List Loc) (bs : List (Tree K V)) : Prop := rhs.map ts.at = bs.map some

/-- the part makes a new variable holding `u`, and changes nothing else except leaving dead variables behind -/
def Makes (m : Act K V Nat) (ts : Vars K V) (u : Tree K V) : Prop :=
  ∃ j j', Does m ts (ts.length + j) (ts ++ dead j ++ [some u] ++ dead j')
/-- the part makes new variables holding `cs` -/
def Mks (m : Act K V (List Nat)) (ts : Vars K V) (cs : List (Tree K V)) : Prop :=
  ∃ ys rs, Does m ts rs (ts ++ ys) ∧ ∀ zs : Vars K V, zs.length = ts.length → takeVars (zs ++ ys) rs = some (cs, zs ++ dead ys.length)

theorem Mk.makes {m : Act K V Nat} (h : Mk m ts u) : Makes m ts u := by
  obtain ⟨j, hj⟩ := h
  exact ⟨j, 0, by simpa [dead] using hj⟩

theorem Grows.append (xs : Vars K V) : Grows ts (ts ++ xs) := fun _ _ h => at_append _ h

theorem Sees.ext {ts1 : Vars K V} {rhs : List Loc} {bs : List (Tree K V)} (h : Sees ts rhs bs) (he : Grows ts ts1) : Sees ts1 rhs bs := by
  have hl : rhs.length = bs.length := by simpa using congrArg List.length h
  unfold Sees at h ⊢
  apply List.ext_getElem?
  intro i
  have hi := congrArg (fun l => l[i]?) h
  simp only [List.getElem?_map] at hi ⊢
  cases hr : rhs[i]? with
  | none => rw [hr] at hi; simpa using hi
  | some q =>
    rw [hr] at hi
    cases hb : bs[i]? with
    | none => rw [hb] at hi; simp at hi
    | some b =>
      rw [hb] at hi
      simp only [Option.map_some, Option.some.injEq] at hi ⊢
      exact he q b hi

theorem Sees.cons {x : Loc} {xs : List Loc} {b : Tree K V} {bs : List (Tree K V)} (h : Sees ts (x :: xs) (b :: bs)) :
    ts.at x = some b ∧ Sees ts xs bs := by
  simp only [Sees, List.map_cons, List.cons.injEq] at h; exact h

theorem Sees.allKids [Ord K] (hr : ts.at r = some u) : Sees ts (r.allKids u.kids.length) u.kids :=
  (Ats.allKids (x := r.reg + 1) hr (by omega)).2

theorem Mks.nil : Mks (pure [] : Act K V (List Nat)) ts [] :=
  ⟨[], [], by rw [List.append_nil]; exact Does.pure _ ts, fun zs _ => by simp [takeVars]⟩

/-- the variable `ts.length + j` holds `c`, and then come the others -/
theorem Mks.tail {m : Act K V (List Nat)} {c : Tree K V} {cs : List (Tree K V)} {j j' : Nat}
    (h : Mks m (ts ++ dead j ++ [some c] ++ dead j') cs) :
    ∃ ys rs, Does (do let vs ← m; pure ((ts.length + j) :: vs)) (ts ++ dead j ++ [some c] ++ dead j') rs (ts ++ ys) ∧
      ∀ zs : Vars K V, zs.length = ts.length → takeVars (zs ++ ys) rs = some (c :: cs, zs ++ dead ys.length) := by
  obtain ⟨ys, rs, h1, h2⟩ := h
  refine ⟨dead j ++ [some c] ++ dead j' ++ ys, (ts.length + j) :: rs, ?_, fun zs hz => ?_⟩
  · have e : ts ++ (dead j ++ [some c] ++ dead j' ++ ys) = ts ++ dead j ++ [some c] ++ dead j' ++ ys := by simp
    rw [e]
    exact h1.bind (Does.pure _ _)
  · have e : zs ++ (dead j ++ [some c] ++ dead j' ++ ys) = zs ++ dead j ++ [some c] ++ (dead j' ++ ys) := by simp
    have e1 : (zs ++ dead j ++ [some c] ++ (dead j' ++ ys))[ts.length + j]? = some (some c) := by
      rw [List.getElem?_append_left (by simp [hz]), List.getElem?_append_right (by simp [hz])]; simp [hz]
    have e2 : (zs ++ dead j ++ [some c] ++ (dead j' ++ ys)).set (ts.length + j) none = zs ++ dead j ++ [none] ++ dead j' ++ ys := by
      rw [List.set_append_left _ _ (by simp [hz]), List.set_append_right _ _ (by simp [hz])]; simp [hz]
    rw [e, takeVars, e1]
    simp only [e2]
    rw [h2 (zs ++ dead j ++ [none] ++ dead j') (by simp [hz])]
    simp only [Option.some.injEq, Prod.mk.injEq, true_and, List.append_assoc, List.append_cancel_left_eq]
    have : ([none] : Vars K V) = dead 1 := rfl
    rw [this, dead_append, dead_append, dead_append]
    congr 1; simp; omega

theorem Mks.cons {m : Act K V Nat} {m2 : Act K V (List Nat)} {c : Tree K V} {cs : List (Tree K V)} (hm : Makes m ts c)
    (h : ∀ ts1, Grows ts ts1 → Mks m2 ts1 cs) : Mks (do let v ← m; let vs ← m2; pure (v :: vs)) ts (c :: cs) := by
  obtain ⟨j, j', hj⟩ := hm
  obtain ⟨ys, rs, h1, h2⟩ := Mks.tail (h (ts ++ dead j ++ [some c] ++ dead j') (fun q u hu => at_append _ (at_append _ (at_append _ hu))))
  exact ⟨ys, rs, hj.bind h1, h2⟩

theorem Mks.look {f : Seen K V → Act K V (List Nat)} {q : Loc} {x : Tree K V} {cs : List (Tree K V)} (hq : ts.at q = some x)
    (h : Mks (f ⟨x.pre, x.val, x.kids.length⟩) ts cs) : Mks (look q >>= f) ts cs := by
  obtain ⟨ys, rs, h1, h2⟩ := h
  exact ⟨ys, rs, (does_look hq).bind h1, h2⟩

theorem Makes.look {f : Seen K V → Act K V Nat} {q : Loc} {x w : Tree K V} (hq : ts.at q = some x)
    (h : Makes (f ⟨x.pre, x.val, x.kids.length⟩) ts w) : Makes (look q >>= f) ts w := by
  obtain ⟨j, j', h1⟩ := h
  exact ⟨j, j', (does_look hq).bind h1⟩

section
variable [Ord K]

theorem matAll_ok {fuel : Nat} : ∀ (bs : List (Tree K V)) (rhs : List Loc) {ts : Vars K V}, Sees ts rhs bs →
    (∀ b ∈ bs, Tree.Valid b ∧ b.pre ≠ [] ∧ b.size < fuel) → Mks (matAllP fuel rhs) ts bs
  | [], [], ts, _, _ => .nil
  | [], _ :: _, ts, h, _ => by simp [Sees] at h
  | _ :: _, [], ts, h, _ => by simp [Sees] at h
  | b :: bs, r :: rs, ts, h, hv => by
    obtain ⟨h1, h2⟩ := h.cons
    obtain ⟨v1, v2, v3⟩ := hv b (by simp)
    exact Mks.cons (mat_whole v1 v2 v3 h1).makes fun ts1 he => matAll_ok bs rs (h2.ext he) (fun c hc => hv c (by simp [hc]))

/-- what a recursive call does: it makes the tree `g x y` -/
def RecMk (rec : Loc → Loc → Act K V Nat) (g : Tree K V → Tree K V → Tree K V) (x y : Tree K V) : Prop :=
  ∀ (ts : Vars K V) (l r : Loc), ts.at l = some x → ts.at r = some y → Makes (rec l r) ts (g x y)

theorem merge_ok {takeA takeB : Bool} {fuel : Nat} {rec : Loc → Loc → Act K V Nat} {g : Tree K V → Tree K V → Tree K V} :
    ∀ (s : Nat) (as bs : List (Tree K V)) (ls rs : List Loc) {ts : Vars K V}, as.length + bs.length ≤ s → Sees ts ls as → Sees ts rs bs →
    (∀ b ∈ as, Tree.Valid b ∧ b.pre ≠ [] ∧ b.size < fuel) → (∀ b ∈ bs, Tree.Valid b ∧ b.pre ≠ [] ∧ b.size < fuel) →
    (∀ a ∈ as, ∀ b ∈ bs, Tree.headCmp a b = .eq → RecMk rec g a b) →
    Mks (mergeP takeA takeB fuel rec s ls rs) ts (joinKids takeA takeB g as bs)
  | s, [], bs, ls, rs, ts, hs, ha, hb, hva, hvb, hr => by
    have hl0 : ls = [] := by simpa [Sees] using ha
    subst hl0
    have e : mergeP takeA takeB fuel rec s [] rs = if takeB then matAllP fuel rs else pure [] := by cases s <;> rfl
    rw [e, joinKids, joinList_nil_left]
    cases takeB with
    | true => simpa using matAll_ok bs rs hb hvb
    | false =>
      rw [show bs.filterMap (fun b => if false = true then some b else none) = [] by simp]
      exact Mks.nil
  | s, a :: as, [], ls, rs, ts, hs, ha, hb, hva, hvb, hr => by
    have hr0 : rs = [] := by simpa [Sees] using hb
    subst hr0
    cases ls with
    | nil => simp [Sees] at ha
    | cons l ls =>
      have e : mergeP takeA takeB fuel rec s (l :: ls) [] = if takeA then matAllP fuel (l :: ls) else pure [] := by cases s <;> rfl
      rw [e, joinKids, joinList_nil_right]
      cases takeA with
      | true => simpa using matAll_ok (a :: as) (l :: ls) ha hva
      | false =>
        rw [show (a :: as).filterMap (fun b => if false = true then some b else none) = [] by simp]
        exact Mks.nil
  | 0, _ :: _, _ :: _, _, _, _, hs, _, _, _, _, _ => by simp at hs
  | s + 1, a :: as, b :: bs, [], _, _, _, ha, _, _, _, _ => by simp [Sees] at ha
  | s + 1, a :: as, b :: bs, _ :: _, [], _, _, _, hb, _, _, _ => by simp [Sees] at hb
  | s + 1, a :: as, b :: bs, l :: ls, r :: rs, ts, hs, ha, hb, hva, hvb, hr => by
    obtain ⟨a1, a2⟩ := ha.cons
    obtain ⟨b1, b2⟩ := hb.cons
    obtain ⟨v1, v2, v3⟩ := hva a (by simp)
    obtain ⟨w1, w2, w3⟩ := hvb b (by simp)
    simp only [List.length_cons] at hs
    have hcmp : compare a.pre.head? b.pre.head? = Tree.headCmp a b := rfl
    rw [mergeP, joinKids, joinList_cons]
    refine .look a1 (.look b1 ?_)
    simp only [hcmp]
    cases hc : Tree.headCmp a b with
    | lt =>
      have ih : ∀ ts1, Grows ts ts1 → Mks (mergeP takeA takeB fuel rec s ls (r :: rs)) ts1 (joinKids takeA takeB g as (b :: bs)) := fun ts1 he =>
        merge_ok s as (b :: bs) ls (r :: rs) (by simp only [List.length_cons]; omega) (a2.ext he) (hb.ext he)
          (fun c hc => hva c (by simp [hc])) hvb (fun x hx y hy => hr x (by simp [hx]) y hy)
      cases takeA with
      | true => exact Mks.cons (mat_whole v1 v2 v3 a1).makes ih
      | false => exact ih ts (fun _ _ h => h)
    | gt =>
      have ih : ∀ ts1, Grows ts ts1 → Mks (mergeP takeA takeB fuel rec s (l :: ls) rs) ts1 (joinKids takeA takeB g (a :: as) bs) := fun ts1 he =>
        merge_ok s (a :: as) bs (l :: ls) rs (by simp only [List.length_cons]; omega) (ha.ext he) (b2.ext he) hva
          (fun c hc => hvb c (by simp [hc])) (fun x hx y hy => hr x hx y (by simp [hy]))
      cases takeB with
      | true => exact Mks.cons (mat_whole w1 w2 w3 b1).makes ih
      | false => exact ih ts (fun _ _ h => h)
    | eq =>
      have ih : ∀ ts1, Grows ts ts1 → Mks (mergeP takeA takeB fuel rec s ls rs) ts1 (joinKids takeA takeB g as bs) := fun ts1 he =>
        merge_ok s as bs ls rs (by omega) (a2.ext he) (b2.ext he) (fun c hc => hva c (by simp [hc]))
          (fun c hc => hvb c (by simp [hc])) (fun x hx y hy => hr x (by simp [hx]) y (by simp [hy]))
      obtain ⟨j, j', hj⟩ := hr a (by simp) b (by simp) hc ts l r a1 b1
      have hz : (ts ++ dead j ++ [some (g a b)] ++ dead j')[ts.length + j]? = some (some (g a b)) := by
        rw [List.getElem?_append_left (by simp), List.getElem?_append_right (by simp)]; simp
      have hlook := does_look (at_temp hz)
      simp only [Tree.nonEmpty]
      cases hi : (g a b).isEmpty with
      | true =>
        obtain ⟨ys, rs', h1, h2⟩ := ih (ts ++ dead (j + 1 + j')) (Grows.append _)
        refine ⟨dead (j + 1 + j') ++ ys, rs', ?_, fun zs hzs => ?_⟩
        · refine hj.bind (hlook.bind ?_)
          simp only [seen_isEmpty, hi, if_true]
          refine Does.bind (a := ()) (ts1 := ts ++ dead (j + 1 + j')) (does_exec ?_ (by simp <;> omega)) ?_
          · simp only [Vars.step, hz]
            rw [List.append_assoc, List.append_assoc, List.set_append_right _ _ (by simp), List.set_append_right _ _ (by simp)]
            simp [dead, replicate_plus]
          · rw [← List.append_assoc]; exact h1
        · rw [← List.append_assoc, h2 _ (by simp [hzs])]
          have e : (dead (j + 1 + j') ++ ys).length = j + 1 + j' + ys.length := by simp
          rw [e, if_pos rfl, List.append_assoc, dead_append]
          rfl
      | false =>
        obtain ⟨ys, rs', h1, h2⟩ := Mks.tail (ih (ts ++ dead j ++ [some (g a b)] ++ dead j')
          (fun q u hu => at_append _ (at_append _ (at_append _ hu))))
        refine ⟨ys, rs', ?_, fun zs hz => (h2 zs hz).trans ?_⟩
        · refine hj.bind (hlook.bind ?_)
          simp only [seen_isEmpty, hi, Bool.false_eq_true, if_false]
          exact h1
        · simp [hi]; rfl

omit [Ord K] in
theorem put_last {xs : Vars K V} (zs : Vars K V) (x y : Tree K V) : Vars.put (xs ++ [some x] ++ zs) ⟨xs.length, []⟩ y = xs ++ [some y] ++ zs := by
  have : (xs ++ [some x] ++ zs)[xs.length]? = some (some x) := by simp
  rw [put_temp this]
  simp

omit [Ord K] in
theorem mkNode_ok {p : List K} {v : Option V} {ys : Vars K V} {rs : List Nat} {cs : List (Tree K V)}
    (h : takeVars (ts ++ ys) rs = some (cs, ts ++ dead ys.length)) :
    ∃ j', Does (mkNodeP p v rs) (ts ++ ys) (ts.length + ys.length) (ts ++ dead ys.length ++ [some (Tree.unsplit ⟨p, v, cs⟩)] ++ dead j') := by
  have h1 := does_make (ts := ts ++ ys) (c := .new p v rs) (ts' := ts ++ dead ys.length ++ [some ⟨p, v, cs⟩])
    (by simp only [Vars.step, h]) (by simp <;> omega)
  have hz : (ts ++ dead ys.length ++ [some ⟨p, v, cs⟩])[(ts ++ ys).length]? = some (some ⟨p, v, cs⟩) := by
    rw [List.getElem?_append_right (by simp)]; simp
  obtain ⟨j', h2⟩ := unsplit_ok (l := ⟨(ts ++ ys).length, []⟩) (at_temp hz)
  refine ⟨j', ?_⟩
  have e : Vars.put (ts ++ dead ys.length ++ [some ⟨p, v, cs⟩]) ⟨(ts ++ ys).length, []⟩ (Tree.unsplit ⟨p, v, cs⟩) =
      ts ++ dead ys.length ++ [some (Tree.unsplit ⟨p, v, cs⟩)] := by
    have := put_last (xs := ts ++ dead ys.length) [] (⟨p, v, cs⟩ : Tree K V) (Tree.unsplit ⟨p, v, cs⟩)
    simpa using this
  rw [e] at h2
  have h3 : Does (mkNodeP p v rs) (ts ++ ys) (ts ++ ys).length _ :=
    Does.bind (f := fun r => do unsplitP ⟨r, []⟩; pure r) h1 (Does.bind (f := fun _ => pure (ts ++ ys).length) h2 (Does.pure _ _))
  rw [List.length_append] at h3
  exact h3

omit [Ord K] in
theorem Mks.node {m : Act K V (List Nat)} {cs : List (Tree K V)} {p : List K} {v : Option V} (h : Mks m ts cs) :
    Makes (do let ks ← m; mkNodeP p v ks) ts (Tree.unsplit ⟨p, v, cs⟩) := by
  obtain ⟨ys, rs, h1, h2⟩ := h
  obtain ⟨j', h3⟩ := mkNode_ok (p := p) (v := v) (h2 ts rfl)
  exact ⟨ys.length, j', h1.bind h3⟩

theorem withMat_ok {fuel n : Nat} {k : Loc → Act K V Nat} {w : Tree K V} (hl : ts.at l = some u) (hv : Tree.Valid u) (hs : u.size < fuel)
    (hn : n < u.pre.length) (h : ∀ (ts1 : Vars K V) (b : Loc), Grows ts ts1 → ts1.at b = some (u.shorten n) → Makes (k b) ts1 w) :
    Makes (withMatP fuel l n k) ts w := by
  obtain ⟨j, hj⟩ := matP_ok fuel u hv hs n hn ts l hl
  have hz : (ts ++ dead j ++ [some (u.shorten n)])[ts.length + j]? = some (some (u.shorten n)) := by
    rw [List.getElem?_append_right (by simp)]; simp
  obtain ⟨i, i', hi⟩ := h _ ⟨ts.length + j, []⟩ (fun q u hu => at_append _ (at_append _ hu)) (at_temp hz)
  refine ⟨j + 1 + i, i', hj.bind (hi.bind ?_)⟩
  have hz2 : (ts ++ dead j ++ [some (u.shorten n)] ++ dead i ++ [some w] ++ dead i')[ts.length + j]? = some (some (u.shorten n)) := by
    rw [List.getElem?_append_left (by simp <;> omega), List.getElem?_append_left (by simp <;> omega), List.getElem?_append_left (by simp)]
    exact hz
  have hset : (ts ++ dead j ++ [some (u.shorten n)] ++ dead i ++ [some w] ++ dead i').set (ts.length + j) none =
      ts ++ dead (j + 1 + i) ++ [some w] ++ dead i' := by
    rw [List.set_append_left _ _ (by simp <;> omega), List.set_append_left _ _ (by simp <;> omega), List.set_append_left _ _ (by simp),
      List.set_append_right _ _ (by simp)]
    simp [dead, replicate_plus]
  have h3 := (does_exec (ts := ts ++ dead j ++ [some (u.shorten n)] ++ dead i ++ [some w] ++ dead i') (c := .drop (ts.length + j))
    (ts' := ts ++ dead (j + 1 + i) ++ [some w] ++ dead i') (by simp only [Vars.step, hz2, hset]) (by simp <;> omega)).bind
    (f := fun _ => pure ((ts ++ dead j ++ [some (u.shorten n)]).length + i)) (Does.pure _ _)
  have e : (ts ++ dead j ++ [some (u.shorten n)]).length + i = ts.length + (j + 1 + i) := by simp; omega
  rw [e] at h3 ⊢
  exact h3
end

/-! ### Combinations into a new tree -/
section
variable [Ord K] [TransOrd K] [LawfulEqOrd K] [DecidableEq K]
open Verif.Tree (Valid commonPrefix commonPrefix_le_left commonPrefix_le_right refCases kidsRef outerPar innerPar leftPar leftPureVal)

theorem mergeAll_ok {takeA takeB : Bool} {fuel : Nat} {rec : Loc → Loc → Act K V Nat} {g : Tree K V → Tree K V → Tree K V}
    {as bs : List (Tree K V)} {ls rs : List Loc} (ha : Sees ts ls as) (hb : Sees ts rs bs)
    (hva : ∀ b ∈ as, Valid b ∧ b.pre ≠ [] ∧ b.size < fuel) (hvb : ∀ b ∈ bs, Valid b ∧ b.pre ≠ [] ∧ b.size < fuel)
    (hr : ∀ a ∈ as, ∀ b ∈ bs, RecMk rec g a b) :
    Mks (mergeAllP takeA takeB fuel rec ls rs) ts (joinKids takeA takeB g as bs) := by
  have h1 : ls.length = as.length := by simpa using congrArg List.length ha
  have h2 : rs.length = bs.length := by simpa using congrArg List.length hb
  exact merge_ok _ as bs ls rs (by omega) ha hb hva hvb (fun a ha b hb _ => hr a ha b hb)

theorem shortOk {fuel n : Nat} {b : Tree K V} (hb : Valid b) (hs : b.size < fuel) (hn : n < b.pre.length) :
    ∀ y ∈ [b.shorten n], Valid y ∧ y.pre ≠ [] ∧ y.size < fuel := by
  intro y hy
  simp only [List.mem_singleton] at hy
  subst hy
  have := Tree.size_shorten b n (by omega)
  exact ⟨hb.shorten n, Tree.shorten_ne hn, by omega⟩

/-- the case of identical prefixes -/
theorem both_ok {takeA takeB : Bool} {fuel : Nat} {rec : Loc → Loc → Act K V Nat} {g : Tree K V → Tree K V → Tree K V} {a b : Tree K V} {p v}
    (hl : ts.at l = some a) (hr : ts.at r = some b) (ha : Valid a) (hb : Valid b) (hs : a.size + b.size ≤ fuel)
    (hrec : ∀ x y, Valid x → Valid y → x.size + y.size < a.size + b.size → RecMk rec g x y) :
    Makes (do let ks ← mergeAllP takeA takeB fuel rec (l.allKids a.kids.length) (r.allKids b.kids.length); mkNodeP p v ks) ts
      (Tree.unsplit ⟨p, v, joinKids takeA takeB g a.kids b.kids⟩) := by
  have hsa : 1 ≤ a.size := by rw [Tree.size_eq]; omega
  have hsb : 1 ≤ b.size := by rw [Tree.size_eq]; omega
  refine Mks.node (mergeAll_ok (.allKids hl) (.allKids hr) (kidsOk ha (by omega)) (kidsOk hb (by omega)) ?_)
  intro x hx y hy
  exact hrec x y (ha.kids.valid x hx) (hb.kids.valid y hy) (by have := Tree.kid_size hx; have := Tree.kid_size hy; omega)

theorem right_ok {takeA takeB : Bool} {fuel : Nat} {rec : Loc → Loc → Act K V Nat} {g : Tree K V → Tree K V → Tree K V} {a b : Tree K V} {p v}
    {n : Nat} (hl : ts.at l = some a) (hr : ts.at r = some b) (ha : Valid a) (hb : Valid b) (hs : a.size + b.size ≤ fuel) (hn : n < b.pre.length)
    (hrec : ∀ x y, Valid x → Valid y → x.size + y.size < a.size + b.size → RecMk rec g x y) :
    Makes (withMatP fuel r n fun b => do let ks ← mergeAllP takeA takeB fuel rec (l.allKids a.kids.length) [b]; mkNodeP p v ks) ts
      (Tree.unsplit ⟨p, v, joinKids takeA takeB g a.kids [b.shorten n]⟩) := by
  have hsa : 1 ≤ a.size := by rw [Tree.size_eq]; omega
  have hsb : 1 ≤ b.size := by rw [Tree.size_eq]; omega
  refine withMat_ok hr hb (by omega) hn fun ts1 q he hq => ?_
  refine Mks.node (mergeAll_ok ((Sees.allKids hl).ext he) (by simpa [Sees] using hq) (kidsOk ha (by omega)) (shortOk hb (by omega) hn) ?_)
  intro x hx y hy
  simp only [List.mem_singleton] at hy
  subst hy
  exact hrec x _ (ha.kids.valid x hx) (hb.shorten n)
    (by have := Tree.kid_size hx; have := Tree.size_shorten b n (by omega); omega)

theorem leftside_ok {takeA takeB : Bool} {fuel : Nat} {rec : Loc → Loc → Act K V Nat} {g : Tree K V → Tree K V → Tree K V} {a b : Tree K V} {p v}
    {n : Nat} (hl : ts.at l = some a) (hr : ts.at r = some b) (ha : Valid a) (hb : Valid b) (hs : a.size + b.size ≤ fuel) (hn : n < a.pre.length)
    (hrec : ∀ x y, Valid x → Valid y → x.size + y.size < a.size + b.size → RecMk rec g x y) :
    Makes (withMatP fuel l n fun a => do let ks ← mergeAllP takeA takeB fuel rec [a] (r.allKids b.kids.length); mkNodeP p v ks) ts
      (Tree.unsplit ⟨p, v, joinKids takeA takeB g [a.shorten n] b.kids⟩) := by
  have hsa : 1 ≤ a.size := by rw [Tree.size_eq]; omega
  have hsb : 1 ≤ b.size := by rw [Tree.size_eq]; omega
  refine withMat_ok hl ha (by omega) hn fun ts1 q he hq => ?_
  refine Mks.node (mergeAll_ok (by simpa [Sees] using hq) ((Sees.allKids hr).ext he) (shortOk ha (by omega) hn) (kidsOk hb (by omega)) ?_)
  intro x hx y hy
  simp only [List.mem_singleton] at hx
  subst hx
  exact hrec _ y (ha.shorten n) (hb.kids.valid y hy)
    (by have := Tree.kid_size hy; have := Tree.size_shorten a n (by omega); omega)

theorem outerP_ok (f : V → V → Option V) : ∀ (fuel : Nat) (a b : Tree K V), Valid a → Valid b → a.size + b.size < fuel →
    RecMk (outerP f fuel) (Tree.ref (outerPar f) fuel) a b
  | 0, _, _, _, _, hs => by omega
  | fuel + 1, a, b, ha, hb, hs => by
    intro ts l r hl hr
    have hrec : ∀ x y, Valid x → Valid y → x.size + y.size < a.size + b.size → RecMk (outerP f fuel) (Tree.ref (outerPar f) fuel) x y :=
      fun x y hx hy hxy => outerP_ok f fuel x y hx hy (by omega)
    have hsa : 1 ≤ a.size := by rw [Tree.size_eq]; omega
    have hsb : 1 ≤ b.size := by rw [Tree.size_eq]; omega
    have hla := commonPrefix_le_left a.pre b.pre
    have hlb := commonPrefix_le_right a.pre b.pre
    have hdf := Tree.commonPrefix_differ a.pre b.pre
    unfold Tree.ref refCases
    refine .look hl (.look hr ?_)
    simp only
    revert hla hlb hdf
    generalize commonPrefix a.pre b.pre = n
    intro hla hlb hdf
    by_cases h1 : n = a.pre.length ∧ n = b.pre.length
    · rw [if_pos h1, if_pos h1]
      have := both_ok (takeA := true) (takeB := true) (fuel := fuel) (p := a.pre.take n) (v := Tree.outerPureVal f a.val b.val)
        hl hr ha hb (by omega) hrec
      rw [h1.1, List.take_length] at this ⊢
      exact this
    rw [if_neg h1, if_neg h1]
    by_cases h3 : n = a.pre.length
    · rw [if_pos h3, if_neg (by omega), if_pos h3]
      have := right_ok (takeA := true) (takeB := true) (fuel := fuel) (p := a.pre.take n) (v := a.val) (n := n)
        hl hr ha hb (by omega) (by omega) hrec
      rw [h3, List.take_length] at this ⊢
      exact this
    rw [if_neg h3]
    by_cases h2 : n = b.pre.length
    · rw [if_pos h2, if_pos h2]
      exact leftside_ok (takeA := true) (takeB := true) (fuel := fuel) (p := a.pre.take n) (v := b.val) (n := n)
        hl hr ha hb (by omega) (by omega) hrec
    · rw [if_neg h2, if_neg h2, if_neg h3]
      have hna : n < a.pre.length := by omega
      have hnb : n < b.pre.length := by omega
      obtain ⟨i, hi⟩ := matP_ok fuel a ha (by omega) n hna ts l hl
      obtain ⟨j, hj⟩ := matP_ok fuel b hb (by omega) n hnb (ts ++ dead i ++ [some (a.shorten n)]) r (at_append _ (at_append _ hr))
      have hja : (ts ++ dead i ++ [some (a.shorten n)]).length + j = ts.length + (i + 1 + j) := by simp; omega
      have hcmp : compare (a.pre.drop n).head? (b.pre.drop n).head? = Tree.headCmp (a.shorten n) (b.shorten n) := rfl
      have hk : kidsRef (outerPar f) (Tree.ref (outerPar f) fuel) [a.shorten n] [b.shorten n] =
          if Tree.headCmp (a.shorten n) (b.shorten n) = .gt then [b.shorten n, a.shorten n] else [a.shorten n, b.shorten n] := by
        have hg := hdf hna hnb
        simp only [kidsRef, outerPar, joinList_cons]
        cases hc : Tree.headCmp (a.shorten n) (b.shorten n) with
        | lt => simp [joinList_nil_left]
        | gt => simp [joinList_nil_right]
        | eq => rw [Tree.headCmp_eq] at hc; exact absurd (cmp_eq_iff.1 hc) hg
      have hys : ts ++ dead i ++ [some (a.shorten n)] ++ dead j ++ [some (b.shorten n)] =
          ts ++ (dead i ++ [some (a.shorten n)] ++ dead j ++ [some (b.shorten n)]) := by simp
      have hlen : (dead i ++ [some (a.shorten n)] ++ dead j ++ [some (b.shorten n)] : Vars K V).length = i + 1 + j + 1 := by simp; omega
      have ga : (ts ++ (dead i ++ [some (a.shorten n)] ++ dead j ++ [some (b.shorten n)]))[ts.length + i]? = some (some (a.shorten n)) := by
        rw [← hys, List.getElem?_append_left (by simp <;> omega), List.getElem?_append_left (by simp), List.getElem?_append_right (by simp)]; simp
      have gb : (ts ++ (dead i ++ [some (a.shorten n)] ++ dead j ++ [some (b.shorten n)]))[ts.length + (i + 1 + j)]? = some (some (b.shorten n)) := by
        rw [← hys, List.getElem?_append_right (by simp <;> omega)]
        have : ts.length + (i + 1 + j) - (ts ++ dead i ++ [some (a.shorten n)] ++ dead j).length = 0 := by simp; omega
        rw [this]; rfl
      have sa : (ts ++ (dead i ++ [some (a.shorten n)] ++ dead j ++ [some (b.shorten n)])).set (ts.length + i) none =
          ts ++ dead (i + 1 + j) ++ [some (b.shorten n)] := by
        rw [← hys, List.set_append_left _ _ (by simp <;> omega), List.set_append_left _ _ (by simp), List.set_append_right _ _ (by simp)]
        simp [dead, replicate_plus]
      have sb : (ts ++ (dead i ++ [some (a.shorten n)] ++ dead j ++ [some (b.shorten n)])).set (ts.length + (i + 1 + j)) none =
          ts ++ dead i ++ [some (a.shorten n)] ++ dead (j + 1) := by
        rw [← hys, List.set_append_right _ _ (by simp <;> omega)]
        have : ts.length + (i + 1 + j) - (ts ++ dead i ++ [some (a.shorten n)] ++ dead j).length = 0 := by simp; omega
        rw [this]
        simp [dead, replicate_plus]
      have ga' : (ts ++ dead i ++ [some (a.shorten n)] ++ dead (j + 1))[ts.length + i]? = some (some (a.shorten n)) := by
        rw [List.getElem?_append_left (by simp), List.getElem?_append_right (by simp)]; simp
      have gb' : (ts ++ dead (i + 1 + j) ++ [some (b.shorten n)])[ts.length + (i + 1 + j)]? = some (some (b.shorten n)) := by
        rw [List.getElem?_append_right (by simp)]; simp
      have fa : (ts ++ dead i ++ [some (a.shorten n)] ++ dead (j + 1)).set (ts.length + i) none = ts ++ dead (i + 1 + j + 1) := by
        rw [List.set_append_left _ _ (by simp), List.set_append_right _ _ (by simp)]
        simp [dead, replicate_plus]
      have fb : (ts ++ dead (i + 1 + j) ++ [some (b.shorten n)]).set (ts.length + (i + 1 + j)) none = ts ++ dead (i + 1 + j + 1) := by
        rw [List.set_append_right _ _ (by simp)]
        have : ts.length + (i + 1 + j) - (ts ++ dead (i + 1 + j)).length = 0 := by simp
        rw [this]
        simp [dead, replicate_plus]
      rw [hk]
      simp only [hcmp]
      rw [hja, hys] at hj
      by_cases hg : Tree.headCmp (a.shorten n) (b.shorten n) = .gt
      · rw [if_pos hg]
        have ht : takeVars (ts ++ (dead i ++ [some (a.shorten n)] ++ dead j ++ [some (b.shorten n)])) [ts.length + (i + 1 + j), ts.length + i] =
            some ([b.shorten n, a.shorten n], ts ++ dead (dead i ++ [some (a.shorten n)] ++ dead j ++ [some (b.shorten n)] : Vars K V).length) := by
          rw [hlen, takeVars, gb]; simp only [sb]; rw [takeVars, ga']; simp only [fa, takeVars]
        obtain ⟨j', h3⟩ := mkNode_ok (p := a.pre.take n) (v := none) ht
        refine ⟨(dead i ++ [some (a.shorten n)] ++ dead j ++ [some (b.shorten n)] : Vars K V).length, j', hi.bind (hj.bind ?_)⟩
        rw [if_pos hg]
        exact h3
      · rw [if_neg hg]
        have ht : takeVars (ts ++ (dead i ++ [some (a.shorten n)] ++ dead j ++ [some (b.shorten n)])) [ts.length + i, ts.length + (i + 1 + j)] =
            some ([a.shorten n, b.shorten n], ts ++ dead (dead i ++ [some (a.shorten n)] ++ dead j ++ [some (b.shorten n)] : Vars K V).length) := by
          rw [hlen, takeVars, ga]; simp only [sa]; rw [takeVars, gb']; simp only [fb, takeVars]
        obtain ⟨j', h3⟩ := mkNode_ok (p := a.pre.take n) (v := none) ht
        refine ⟨(dead i ++ [some (a.shorten n)] ++ dead j ++ [some (b.shorten n)] : Vars K V).length, j', hi.bind (hj.bind ?_)⟩
        rw [if_neg hg]
        exact h3

theorem innerP_ok (f : V → V → Option V) : ∀ (fuel : Nat) (a b : Tree K V), Valid a → Valid b → a.size + b.size < fuel →
    RecMk (innerP f fuel) (Tree.ref (innerPar f) fuel) a b
  | 0, _, _, _, _, hs => by omega
  | fuel + 1, a, b, ha, hb, hs => by
    intro ts l r hl hr
    have hrec : ∀ x y, Valid x → Valid y → x.size + y.size < a.size + b.size → RecMk (innerP f fuel) (Tree.ref (innerPar f) fuel) x y :=
      fun x y hx hy hxy => innerP_ok f fuel x y hx hy (by omega)
    have hla := commonPrefix_le_left a.pre b.pre
    have hlb := commonPrefix_le_right a.pre b.pre
    unfold Tree.ref refCases
    refine .look hl (.look hr ?_)
    simp only
    revert hla hlb
    generalize commonPrefix a.pre b.pre = n
    intro hla hlb
    by_cases h1 : n = a.pre.length ∧ n = b.pre.length
    · rw [if_pos h1, if_pos h1]
      have := both_ok (takeA := false) (takeB := false) (fuel := fuel) (p := a.pre.take n) (v := Tree.innerPureVal f a.val b.val)
        hl hr ha hb (by omega) hrec
      rw [h1.1, List.take_length] at this ⊢
      exact this
    rw [if_neg h1, if_neg h1]
    by_cases h3 : n = a.pre.length
    · rw [if_pos h3, if_neg (by omega), if_pos h3]
      have := right_ok (takeA := false) (takeB := false) (fuel := fuel) (p := a.pre.take n) (v := none) (n := n)
        hl hr ha hb (by omega) (by omega) hrec
      rw [h3, List.take_length] at this ⊢
      exact this
    rw [if_neg h3]
    by_cases h2 : n = b.pre.length
    · rw [if_pos h2, if_pos h2]
      exact leftside_ok (takeA := false) (takeB := false) (fuel := fuel) (p := a.pre.take n) (v := none) (n := n)
        hl hr ha hb (by omega) (by omega) hrec
    · rw [if_neg h2, if_neg h2, if_neg h3]
      have := Mks.node (ts := ts) (p := a.pre.take n) (v := none) Mks.nil
      have e : Tree.unsplit (⟨a.pre.take n, none, []⟩ : Tree K V) = Tree.unsplit a.clear := by
        simp [Tree.clear, Tree.unsplit, Tree.dropEmptyKids, Tree.mergeOnlyChild, Tree.clearEmptyPrefix, Tree.isEmpty]
      rw [e] at this
      exact this

theorem leftP_ok (f : V → Option V → Option V) : ∀ (fuel : Nat) (a b : Tree K V), Valid a → Valid b → a.size + b.size < fuel →
    RecMk (leftP f fuel) (Tree.ref (leftPar (leftPureVal f)) fuel) a b
  | 0, _, _, _, _, hs => by omega
  | fuel + 1, a, b, ha, hb, hs => by
    intro ts l r hl hr
    have hrec : ∀ x y, Valid x → Valid y → x.size + y.size < a.size + b.size →
        RecMk (leftP f fuel) (Tree.ref (leftPar (leftPureVal f)) fuel) x y :=
      fun x y hx hy hxy => leftP_ok f fuel x y hx hy (by omega)
    have hsb : 1 ≤ b.size := by rw [Tree.size_eq]; omega
    have hla := commonPrefix_le_left a.pre b.pre
    have hlb := commonPrefix_le_right a.pre b.pre
    unfold Tree.ref refCases
    refine .look hl (.look hr ?_)
    simp only
    revert hla hlb
    generalize commonPrefix a.pre b.pre = n
    intro hla hlb
    by_cases h1 : n = a.pre.length ∧ n = b.pre.length
    · rw [if_pos h1, if_pos h1]
      have := both_ok (takeA := true) (takeB := false) (fuel := fuel) (p := a.pre.take n) (v := Tree.leftPureVal f a.val b.val)
        hl hr ha hb (by omega) hrec
      rw [h1.1, List.take_length] at this ⊢
      exact this
    rw [if_neg h1, if_neg h1]
    by_cases h3 : n = a.pre.length
    · rw [if_pos h3, if_neg (by omega), if_pos h3]
      have := right_ok (takeA := true) (takeB := false) (fuel := fuel) (p := a.pre.take n) (v := a.val) (n := n)
        hl hr ha hb (by omega) (by omega) hrec
      rw [h3, List.take_length] at this ⊢
      exact this
    rw [if_neg h3]
    by_cases h2 : n = b.pre.length
    · rw [if_pos h2, if_pos h2]
      exact leftside_ok (takeA := true) (takeB := false) (fuel := fuel) (p := a.pre.take n) (v := none) (n := n)
        hl hr ha hb (by omega) (by omega) hrec
    · rw [if_neg h2, if_neg h2, if_neg h3]
      have := Mks.node (ts := ts) (p := a.pre) (v := a.val) (matAll_ok (fuel := fuel) a.kids _ (.allKids hl) (kidsOk ha (by omega)))
      exact this
end
end Verif.Shared
