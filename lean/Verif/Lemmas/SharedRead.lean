import Verif.Lemmas.SharedPure
import Verif.Lemmas.RadixIter
/-! Looking at a tree on the shared heap: `find`, `get`, iteration, and `filter_prefix`. -/
namespace Verif.Shared
open Std
open Verif.Tree (Valid FindResult findGo commonPrefix)
variable {K V : Type _} {ts : Vars K V} {l r : Loc} {t u : Tree K V}

/-- The part only looks: it leaves the variables alone and its result is `a`. On the heap, vectors may have been loaded. -/
structure Looks {α : Type _} (m : Act K V α) (ts : Vars K V) (a : α) : Prop where
  does : Does m ts a ts
  heap : ∀ s F, Ok s F ts → ∃ s' obs, Ok s' F ts ∧
    ∀ k, s.run (m ts.length k) = ((s'.run (k ts.length a)).1, obs ++ (s'.run (k ts.length a)).2)

theorem Looks.pure {α : Type _} (a : α) : Looks (pure a : Act K V α) ts a :=
  ⟨Does.pure a ts, fun s _ ho => ⟨s, [], ho, fun _ => rfl⟩⟩

theorem Looks.bind {α β : Type _} {m : Act K V α} {f : α → Act K V β} {a : α} {b : β} (h : Looks m ts a) (h2 : Looks (f a) ts b) :
    Looks (m >>= f) ts b := by
  refine ⟨h.does.bind h2.does, fun s F ho => ?_⟩
  obtain ⟨s1, o1, ho1, e1⟩ := h.heap s F ho
  obtain ⟨s2, o2, ho2, e2⟩ := h2.heap s1 F ho1
  refine ⟨s2, o1 ++ o2, ho2, fun k => ?_⟩
  have e3 := e1 (fun n x => f x n k)
  rw [e2 k, ← List.append_assoc] at e3
  exact e3

theorem Looks.look (h : ts.at l = some t) : Looks (Shared.look l) ts ⟨t.pre, t.val, t.kids.length⟩ := by
  refine ⟨does_look h, fun s F ho => ?_⟩
  obtain ⟨h1, h2, -⟩ := step_ok ho (.look l)
  have e : ts.step (.look l) = (ts, .seen t.pre t.val t.kids.length) := by simp only [Vars.step, h]
  rw [e] at h1 h2
  exact ⟨(s.step (.look l)).1, [.seen t.pre t.val t.kids.length], h1, fun k => by simp only [Shared.look, St.run, h2, List.singleton_append]⟩

theorem Looks.andThen {β : Type _} {f : Seen K V → Act K V β} {b : β} (h : ts.at l = some t)
    (h2 : Looks (f ⟨t.pre, t.val, t.kids.length⟩) ts b) : Looks (Shared.look l >>= f) ts b := (Looks.look h).bind h2

/-- what one sees of a tree -/
abbrev seen (t : Tree K V) : Seen K V := ⟨t.pre, t.val, t.kids.length⟩

theorem seeKids_ok (h : ts.at l = some t) : ∀ (cs ds : List (Tree K V)), t.kids = ds ++ cs →
    Looks (seeKidsP l cs.length ds.length) ts (cs.map seen)
  | [], ds, e => .pure _
  | c :: cs, ds, e => by
    have hc : ts.at (l.kid ds.length) = some c := at_kid h (by rw [e]; simp)
    have ih := seeKids_ok h cs (ds ++ [c]) (by rw [e]; simp)
    rw [List.length_append] at ih
    exact .andThen hc (ih.bind (.pure _))

theorem seeAll_ok (h : ts.at l = some t) : Looks (seeKidsP l t.kids.length 0) ts (t.kids.map seen) := seeKids_ok h t.kids [] rfl

/-! ### Binary search -/

theorem bsLoop_map {α β : Type _} (g : α → β) (f : β → Ordering) (xs : List α) : ∀ (n base size : Nat), size ≤ n →
    bsLoop f (xs.map g) base size = bsLoop (fun x => f (g x)) xs base size
  | 0, base, size, h => by
    rw [bsLoop, dif_neg (by omega), bsLoop, dif_neg (by omega)]
  | n + 1, base, size, h => by
    by_cases hs : size > 1
    · rw [bsLoop, dif_pos hs, bsLoop.eq_1 (fun x => f (g x)), dif_pos hs]
      simp only
      rw [bsLoop_map g f xs n _ _ (by omega)]
      congr 1
      rw [List.getElem?_map]
      cases xs[base + size / 2]? <;> rfl
    · rw [bsLoop, dif_neg hs, bsLoop, dif_neg hs]

theorem binarySearchBy_map {α β : Type _} (g : α → β) (f : β → Ordering) (xs : List α) :
    binarySearchBy f (xs.map g) = binarySearchBy (fun x => f (g x)) xs := by
  simp only [binarySearchBy, List.length_map, bsLoop_map g f xs _ _ _ (Nat.le_refl _), List.getElem?_map]
  split
  · rfl
  · cases xs[bsLoop (fun x => f (g x)) xs 0 xs.length]? <;> rfl

/-! ### find -/
section
variable [Ord K] [DecidableEq K]

/-- the places stand for the nodes -/
inductive Locates (ts : Vars K V) : FindResult K V → Found K V → Prop
  | found {q u} : ts.at q = some u → Locates ts (.found u) (.found q (seen u))
  | pref {q u rt} : ts.at q = some u → Locates ts (.prefix u rt) (.prefix q (seen u) rt)
  | notFound {u rp rt} : Locates ts (.notFound u rp rt) .notFound

theorem findP_ok : ∀ (fuel : Nat) (l : Loc) (t : Tree K V) (p : List K) {r}, ts.at l = some t → findGo fuel t p = .ret r →
    ∃ f, Locates ts r f ∧ ∀ n, Looks (findP (fuel + n) l p) ts f
  | 0, _, _, _, _, _, h => by cases h
  | fuel + 1, l, t, p, r, hl, h => by
    unfold findGo at h
    suffices ∃ f, Locates ts r f ∧ ∀ n, Looks (findP (fuel + n + 1) l p) ts f by
      obtain ⟨f, h1, h2⟩ := this
      exact ⟨f, h1, fun n => by rw [show fuel + 1 + n = fuel + n + 1 by omega]; exact h2 n⟩
    unfold findP
    by_cases h1 : p.length - commonPrefix t.pre p = 0 ∧ t.pre.length - commonPrefix t.pre p = 0
    · rw [if_pos h1] at h
      cases h
      refine ⟨_, .found hl, fun n => .andThen hl ?_⟩
      rw [if_pos h1]; exact .pure _
    rw [if_neg h1] at h
    by_cases h2 : p.length - commonPrefix t.pre p = 0
    · rw [if_pos h2] at h
      cases h
      refine ⟨_, .pref hl, fun n => .andThen hl ?_⟩
      rw [if_neg h1, if_pos h2]; exact .pure _
    rw [if_neg h2] at h
    by_cases h3 : t.pre.length - commonPrefix t.pre p = 0
    · rw [if_pos h3] at h
      cases hp : p[commonPrefix t.pre p]? with
      | none => rw [hp] at h; cases h
      | some c =>
        rw [hp] at h
        simp only at h
        cases hh : Tree.headed t.kids with
        | false => rw [hh] at h; cases h
        | true =>
          rw [hh, if_pos rfl] at h
          have e1 : (t.kids.map seen).all (fun e => !e.pre.isEmpty) = true := by
            rw [List.all_map]; exact hh
          have e2 := binarySearchBy_map seen (fun e : Seen K V => compare e.pre.head? (some c)) t.kids
          simp only at e2
          cases hb : binarySearchBy (fun e : Tree K V => compare e.pre.head? (some c)) t.kids with
          | notFound i =>
            rw [hb] at h e2
            cases h
            refine ⟨_, .notFound, fun n => .andThen hl ?_⟩
            rw [if_neg h1, if_neg h2, if_pos h3]
            refine (seeAll_ok hl).bind ?_
            simp only [hp, e1, if_true, e2]
            exact .pure _
          | found i =>
            rw [hb] at h e2
            simp only at h
            cases hk : t.kids[i]? with
            | none => rw [hk] at h; cases h
            | some c =>
              rw [hk] at h
              obtain ⟨f, hq, hf⟩ := findP_ok fuel (l.kid i) c _ (at_kid hl hk) h
              refine ⟨f, hq, fun n => .andThen hl ?_⟩
              rw [if_neg h1, if_neg h2, if_pos h3]
              refine (seeAll_ok hl).bind ?_
              simp only [hp, e1, if_true, e2]
              exact hf n
    · rw [if_neg h3] at h
      cases h
      refine ⟨_, .notFound, fun n => .andThen hl ?_⟩
      rw [if_neg h1, if_neg h2, if_neg h3]; exact .pure _

theorem find_run {p : List K} {r} (hl : ts.at l = some t) (h : t.find p = .ret r) :
    ∃ f, Locates ts r f ∧ ∀ fuel, t.size < fuel → Looks (findP fuel l p) ts f := by
  obtain ⟨f, h1, h2⟩ := findP_ok _ l t p hl h
  refine ⟨f, h1, fun fuel hs => ?_⟩
  have := h2 (fuel - (t.size + 1))
  rw [show t.size + 1 + (fuel - (t.size + 1)) = fuel by omega] at this
  exact this

theorem get_run {fuel : Nat} {p : List K} {o} (hl : ts.at l = some t) (hs : t.size < fuel) (h : t.get p = .ret o) : Looks (getP fuel l p) ts o := by
  unfold Tree.get at h
  cases hf : t.find p with
  | panic => rw [hf] at h; cases h
  | ret r =>
    obtain ⟨f, h2, h1⟩ := find_run hl hf
    have h1 := h1 fuel hs
    refine h1.bind ?_
    rw [hf] at h
    cases h2 <;> (cases h; exact .pure _)

theorem containsKey_run {fuel : Nat} {p : List K} {o} (hl : ts.at l = some t) (hs : t.size < fuel) (h : t.containsKey p = .ret o) :
    Looks (containsKeyP fuel l p) ts o := by
  unfold Tree.containsKey at h
  cases hf : t.find p with
  | panic => rw [hf] at h; cases h
  | ret r =>
    obtain ⟨f, h2, h1⟩ := find_run hl hf
    have h1 := h1 fuel hs
    refine h1.bind ?_
    rw [hf] at h
    cases h2 <;> (cases h; exact .pure _)
end

/-! ### Iteration -/

/-- the stack of places stands for the stack of nodes -/
def Stacks (ts : Vars K V) (qs : List (Loc × Nat)) (ns : List (Tree K V × Nat)) : Prop :=
  qs.map (fun q => (ts.at q.1, q.2)) = ns.map (fun n => (some n.1, n.2))

theorem Stacks.cons_inv {qs : List (Loc × Nat)} {ns : List (Tree K V × Nat)} {i : Nat} (h : Stacks ts qs ((t, i) :: ns)) :
    ∃ q qs', qs = (q, i) :: qs' ∧ ts.at q = some t ∧ Stacks ts qs' ns := by
  cases qs with
  | nil => simp [Stacks] at h
  | cons q qs' =>
    obtain ⟨q, j⟩ := q
    simp only [Stacks, List.map_cons, List.cons.injEq, Prod.mk.injEq] at h
    obtain ⟨⟨h1, rfl⟩, h2⟩ := h
    exact ⟨q, qs', rfl, h1, h2⟩

theorem Stacks.cons {qs : List (Loc × Nat)} {ns : List (Tree K V × Nat)} {q : Loc} (i : Nat) (h1 : ts.at q = some t) (h : Stacks ts qs ns) :
    Stacks ts ((q, i) :: qs) ((t, i) :: ns) := by
  unfold Stacks at h ⊢
  rw [List.map_cons, List.map_cons, h, h1]

theorem Stacks.nil_inv {qs : List (Loc × Nat)} (h : Stacks ts qs []) : qs = [] := by simpa [Stacks] using h

theorem iterP_ok {s : Tree.Iter K V} {ys : List (List K × V)} (h : Tree.Yields Tree.Iter.turn s ys) : ∃ N, ∀ (ts : Vars K V) (qs : List (Loc × Nat)),
    Stacks ts qs s.stack → ∀ fuel, N ≤ fuel → Looks (iterP fuel s.path qs) ts ys := by
  induction h with
  | @done s hd =>
    refine ⟨1, fun ts qs hq fuel hf => ?_⟩
    obtain ⟨path, st⟩ := s
    cases st with
    | nil =>
      rw [hq.nil_inv]
      obtain ⟨n, rfl⟩ : ∃ n, fuel = n + 1 := ⟨fuel - 1, by omega⟩
      exact .pure _
    | cons x st =>
      obtain ⟨t, _ | pos⟩ := x
      · simp only [Tree.Iter.turn] at hd; split at hd <;> cases hd
      · simp only [Tree.Iter.turn] at hd; split at hd <;> cases hd
  | @again s s' ys hd _ ih =>
    obtain ⟨N, hN⟩ := ih
    refine ⟨N + 1, fun ts qs hq fuel hf => ?_⟩
    obtain ⟨path, st⟩ := s
    cases st with
    | nil => cases hd
    | cons x st =>
      obtain ⟨t, _ | pos⟩ := x
      · obtain ⟨q, qs, rfl, h1, h2⟩ := hq.cons_inv
        simp only [Tree.Iter.turn] at hd
        cases hv : t.val with
        | some v => rw [hv] at hd; cases hd
        | none =>
          rw [hv] at hd; cases hd
          have hN := hN ts _ (h2.cons 1 h1)
          obtain ⟨n, rfl⟩ : ∃ n, fuel = n + 1 := ⟨fuel - 1, by omega⟩
          refine .andThen h1 ?_
          simp only [hv]
          exact hN n (by omega)
      · obtain ⟨q, qs, rfl, h1, h2⟩ := hq.cons_inv
        simp only [Tree.Iter.turn] at hd
        cases hk : t.kids[pos]? with
        | some c =>
          rw [hk] at hd; cases hd
          have hc := at_kid h1 hk
          have hN := hN ts _ ((h2.cons (pos + 2) h1).cons 0 hc)
          obtain ⟨n, rfl⟩ : ∃ n, fuel = n + 1 := ⟨fuel - 1, by omega⟩
          refine .andThen h1 ?_
          simp only
          rw [if_pos (lt_of_getElem? hk)]
          exact .andThen hc (hN n (by omega))
        | none =>
          rw [hk] at hd; cases hd
          have hN := hN ts _ h2
          obtain ⟨n, rfl⟩ : ∃ n, fuel = n + 1 := ⟨fuel - 1, by omega⟩
          refine .andThen h1 ?_
          simp only
          rw [if_neg (by have := List.getElem?_eq_none_iff.1 hk; omega)]
          exact hN n (by omega)
  | @yield s x s' ys hd _ ih =>
    obtain ⟨N, hN⟩ := ih
    refine ⟨N + 1, fun ts qs hq fuel hf => ?_⟩
    obtain ⟨path, st⟩ := s
    cases st with
    | nil => cases hd
    | cons y st =>
      obtain ⟨t, _ | pos⟩ := y
      · obtain ⟨q, qs, rfl, h1, h2⟩ := hq.cons_inv
        simp only [Tree.Iter.turn] at hd
        cases hv : t.val with
        | none => rw [hv] at hd; cases hd
        | some v =>
          rw [hv] at hd; cases hd
          have hN := hN ts _ (h2.cons 1 h1)
          obtain ⟨n, rfl⟩ : ∃ n, fuel = n + 1 := ⟨fuel - 1, by omega⟩
          refine .andThen h1 ?_
          simp only [hv]
          exact (hN n (by omega)).bind (.pure _)
      · simp only [Tree.Iter.turn] at hd; split at hd <;> cases hd

theorem valuesP_ok {s : Tree.Values K V} {ys : List V} (h : Tree.Yields Tree.Values.turn s ys) : ∃ N, ∀ (ts : Vars K V) (qs : List (Loc × Nat)),
    Stacks ts qs s.stack → ∀ fuel, N ≤ fuel → Looks (valuesGoP fuel qs) ts ys := by
  induction h with
  | @done s hd =>
    refine ⟨1, fun ts qs hq fuel hf => ?_⟩
    obtain ⟨st⟩ := s
    cases st with
    | nil =>
      rw [hq.nil_inv]
      obtain ⟨n, rfl⟩ : ∃ n, fuel = n + 1 := ⟨fuel - 1, by omega⟩
      exact .pure _
    | cons x st =>
      obtain ⟨t, _ | pos⟩ := x
      · simp only [Tree.Values.turn] at hd; split at hd <;> cases hd
      · simp only [Tree.Values.turn] at hd; split at hd <;> cases hd
  | @again s s' ys hd _ ih =>
    obtain ⟨N, hN⟩ := ih
    refine ⟨N + 1, fun ts qs hq fuel hf => ?_⟩
    obtain ⟨st⟩ := s
    cases st with
    | nil => cases hd
    | cons x st =>
      obtain ⟨t, _ | pos⟩ := x
      · obtain ⟨q, qs, rfl, h1, h2⟩ := hq.cons_inv
        simp only [Tree.Values.turn] at hd
        cases hv : t.val with
        | some v => rw [hv] at hd; cases hd
        | none =>
          rw [hv] at hd; cases hd
          have hN := hN ts _ (h2.cons 1 h1)
          obtain ⟨n, rfl⟩ : ∃ n, fuel = n + 1 := ⟨fuel - 1, by omega⟩
          refine .andThen h1 ?_
          simp only [hv]
          exact hN n (by omega)
      · obtain ⟨q, qs, rfl, h1, h2⟩ := hq.cons_inv
        simp only [Tree.Values.turn] at hd
        cases hk : t.kids[pos]? with
        | some c =>
          rw [hk] at hd; cases hd
          have hc := at_kid h1 hk
          have hN := hN ts _ ((h2.cons (pos + 2) h1).cons 0 hc)
          obtain ⟨n, rfl⟩ : ∃ n, fuel = n + 1 := ⟨fuel - 1, by omega⟩
          refine .andThen h1 ?_
          simp only
          rw [if_pos (lt_of_getElem? hk)]
          exact .andThen hc (hN n (by omega))
        | none =>
          rw [hk] at hd; cases hd
          have hN := hN ts _ h2
          obtain ⟨n, rfl⟩ : ∃ n, fuel = n + 1 := ⟨fuel - 1, by omega⟩
          refine .andThen h1 ?_
          simp only
          rw [if_neg (by have := List.getElem?_eq_none_iff.1 hk; omega)]
          exact hN n (by omega)
  | @yield s x s' ys hd _ ih =>
    obtain ⟨N, hN⟩ := ih
    refine ⟨N + 1, fun ts qs hq fuel hf => ?_⟩
    obtain ⟨st⟩ := s
    cases st with
    | nil => cases hd
    | cons y st =>
      obtain ⟨t, _ | pos⟩ := y
      · obtain ⟨q, qs, rfl, h1, h2⟩ := hq.cons_inv
        simp only [Tree.Values.turn] at hd
        cases hv : t.val with
        | none => rw [hv] at hd; cases hd
        | some v =>
          rw [hv] at hd; cases hd
          have hN := hN ts _ (h2.cons 1 h1)
          obtain ⟨n, rfl⟩ : ∃ n, fuel = n + 1 := ⟨fuel - 1, by omega⟩
          refine .andThen h1 ?_
          simp only [hv]
          exact (hN n (by omega)).bind (.pure _)
      · simp only [Tree.Values.turn] at hd; split at hd <;> cases hd

theorem entries_run {ys : List (List K × V)} (h : Tree.Yields Tree.Iter.turn t.iter ys) :
    ∃ N, ∀ (ts : Vars K V) l, ts.at l = some t → ∀ fuel, N ≤ fuel → Looks (entriesP fuel l) ts ys := by
  obtain ⟨N, hN⟩ := iterP_ok h
  exact ⟨N, fun ts l hl fuel hf => .andThen hl (hN ts [(l, 0)] (Stacks.cons 0 hl rfl) fuel hf)⟩

theorem values_run {ys : List V} (h : Tree.Yields Tree.Values.turn t.values ys) :
    ∃ N, ∀ (ts : Vars K V) l, ts.at l = some t → ∀ fuel, N ≤ fuel → Looks (valuesP fuel l) ts ys := by
  obtain ⟨N, hN⟩ := valuesP_ok h
  exact ⟨N, fun ts l hl fuel hf => hN ts [(l, 0)] (Stacks.cons 0 hl rfl) fuel hf⟩

section
variable [Ord K] [DecidableEq K]

theorem scanPrefix_run {p : List K} {it : Tree.Iter K V} {ys : List (List K × V)} (hi : t.scanPrefix p = .ret it)
    (h : Tree.Yields Tree.Iter.turn it ys) :
    ∃ N, ∀ (ts : Vars K V) l, ts.at l = some t → ∀ fuel, N ≤ fuel → Looks (scanPrefixP fuel l p) ts ys := by
  obtain ⟨N, hN⟩ := iterP_ok h
  refine ⟨N + t.size + 1, fun ts l hl fuel hu => ?_⟩
  unfold Tree.scanPrefix at hi
  cases hf : t.find p with
  | panic => rw [hf] at hi; cases hi
  | ret r =>
    obtain ⟨f, h2, h1⟩ := find_run hl hf
    rw [hf] at hi
    cases h2 with
    | @found q u hq =>
      cases hi
      exact (h1 fuel (by omega)).bind (hN ts [(q, 0)] (Stacks.cons 0 hq rfl) fuel (by omega))
    | @pref q u rt hq =>
      cases hi
      exact (h1 fuel (by omega)).bind (hN ts [(q, 0)] (Stacks.cons 0 hq rfl) fuel (by omega))
    | notFound =>
      cases hi
      refine (h1 fuel (by omega)).bind ?_
      cases h with
      | done => exact .pure _
      | again h _ => cases h
      | yield h _ => cases h

theorem filterPrefix_run {fuel : Nat} {p : List K} (hl : ts.at l = some t) (hs : t.size < fuel) (h : t.filterPrefix p = .ret u) :
    Makes (filterPrefixP fuel l p) ts u := by
  unfold Tree.filterPrefix at h
  cases hf : t.find p with
  | panic => rw [hf] at h; cases h
  | ret r =>
    obtain ⟨f, h2, h1⟩ := find_run hl hf
    have h1 := (h1 fuel hs).does
    rw [hf] at h
    have clone : ∀ {q : Loc} {w : Tree K V}, ts.at q = some w → Does (make (.clone q)) ts ts.length (ts ++ [some w]) := fun hq =>
      does_make (by simp only [Vars.step, hq]) (by simp)
    have last : ∀ (w : Tree K V), (ts ++ [some w])[ts.length]? = some (some w) := fun w => by simp
    have put : ∀ (w x : Tree K V), Vars.put (ts ++ [some w]) ⟨ts.length, []⟩ x = ts ++ [some x] := fun w x => by
      have := put_last (xs := ts) [] w x
      simpa using this
    cases h2 with
    | @found q w hq =>
      cases h
      refine ⟨0, 0, h1.bind ((clone hq).bind ?_)⟩
      have h3 := does_exec (ts := ts ++ [some w]) (c := .setPre ⟨ts.length, []⟩ p) (ts' := ts ++ [some { w with pre := p }])
        (by simp only [Vars.step, at_temp (last w), put]) (by simp)
      simpa [dead] using Does.bind (f := fun _ => pure ts.length) h3 (Does.pure _ _)
    | @pref q w rt hq =>
      cases h
      have h3 := does_exec (ts := ts ++ [some w]) (c := .setPre ⟨ts.length, []⟩ (w.pre.drop (w.pre.length - rt)))
        (ts' := ts ++ [some { w with pre := w.pre.drop (w.pre.length - rt) }])
        (by simp only [Vars.step, at_temp (last w), put]) (by simp)
      obtain ⟨j, h4⟩ := prepend_ok (at_temp (last { w with pre := w.pre.drop (w.pre.length - rt) })) p
      rw [put] at h4
      refine ⟨0, j, h1.bind ((clone hq).bind (h3.bind ?_))⟩
      simpa [dead] using Does.bind (f := fun _ => pure ts.length) h4 (Does.pure _ _)
    | notFound =>
      cases h
      refine ⟨0, 0, h1.bind ?_⟩
      have h3 := does_make (ts := ts) (c := .default) (ts' := ts ++ [some Tree.empty]) rfl (by simp)
      simpa [dead] using h3
end
end Verif.Shared
