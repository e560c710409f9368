import Verif.Lemmas.RadixTag
import Verif.Lemmas.MergeRun
import Verif.Model.RadixEffects
/-! A combination with a stateful closure does what the plain combination of the tagged trees does with a closure that looks up, by key, the
state the stateful closure is called in. -/
namespace Verif
namespace Tree
open Std
open BTreeMap (fillEach_append)

section calls
variable {K V O S : Type _}

/-- ask the questions one after the other -/
abbrev runQ (F : V → O → S → Option V × Bool × S) (L : List (List K × V × O)) (c : S) : List ((List K × V × O) × Option V) × S × Bool :=
  fillEach (fun x => F x.2.1 x.2.2) L c

/-- the flow of a run -/
def flowOf (b : Bool) : Flow := if b then .panic else .cont

/-- `st` and `fl` are the state and flow after asking -/
structure Ran (F : V → O → S → Option V × Bool × S) (L : List (List K × V × O)) (c : S) (st : S) (fl : Flow) : Prop where
  st : st = (runQ F L c).2.1
  fl : fl = flowOf (runQ F L c).2.2

/-- `σ` says in which state each question is asked -/
def Follows (F : V → O → S → Option V × Bool × S) (σ : List K → S) : List (List K × V × O) → S → Prop
  | [], _ => True
  | x :: xs, c => σ x.1 = c ∧ ((F x.2.1 x.2.2 c).2.1 = false → Follows F σ xs (F x.2.1 x.2.2 c).2.2)

variable {F : V → O → S → Option V × Bool × S} {σ : List K → S} {L1 L2 L : List (List K × V × O)} {c s1 s2 : S} {fl : Flow}

theorem flowOf_cont {b : Bool} : flowOf b = .cont ↔ b = false := by cases b <;> simp [flowOf]

theorem Ran.nil : Ran F ([] : List (List K × V × O)) c c .cont := ⟨rfl, rfl⟩

theorem Ran.append (h1 : Ran F L1 c s1 .cont) (h2 : Ran F L2 s1 s2 fl) : Ran F (L1 ++ L2) c s2 fl := by
  have hp : (runQ F L1 c).2.2 = false := flowOf_cont.1 h1.fl.symm
  have e : (runQ F (L1 ++ L2) c).2 = (runQ F L2 s1).2 := by
    have hs := h1.st
    unfold runQ at hp hs ⊢
    rw [fillEach_append, hp, hs]
    rfl
  exact ⟨by rw [e]; exact h2.st, by rw [e]; exact h2.fl⟩

theorem Ran.stop (h1 : Ran F L1 c s1 fl) (h : fl ≠ .cont) : Ran F (L1 ++ L2) c s1 fl := by
  have hp : (runQ F L1 c).2.2 = true := by
    cases hb : (runQ F L1 c).2.2 with
    | true => rfl
    | false => rw [h1.fl, hb] at h; exact absurd rfl h
  have e : runQ F (L1 ++ L2) c = runQ F L1 c := by
    unfold runQ at hp ⊢
    rw [fillEach_append, hp]
    rfl
  exact ⟨by rw [e]; exact h1.st, by rw [e]; exact h1.fl⟩

theorem Follows.left (h : Follows F σ (L1 ++ L2) c) : Follows F σ L1 c := by
  induction L1 generalizing c with
  | nil => trivial
  | cons x L ih => exact ⟨h.1, fun hp => ih (h.2 hp)⟩

theorem Follows.right (h : Follows F σ (L1 ++ L2) c) (h1 : Ran F L1 c s1 .cont) : Follows F σ L2 s1 := by
  induction L1 generalizing c with
  | nil => rw [h1.st]; exact h
  | cons x L ih =>
    have hp : (runQ F (x :: L) c).2.2 = false := flowOf_cont.1 h1.fl.symm
    have hs := h1.st
    obtain ⟨o, p, c', hc⟩ : ∃ o p c', F x.2.1 x.2.2 c = (o, p, c') := ⟨_, _, _, rfl⟩
    cases p with
    | true => simp [runQ, fillEach, hc] at hp
    | false =>
      simp only [runQ, fillEach, hc] at hp hs
      have h2 := h.2
      rw [hc] at h2
      exact ih (h2 rfl) ⟨hs, by rw [flowOf_cont.2 hp]⟩

theorem follows_pfx (p : List K) : Follows F σ (L.map (pfx p)) c ↔ Follows F (fun k => σ (p ++ k)) L c := by
  induction L generalizing c with
  | nil => exact Iff.rfl
  | cons x L ih => simp only [List.map_cons, Follows, pfx, ih]

theorem runQ_pfx (p : List K) : (runQ F (L.map (pfx p)) c).2 = (runQ F L c).2 := by
  induction L generalizing c with
  | nil => rfl
  | cons x L ih =>
    obtain ⟨o, q, c', hc⟩ : ∃ o q c', F x.2.1 x.2.2 c = (o, q, c') := ⟨_, _, _, rfl⟩
    cases q with
    | true => simp [runQ, fillEach, hc, pfx]
    | false => simpa [runQ, fillEach, hc, pfx] using ih

theorem Ran.pfx {p : List K} (h : Ran F L c s1 fl) : Ran F (L.map (pfx p)) c s1 fl := by
  have := runQ_pfx (F := F) (L := L) (c := c) p
  exact ⟨by rw [this]; exact h.st, by rw [this]; exact h.fl⟩

end calls

section emit
variable {R R' A A' B B' : Type _}

/-- map the results -/
def mapE (φ : R → R') (e : Emit R) : Emit R' := (e.1.map φ, e.2)

theorem mapE_seq (φ : R → R') (x y : Emit R) : mapE φ (x.seq y) = (mapE φ x).seq (mapE φ y) := by
  obtain ⟨x1, x2⟩ := x
  cases x2 <;> simp [mapE, Emit.seq]

theorem collect_mapE {φ : R → R'} {ψ : A → A'} {f : A → Emit R} {f' : A' → Emit R'} {l : List A} (h : ∀ x ∈ l, f' (ψ x) = mapE φ (f x)) :
    collect f' (l.map ψ) = mapE φ (collect f l) := by
  induction l with
  | nil => rfl
  | cons x l ih => rw [List.map_cons, collect, collect, mapE_seq, h x (by simp), ih fun x hx => h x (by simp [hx])]

end emit

section merge
variable {K V W O S σ : Type _} [Ord K] [MergeState σ (Tree K V) (Tree K W)]

/-- what a callback does -/
structure StepE (out : σ → List (Tree K V)) (s : σ × S) (r : (σ × S) × Flow) (e : Emit (Tree K V)) (c : S) (a' : List (Tree K V))
    (b' : List (Tree K W)) : Prop where
  flow : r.2 = e.2
  out : out r.1.1 = out s.1 ++ e.1
  st : r.1.2 = c
  a : r.2 = .cont → MergeState.aSlice r.1.1 = a'
  b : r.2 = .cont → MergeState.bSlice r.1.1 = b'

/-- the merge operation handles the elements with `fa`, `fb`, and with the stateful `fc` -/
structure OpE (op : MergeOp (σ × S) (Tree K V) (Tree K W)) (out : σ → List (Tree K V)) (fa : Tree K V → Emit (Tree K V))
    (fb : Tree K W → Emit (Tree K V)) (fc : Tree K V → Tree K W → S → Emit (Tree K V) × S) : Prop where
  cmp : op.cmp = headCmp
  fromA : ∀ s n, 1 ≤ n → n ≤ (MergeState.aSlice s.1 : List (Tree K V)).length →
    StepE out s (op.fromA s n) (collect fa ((MergeState.aSlice s.1).take n)) s.2 ((MergeState.aSlice s.1).drop n) (MergeState.bSlice s.1)
  fromB : ∀ s n, 1 ≤ n → n ≤ (MergeState.bSlice s.1 : List (Tree K W)).length →
    StepE out s (op.fromB s n) (collect fb ((MergeState.bSlice s.1).take n)) s.2 (MergeState.aSlice s.1) ((MergeState.bSlice s.1).drop n)
  collision : ∀ s x as y bs, MergeState.aSlice s.1 = x :: as → MergeState.bSlice s.1 = y :: bs →
    StepE out s (op.collision s) (fc x y s.2).1 (fc x y s.2).2 as bs

theorem OpE.slices {op : MergeOp (σ × S) (Tree K V) (Tree K W)} {out : σ → List (Tree K V)} {fa : Tree K V → Emit (Tree K V)}
    {fb : Tree K W → Emit (Tree K V)} {fc : Tree K V → Tree K W → S → Emit (Tree K V) × S} (h : OpE op out fa fb fc) :
    SliceOk op (fun _ => True) where
  fromA s n _ h1 hn := ⟨(h.fromA s n h1 hn).a, (h.fromA s n h1 hn).b, fun _ => trivial⟩
  fromB s n _ h1 hn := ⟨(h.fromB s n h1 hn).a, (h.fromB s n h1 hn).b, fun _ => trivial⟩
  collision s x as y bs _ ha hb := ⟨(h.collision s x as y bs ha hb).a, (h.collision s x as y bs ha hb).b, fun _ => trivial⟩

/-- the stateful and the plain treatment of a pair of children agree -/
structure LockC (ex : Bool) (F : V → O → S → Option V × Bool × S) (o : Obs K W (Option O)) (q : List K)
    (fc : Tree K V → Tree K W → S → Emit (Tree K V) × S) (fc' : Tree K (List K × V) → Tree K (List K × W) → Emit (Tree K (List K × V)))
    (x : Tree K V) (y : Tree K W) (c : S) : Prop where
  ran : Ran F (asks o x y) c (fc x y c).2 (fc x y c).1.2
  eq : ex = true ∨ (fc x y c).1.2 = .cont → fc' (tag q x) (tag q y) = mapE (tag q) (fc x y c).1

variable [TransOrd K] [LawfulEqOrd K] [DecidableEq K]
  {op : MergeOp (σ × S) (Tree K V) (Tree K W)} {out : σ → List (Tree K V)} {fa : Tree K V → Emit (Tree K V)}
  {fb : Tree K W → Emit (Tree K V)} {fc : Tree K V → Tree K W → S → Emit (Tree K V) × S}
  {fa' : Tree K (List K × V) → Emit (Tree K (List K × V))} {fb' : Tree K (List K × W) → Emit (Tree K (List K × V))}
  {fc' : Tree K (List K × V) → Tree K (List K × W) → Emit (Tree K (List K × V))}
  {F : V → O → S → Option V × Bool × S} {o : Obs K W (Option O)} {q : List K} {st : List K → S} {ex : Bool}

/-- one step of the schedule, and the rest of it -/
theorem lock_step {s : σ × S} {r : (σ × S) × Flow} {k : σ × S → (σ × S) × Flow} {e : Emit (Tree K V)} {c : S} {a' : List (Tree K V)}
    {b' : List (Tree K W)} {e' : Emit (Tree K (List K × V))} {f' : Emit (Tree K (List K × V))} {L1 L2 : List (List K × V × O)}
    (h : StepE out s r e c a' b') (hr : Ran F L1 s.2 c e.2) (he : ex = true ∨ e.2 = .cont → e' = mapE (tag q) e)
    (hk : r.2 = .cont → Ran F L2 r.1.2 (k r.1).1.2 (k r.1).2 ∧
      (ex = true ∨ (k r.1).2 = .cont → ((out (k r.1).1.1).map (tag q), (k r.1).2) = ((out r.1.1).map (tag q) ++ f'.1, f'.2))) :
    Ran F (L1 ++ L2) s.2 (andThen r k).1.2 (andThen r k).2 ∧
      (ex = true ∨ (andThen r k).2 = .cont →
        ((out (andThen r k).1.1).map (tag q), (andThen r k).2) = ((out s.1).map (tag q) ++ (e'.seq f').1, (e'.seq f').2)) := by
  obtain ⟨⟨m, c'⟩, fl⟩ := r
  obtain ⟨h1, h2, h3, -, -⟩ := h
  simp only at h1 h2 h3 hk
  subst h3
  by_cases hc : fl = .cont
  · subst hc
    obtain ⟨k1, k2⟩ := hk rfl
    rw [← h1] at hr
    have he := he (.inr h1.symm)
    refine ⟨hr.append k1, ?_⟩
    intro hx
    have := k2 hx
    simp only [andThen]
    rw [this, he, Emit.seq, mapE, ← h1, h2]
    simp
  · have e1 : andThen ((m, c'), fl) k = ((m, c'), fl) := by
      cases fl with
      | cont => exact absurd rfl hc
      | stop => rfl
      | panic => rfl
    rw [e1]
    refine ⟨?_, ?_⟩
    · rw [← h1] at hr
      exact hr.stop hc
    · intro hx
      rw [he (by rw [← h1]; exact hx)]
      have e2 : (mapE (tag q) e).seq f' = mapE (tag q) e := by
        unfold Emit.seq mapE
        rw [← h1]
        cases fl with
        | cont => exact absurd rfl hc
        | stop => rfl
        | panic => rfl
      rw [e2]
      simp [mapE, h1, h2]

theorem run_lock (impl : OpE op out fa fb fc) (hno : o.no = none) (hfa : ∀ x, Valid x → x.pre ≠ [] → fa' (tag q x) = mapE (tag q) (fa x))
    (hfb : ∀ y, Valid y → y.pre ≠ [] → fb' (tag q y) = mapE (tag q) (fb y))
    (hac : ∀ l : List (Tree K V), Kids l → (collect fa l).2 = .cont) (hbc : ∀ l : List (Tree K W), Kids l → (collect fb l).2 = .cont)
    {as : List (Tree K V)} {bs : List (Tree K W)} {evs : List Ev} (hl : Legal headCmp as bs evs) :
    ∀ (s : σ × S) (as2 : List (Tree K V)) (bs2 : List (Tree K W)), Kids as → Kids bs →
      MergeState.aSlice s.1 = as ++ as2 → MergeState.bSlice s.1 = bs ++ bs2 →
      (∀ x ∈ as, ∀ y ∈ bs, hd x = hd y → ∀ c, Follows F st (asks o x y) c → LockC ex F o q fc fc' x y c) →
      Follows F st (asksL o as bs) s.2 →
      Ran F (asksL o as bs) s.2 (runEvs op s evs).1.2 (runEvs op s evs).2 ∧
      (ex = true ∨ (runEvs op s evs).2 = .cont →
        ((out (runEvs op s evs).1.1).map (tag q), (runEvs op s evs).2) =
          ((out s.1).map (tag q) ++ (joinRef headCmp fa' fb' fc' (as.map (tag q)) (bs.map (tag q))).1,
            (joinRef headCmp fa' fb' fc' (as.map (tag q)) (bs.map (tag q))).2)) := by
  induction hl with
  | done =>
    intro s as2 bs2 _ _ _ _ _ _
    exact ⟨Ran.nil, fun _ => by simp [runEvs, collect]⟩
  | @a as bs evs n h1 hn hlt _ ih =>
    intro s as2 bs2 ka kb ha hb hrec hf
    have step := impl.fromA s n h1 (by rw [ha]; simp; omega)
    rw [ha, List.take_append_of_le_length hn, List.drop_append_of_le_length hn] at step
    have ka1 : Kids (as.take n) := ka.sublist (List.take_sublist n as)
    have ka2 : Kids (as.drop n) := ka.sublist (List.drop_sublist n as)
    have ne : ∀ x ∈ as.take n, ∀ y ∈ bs, hd x ≠ hd y := by
      intro x hx y hy e
      have := hlt x hx y hy
      rw [headCmp_eq, e, cmp_self] at this
      cases this
    have hj : joinRef headCmp fa' fb' fc' (as.map (tag q)) (bs.map (tag q)) =
        (collect fa' ((as.take n).map (tag q))).seq (joinRef headCmp fa' fb' fc' ((as.drop n).map (tag q)) (bs.map (tag q))) := by
      rw [joinRef_a n, List.map_take, List.map_drop]
      rw [← List.map_take]
      intro x1 hx1 y1 hy1
      obtain ⟨x, hx, rfl⟩ := List.mem_map.1 hx1
      obtain ⟨y, hy, rfl⟩ := List.mem_map.1 hy1
      rw [tag_headCmp]
      exact hlt x hx y hy
    have hq : asksL o as bs = [] ++ asksL o (as.drop n) bs := asksL_skip_as hno n ka ne
    rw [hj, runEvs]
    rw [hq] at hf ⊢
    refine lock_step step (by rw [hac _ ka1]; exact Ran.nil) (fun _ => collect_mapE fun x hx => hfa x (ka1.valid x hx) (ka1.ne x hx)) ?_
    intro hc
    exact ih _ as2 bs2 ka2 kb (step.a hc) (by rw [step.b hc, hb]) (fun x hx => hrec x (List.mem_of_mem_drop hx)) (by rw [step.st]; exact hf)
  | @b as bs evs n h1 hn hlt _ ih =>
    intro s as2 bs2 ka kb ha hb hrec hf
    have step := impl.fromB s n h1 (by rw [hb]; simp; omega)
    rw [hb, List.take_append_of_le_length hn, List.drop_append_of_le_length hn] at step
    have kb1 : Kids (bs.take n) := kb.sublist (List.take_sublist n bs)
    have kb2 : Kids (bs.drop n) := kb.sublist (List.drop_sublist n bs)
    have ne : ∀ y ∈ bs.take n, ∀ x ∈ as, hd x ≠ hd y := by
      intro y hy x hx e
      have := hlt y hy x hx
      rw [headCmp_eq, e, cmp_self] at this
      cases this
    have hj : joinRef headCmp fa' fb' fc' (as.map (tag q)) (bs.map (tag q)) =
        (collect fb' ((bs.take n).map (tag q))).seq (joinRef headCmp fa' fb' fc' (as.map (tag q)) ((bs.drop n).map (tag q))) := by
      rw [joinRef_b n, List.map_take, List.map_drop]
      rw [← List.map_take]
      intro y1 hy1 x1 hx1
      obtain ⟨x, hx, rfl⟩ := List.mem_map.1 hx1
      obtain ⟨y, hy, rfl⟩ := List.mem_map.1 hy1
      rw [tag_headCmp]
      exact hlt y hy x hx
    have hq : asksL o as bs = [] ++ asksL o as (bs.drop n) := asksL_skip_bs n ka ne
    rw [hj, runEvs]
    rw [hq] at hf ⊢
    refine lock_step step (by rw [hbc _ kb1]; exact Ran.nil) (fun _ => collect_mapE fun y hy => hfb y (kb1.valid y hy) (kb1.ne y hy)) ?_
    intro hc
    exact ih _ as2 bs2 ka kb2 (by rw [step.a hc, ha]) (step.b hc) (fun x hx y hy => hrec x hx y (List.mem_of_mem_drop hy))
      (by rw [step.st]; exact hf)
  | @c x y as bs evs he _ ih =>
    intro s as2 bs2 ka kb ha hb hrec hf
    have he' : hd x = hd y := by rw [headCmp_eq] at he; exact cmp_eq_iff.1 he
    have step := impl.collision s x (as ++ as2) y (bs ++ bs2) (by simpa using ha) (by simpa using hb)
    rw [asksL_both ka he'] at hf ⊢
    have lk := hrec x (by simp) y (by simp) he' s.2 hf.left
    have hj : joinRef headCmp fa' fb' fc' ((x :: as).map (tag q)) ((y :: bs).map (tag q)) =
        (fc' (tag q x) (tag q y)).seq (joinRef headCmp fa' fb' fc' (as.map (tag q)) (bs.map (tag q))) := by
      rw [List.map_cons, List.map_cons, joinRef, tag_headCmp, he]
    rw [hj, runEvs]
    refine lock_step step lk.ran lk.eq ?_
    intro hc
    refine ih _ as2 bs2 (ka.sublist (List.sublist_cons_self ..)) (kb.sublist (List.sublist_cons_self ..)) (step.a hc) (step.b hc)
      (fun x hx y hy => hrec x (by simp [hx]) y (by simp [hy])) ?_
    rw [step.st]
    refine hf.right ?_
    have := lk.ran
    rw [← step.flow, hc] at this
    exact this

/-- the whole merge -/
theorem merge_lock (impl : OpE op out fa fb fc) (hno : o.no = none) (hfa : ∀ x, Valid x → x.pre ≠ [] → fa' (tag q x) = mapE (tag q) (fa x))
    (hfb : ∀ y, Valid y → y.pre ≠ [] → fb' (tag q y) = mapE (tag q) (fb y))
    (hac : ∀ l : List (Tree K V), Kids l → (collect fa l).2 = .cont) (hbc : ∀ l : List (Tree K W), Kids l → (collect fb l).2 = .cont)
    (s : σ × S) (ka : Kids (MergeState.aSlice s.1 : List (Tree K V))) (kb : Kids (MergeState.bSlice s.1 : List (Tree K W)))
    (hrec : ∀ x ∈ (MergeState.aSlice s.1 : List (Tree K V)), ∀ y ∈ (MergeState.bSlice s.1 : List (Tree K W)), hd x = hd y → ∀ c,
      Follows F st (asks o x y) c → LockC ex F o q fc fc' x y c)
    (hf : Follows F st (asksL o (MergeState.aSlice s.1 : List (Tree K V)) (MergeState.bSlice s.1)) s.2) :
    Ran F (asksL o (MergeState.aSlice s.1 : List (Tree K V)) (MergeState.bSlice s.1)) s.2 (mergeAll op s).1.2 (mergeAll op s).2 ∧
      (ex = true ∨ (mergeAll op s).2 = .cont →
        ((out (mergeAll op s).1.1).map (tag q), (mergeAll op s).2) =
          ((out s.1).map (tag q) ++ (joinRef headCmp fa' fb' fc' ((MergeState.aSlice s.1).map (tag q)) ((MergeState.bSlice s.1).map (tag q))).1,
            (joinRef headCmp fa' fb' fc' ((MergeState.aSlice s.1).map (tag q)) ((MergeState.bSlice s.1).map (tag q))).2)) := by
  obtain ⟨evs, h1, h2⟩ := mergeAll_eq_plan impl.slices (ka := hd) (kb := hd) (by intro a b; rw [impl.cmp]; rfl) s trivial ka.asc kb.asc
  rw [impl.cmp] at h1
  rw [h2]
  exact run_lock impl hno hfa hfb hac hbc h1 s [] [] ka kb (List.append_nil _).symm (List.append_nil _).symm hrec hf

end merge
end Tree
end Verif
