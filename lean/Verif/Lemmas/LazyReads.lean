import Verif.Model.LazyReads
import Verif.Lemmas.RadixWorkRel
/-! Counting the calls of `children()`: sequencing, searches and the driver of the merges. -/
namespace Verif.Tree

@[simp] theorem noted_pure_res {α : Type} (a : α) : (pure a : Noted α).res = a := rfl
@[simp] theorem noted_pure_seen {α : Type} (a : α) : (pure a : Noted α).seen = Seen.zero := rfl
@[simp] theorem noted_bind_res {α β : Type} (m : Noted α) (f : α → Noted β) : (m >>= f).res = (f m.res).res := rfl
@[simp] theorem noted_bind_seen {α β : Type} (m : Noted α) (f : α → Noted β) : (m >>= f).seen = m.seen.add (f m.res).seen := rfl

/-- one of the two counters -/
structure Counter where
  of : Seen → Nat
  zero : of Seen.zero = 0
  add : ∀ a b, of (a.add b) = of a + of b

/-- the left one -/
def leftC : Counter := ⟨Seen.left, rfl, fun _ _ => rfl⟩
/-- the right one -/
def rightC : Counter := ⟨Seen.right, rfl, fun _ _ => rfl⟩

/-- `c` returns `r` and counts at most `k` -/
def AtMost (C : Counter) {β : Type} (c : Noted β) (r : β) (k : Nat) : Prop := c.res = r ∧ C.of c.seen ≤ k

section
variable {C : Counter} {β γ : Type}

theorem AtMost.pure (r : β) (k : Nat) : AtMost C (pure r) r k := ⟨rfl, by rw [noted_pure_seen, C.zero]; exact Nat.zero_le _⟩
theorem AtMost.bind {c : Noted β} {f : β → Noted γ} {r : β} {r' : γ} {k k' : Nat} (h : AtMost C c r k) (h' : AtMost C (f r) r' k') :
    AtMost C (c >>= f) r' (k + k') := by
  obtain ⟨rfl, h2⟩ := h
  refine ⟨h'.1, ?_⟩
  rw [noted_bind_seen, C.add]
  exact Nat.add_le_add h2 h'.2
theorem AtMost.mono {c : Noted β} {r : β} {k k' : Nat} (h : AtMost C c r k) (hk : k ≤ k') : AtMost C c r k' := ⟨h.1, Nat.le_trans h.2 hk⟩
theorem AtMost.map {c : Noted β} {r : β} {k : Nat} (h : AtMost C c r k) (g : β → γ) : AtMost C (c >>= fun x => Pure.pure (g x)) (g r) k :=
  AtMost.bind (f := fun x => Pure.pure (g x)) h (AtMost.pure (g r) 0)
end

/-! ### Binary search -/

section
variable {C : Counter} {α : Type}

theorem bsLoop_atMost (f : α → Ordering) (fm : α → Noted Ordering) (l : List α) (hf : ∀ x ∈ l, AtMost C (fm x) (f x) 0) :
    ∀ (size base : Nat), 1 ≤ size → base + size ≤ l.length → AtMost C (bsLoopM fm l base size) (bsLoop f l base size) 0 := by
  intro size
  induction size using Nat.strongRecOn with
  | _ size ih =>
    intro base h1 h2
    rw [bsLoopM, bsLoop]
    by_cases hs : size > 1
    · simp only [hs, ↓reduceDIte]
      have hm : base + size / 2 < l.length := by omega
      rw [List.getElem?_eq_getElem hm]
      simp only
      refine AtMost.bind (hf _ (List.getElem_mem hm)) (k' := 0) ?_
      split
      · exact ih _ (by omega) _ (by omega) (by omega)
      · exact ih _ (by omega) _ (by omega) (by omega)
    · simp only [hs, ↓reduceDIte]
      exact AtMost.pure _ _

theorem binarySearchBy_atMost (f : α → Ordering) (fm : α → Noted Ordering) (l : List α) (hf : ∀ x ∈ l, AtMost C (fm x) (f x) 0) :
    AtMost C (binarySearchByM fm l) (binarySearchBy f l) 0 := by
  unfold binarySearchByM binarySearchBy
  by_cases h0 : l.length = 0
  · simp only [h0, ↓reduceIte]
    exact AtMost.pure _ _
  · simp only [if_neg h0]
    refine AtMost.bind (bsLoop_atMost f fm l hf l.length 0 (by omega) (by omega)) (k' := 0) ?_
    cases hg : l[bsLoop f l 0 l.length]? with
    | none => exact AtMost.pure _ _
    | some x =>
      have hx : x ∈ l := List.mem_of_getElem? hg
      refine AtMost.bind (hf x hx) (k' := 0) ?_
      show AtMost C (match f x with | .eq => _ | .lt => _ | .gt => _) (match f x with | .eq => _ | .lt => _ | .gt => _) 0
      cases f x <;> exact AtMost.pure _ _
end

/-! ### The driver -/

section
variable {C : Counter} {σ A B : Type} [MergeState σ A B]

/-- `opM` is `op` with counting, and counts at most `ca x + cb y` on the collision of `x` and `y` -/
structure Marks (C : Counter) (opM : MergeOpM Noted σ A B) (op : MergeOp σ A B) (pa : A → Prop) (pb : B → Prop) (ca : A → Nat) (cb : B → Nat) : Prop where
  fromA : opM.fromA = op.fromA
  fromB : opM.fromB = op.fromB
  cmp : ∀ x y, pa x → pb y → AtMost C (opM.cmp x y) (op.cmp x y) 0
  collision : ∀ s x as y bs, MergeState.aSlice s = x :: as → MergeState.bSlice s = y :: bs → pa x → pb y →
    AtMost C (opM.collision s) (op.collision s) (ca x + cb y)
  stepA : ∀ s n, n ≤ (MergeState.aSlice s : List A).length → (op.fromA s n).2 = .cont →
    MergeState.aSlice (op.fromA s n).1 = (MergeState.aSlice s).drop n ∧ (MergeState.bSlice (op.fromA s n).1 : List B) = MergeState.bSlice s
  stepB : ∀ s n, n ≤ (MergeState.bSlice s : List B).length → (op.fromB s n).2 = .cont →
    MergeState.bSlice (op.fromB s n).1 = (MergeState.bSlice s).drop n ∧ (MergeState.aSlice (op.fromB s n).1 : List A) = MergeState.aSlice s
  stepC : ∀ s x as y bs, MergeState.aSlice s = x :: as → MergeState.bSlice s = y :: bs → (op.collision s).2 = .cont →
    (MergeState.aSlice (op.collision s).1 : List A) = as ∧ (MergeState.bSlice (op.collision s).1 : List B) = bs

theorem AtMost.andThen {r : σ × Flow} {kM : σ → Noted (σ × Flow)} {k : σ → σ × Flow} {n : Nat} (h : r.2 = .cont → AtMost C (kM r.1) (k r.1) n) :
    AtMost C (andThenM r kM) (andThen r k) n := by
  obtain ⟨s, fl⟩ := r
  cases fl with
  | cont => exact h rfl
  | stop => exact AtMost.pure _ _
  | panic => exact AtMost.pure _ _

theorem andThen_cont {r : σ × Flow} {k : σ → σ × Flow} (h : (andThen r k).2 = .cont) : r.2 = .cont ∧ andThen r k = k r.1 := by
  obtain ⟨s, fl⟩ := r
  cases fl with
  | cont => exact ⟨rfl, rfl⟩
  | stop => cases h
  | panic => cases h

theorem drive_atMost {opM : MergeOpM Noted σ A B} {op : MergeOp σ A B} {pa : A → Prop} {pb : B → Prop} {ca : A → Nat} {cb : B → Nat}
    (H : Marks C opM op pa pb ca cb) : ∀ (an bn : Nat) (s : σ) (as as2 : List A) (bs bs2 : List B),
    MergeState.aSlice s = as ++ as2 → MergeState.bSlice s = bs ++ bs2 → as.length = an → bs.length = bn →
    (∀ x ∈ as, pa x) → (∀ y ∈ bs, pb y) →
    AtMost C (driveM opM s an bn) (binaryMerge op s an bn) (sumN ca as + sumN cb bs) ∧
      ((binaryMerge op s an bn).2 = .cont →
        (MergeState.aSlice (binaryMerge op s an bn).1 : List A) = as2 ∧ (MergeState.bSlice (binaryMerge op s an bn).1 : List B) = bs2) := by
  intro an
  induction an using Nat.strongRecOn with
  | _ an ih =>
  intro bn s as as2 bs bs2 hsa hsb hla hlb hpa hpb
  rw [driveM, binaryMerge]
  by_cases h0 : an = 0
  · simp only [h0, ↓reduceDIte]
    have ea : as = [] := List.length_eq_zero_iff.1 (hla.trans h0)
    subst ea
    by_cases hb0 : bn = 0
    · have eb : bs = [] := List.length_eq_zero_iff.1 (hlb.trans hb0)
      subst eb
      simp only [hb0, ↓reduceIte]
      exact ⟨AtMost.pure _ _, fun _ => ⟨by simpa using hsa, by simpa using hsb⟩⟩
    · simp only [if_neg hb0]
      refine ⟨by rw [H.fromB]; exact AtMost.pure _ _, fun hc => ?_⟩
      obtain ⟨g1, g2⟩ := H.stepB s bn (by rw [hsb]; simp; omega) hc
      rw [g1, g2, hsa, hsb]
      exact ⟨by simp, by rw [← hlb]; simp⟩
  · simp only [h0, ↓reduceDIte]
    by_cases hb0 : bn = 0
    · have eb : bs = [] := List.length_eq_zero_iff.1 (hlb.trans hb0)
      subst eb
      simp only [hb0, ↓reduceIte]
      refine ⟨by rw [H.fromA]; exact AtMost.pure _ _, fun hc => ?_⟩
      obtain ⟨g1, g2⟩ := H.stepA s an (by rw [hsa]; simp; omega) hc
      rw [g1, g2, hsa, hsb]
      exact ⟨by rw [← hla]; simp, by simp⟩
    · simp only [if_neg hb0]
      have hm : an / 2 < as.length := by omega
      have hget : (MergeState.aSlice s : List A)[an / 2]? = some as[an / 2] := by
        rw [hsa, List.getElem?_append_left hm, List.getElem?_eq_getElem hm]
      have hbl : ¬ (MergeState.bSlice s : List B).length < bn := by rw [hsb]; simp; omega
      have htake : (MergeState.bSlice s : List B).take bn = bs := by rw [hsb, ← hlb]; simp
      have spl : as = as.take (an / 2) ++ as[an / 2] :: as.drop (an / 2 + 1) := by
        rw [← List.drop_eq_getElem_cons hm, List.take_append_drop]
      have hxm : as[an / 2] ∈ as := List.getElem_mem hm
      simp only [hget, hbl, ↓reduceIte, htake]
      have r1 := binarySearchBy_atMost (C := C) (fun b => (op.cmp as[an / 2] b).swap) (fun b => do let o ← opM.cmp as[an / 2] b; pure o.swap) bs
        (fun b hb => AtMost.map (H.cmp _ b (hpa _ hxm) (hpb b hb)) Ordering.swap)
      have rng := binarySearchBy_range (fun b => (op.cmp as[an / 2] b).swap) bs
      generalize as[an / 2] = x at spl hxm r1 rng ⊢
      generalize binarySearchBy (fun b => (op.cmp x b).swap) bs = res at r1 rng ⊢
      have hal : (as.take (an / 2)).length = an / 2 := by simp; omega
      have hal2 : (as.drop (an / 2 + 1)).length = an - an / 2 - 1 := by simp; omega
      have hsa1 : (MergeState.aSlice s : List A) = as.take (an / 2) ++ (x :: (as.drop (an / 2 + 1) ++ as2)) := by
        rw [hsa]; conv => lhs; rw [spl]
        simp
      have hpa1 : ∀ z ∈ as.take (an / 2), pa z := fun z hz => hpa z (List.mem_of_mem_take hz)
      have hpa2 : ∀ z ∈ as.drop (an / 2 + 1), pa z := fun z hz => hpa z (List.mem_of_mem_drop hz)
      have hsum : sumN ca as = sumN ca (as.take (an / 2)) + (ca x + sumN ca (as.drop (an / 2 + 1))) := by
        conv => lhs; rw [spl]
        rw [sumN_append, sumN]
      have hmm : an / 2 < an := by omega
      have hmr : an - an / 2 - 1 < an := by omega
      cases res with
      | found bm =>
        simp only at rng
        have splb : bs = bs.take bm ++ bs[bm] :: bs.drop (bm + 1) := by
          rw [← List.drop_eq_getElem_cons rng, List.take_append_drop]
        have hym : bs[bm] ∈ bs := List.getElem_mem rng
        generalize bs[bm] = y at splb hym
        have hbl1 : (bs.take bm).length = bm := by simp; omega
        have hbl2 : (bs.drop (bm + 1)).length = bn - bm - 1 := by simp; omega
        have hsb1 : (MergeState.bSlice s : List B) = bs.take bm ++ (y :: (bs.drop (bm + 1) ++ bs2)) := by
          rw [hsb]; conv => lhs; rw [splb]
          simp
        have hsumb : sumN cb bs = sumN cb (bs.take bm) + (cb y + sumN cb (bs.drop (bm + 1))) := by
          conv => lhs; rw [splb]
          rw [sumN_append, sumN]
        obtain ⟨r2, st2⟩ := ih (an / 2) hmm bm s _ _ _ _ hsa1 hsb1 hal hbl1 hpa1 (fun z hz => hpb z (List.mem_of_mem_take hz))
        simp only
        constructor
        · refine AtMost.mono (AtMost.bind r1 (AtMost.bind r2 (AtMost.andThen (n := ca x + cb y + (sumN ca (as.drop (an / 2 + 1)) + sumN cb (bs.drop (bm + 1))))
            fun hc => ?_))) (by omega)
          obtain ⟨ga, gb⟩ := st2 hc
          refine AtMost.bind (H.collision _ _ _ _ _ ga gb (hpa x hxm) (hpb y hym)) (AtMost.andThen fun hc' => ?_)
          obtain ⟨ga', gb'⟩ := H.stepC _ _ _ _ _ ga gb hc'
          exact (ih (an - an / 2 - 1) hmr (bn - bm - 1) _ _ _ _ _ ga' gb' hal2 hbl2 hpa2 (fun z hz => hpb z (List.mem_of_mem_drop hz))).1
        · intro hc
          obtain ⟨c1, e1⟩ := andThen_cont hc
          rw [e1] at hc ⊢
          obtain ⟨ga, gb⟩ := st2 c1
          obtain ⟨c2, e2⟩ := andThen_cont hc
          rw [e2] at hc ⊢
          obtain ⟨ga', gb'⟩ := H.stepC _ _ _ _ _ ga gb c2
          exact (ih (an - an / 2 - 1) hmr (bn - bm - 1) _ _ _ _ _ ga' gb' hal2 hbl2 hpa2 (fun z hz => hpb z (List.mem_of_mem_drop hz))).2 hc
      | notFound bi =>
        simp only at rng
        have hbl1 : (bs.take bi).length = bi := by simp; omega
        have hbl2 : (bs.drop bi).length = bn - bi := by simp; omega
        have hsb1 : (MergeState.bSlice s : List B) = bs.take bi ++ (bs.drop bi ++ bs2) := by
          rw [hsb, ← List.append_assoc, List.take_append_drop]
        have hsumb : sumN cb bs = sumN cb (bs.take bi) + sumN cb (bs.drop bi) := by
          rw [← sumN_append, List.take_append_drop]
        obtain ⟨r2, st2⟩ := ih (an / 2) hmm bi s _ _ _ _ hsa1 hsb1 hal hbl1 hpa1 (fun z hz => hpb z (List.mem_of_mem_take hz))
        have stA : ∀ t : σ, MergeState.aSlice t = x :: (as.drop (an / 2 + 1) ++ as2) → MergeState.bSlice t = bs.drop bi ++ bs2 → (op.fromA t 1).2 = .cont →
            MergeState.aSlice (op.fromA t 1).1 = as.drop (an / 2 + 1) ++ as2 ∧ MergeState.bSlice (op.fromA t 1).1 = bs.drop bi ++ bs2 := by
          intro t ga gb hc
          obtain ⟨g1, g2⟩ := H.stepA t 1 (by rw [ga]; simp) hc
          rw [ga] at g1
          rw [gb] at g2
          exact ⟨g1, g2⟩
        simp only
        constructor
        · refine AtMost.mono (AtMost.bind r1 (AtMost.bind r2 (AtMost.andThen (n := sumN ca (as.drop (an / 2 + 1)) + sumN cb (bs.drop bi))
            fun hc => ?_))) (by omega)
          obtain ⟨ga, gb⟩ := st2 hc
          rw [H.fromA]
          refine AtMost.andThen fun hc' => ?_
          obtain ⟨ga', gb'⟩ := stA _ ga gb hc'
          exact (ih (an - an / 2 - 1) hmr (bn - bi) _ _ _ _ _ ga' gb' hal2 hbl2 hpa2 (fun z hz => hpb z (List.mem_of_mem_drop hz))).1
        · intro hc
          obtain ⟨c1, e1⟩ := andThen_cont hc
          rw [e1] at hc ⊢
          obtain ⟨ga, gb⟩ := st2 c1
          obtain ⟨c2, e2⟩ := andThen_cont hc
          rw [e2] at hc ⊢
          obtain ⟨ga', gb'⟩ := stA _ ga gb c2
          exact (ih (an - an / 2 - 1) hmr (bn - bi) _ _ _ _ _ ga' gb' hal2 hbl2 hpa2 (fun z hz => hpb z (List.mem_of_mem_drop hz))).2 hc
end

end Verif.Tree
