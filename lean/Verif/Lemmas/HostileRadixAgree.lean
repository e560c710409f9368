import Verif.Lemmas.HostileRadix
import Verif.Lemmas.RadixPanic
/-! # Keys that answer like a total order if they answer at all: the driver -/
namespace Verif
namespace Hostile
variable {W : Type}

/-- if the computation returns, it returns `a` -/
def Plain {α : Type} (x : M W α) (a : α) : Prop := ∀ w r, (x w).1 = .ret r → r = a
/-- if the computation returns, the plain computation returns the same -/
def Like {α : Type} (x : M W α) (c : Call α) : Prop := ∀ w r, (x w).1 = .ret r → c = .ret r

section plain
variable {α β : Type}

theorem bind_ret {x : M W α} {f : α → M W β} {w : W} {b : β} (h : ((x >>= f) w).1 = .ret b) : ∃ a w', x w = (.ret a, w') ∧ (f a w').1 = .ret b := by
  change (match x w with
    | (.ret a, w') => f a w'
    | (.panic, w') => (.panic, w')
    | (.fault, w') => (.fault, w')).1 = _ at h
  rcases e : x w with ⟨o, w'⟩
  rw [e] at h
  cases o with
  | ret a => exact ⟨a, w', rfl, h⟩
  | panic => cases h
  | fault => cases h

theorem Plain.pure (a : α) : Plain (Pure.pure a : M W α) a := fun w r h => by cases h; rfl
theorem Plain.bind {x : M W α} {f : α → M W β} {a : α} {b : β} (hx : Plain x a) (hf : Plain (f a) b) : Plain (x >>= f) b := by
  intro w r h
  obtain ⟨a', w', h1, h2⟩ := bind_ret h
  have : a' = a := hx w a' (by rw [h1])
  subst this
  exact hf w' r h2
theorem Plain.panic (a : α) : Plain (M.panic : M W α) a := fun w r h => by cases h
theorem Plain.fault (a : α) : Plain (M.fault : M W α) a := fun w r h => by cases h
theorem Plain.call {c : W → Call α × W} {a : α} (h : ∀ w r, (c w).1 = .ret r → r = a) : Plain (call c) a := by
  intro w r e
  unfold Hostile.call at e
  rcases hq : c w with ⟨q, w'⟩
  rw [hq] at e
  cases q with
  | ret o => cases e; exact h w _ (by rw [hq])
  | panic => cases e

theorem Like.pure (a : α) : Like (Pure.pure a : M W α) (.ret a) := fun w r h => by cases h; rfl
theorem Like.panic (c : Call α) : Like (M.panic : M W α) c := fun w r h => by cases h
theorem Like.fault (c : Call α) : Like (M.fault : M W α) c := fun w r h => by cases h
theorem Like.bind {x : M W α} {f : α → M W β} {c : Call α} {k : α → Call β} (hx : Like x c) (hf : ∀ a, c = .ret a → Like (f a) (k a)) :
    Like (x >>= f) (Tree.bindC c k) := by
  intro w r h
  obtain ⟨a, w', h1, h2⟩ := bind_ret h
  have := hx w a (by rw [h1])
  rw [this]
  exact hf a this w' r h2
theorem Plain.like {x : M W α} {f : α → M W β} {a : α} {c : Call β} (hx : Plain x a) (hf : Like (f a) c) : Like (x >>= f) c := by
  intro w r h
  obtain ⟨a', w', h1, h2⟩ := bind_ret h
  have : a' = a := hx w a' (by rw [h1])
  subst this
  exact hf w' r h2

theorem bsLoop_plain {f : α → M W Ordering} {g : α → Ordering} {l : List α} (h : ∀ x ∈ l, Plain (f x) (g x)) :
    ∀ (size base : Nat), Plain (bsLoop f l base size) (Verif.bsLoop g l base size) := by
  intro size
  induction size using Nat.strongRecOn with
  | _ size ih =>
    intro base
    rw [bsLoop, Verif.bsLoop]
    split
    · unfold getUnchecked
      cases hx : l[base + size / 2]? with
      | none => intro w r e; cases e
      | some x =>
        refine (Plain.pure x).bind ((h x (List.mem_of_getElem? hx)).bind ?_)
        have := ih (size - size / 2) (by omega) (if g x = .gt then base else base + size / 2)
        simpa [hx] using this
    · exact Plain.pure _

theorem binarySearchBy_plain {f : α → M W Ordering} {g : α → Ordering} {l : List α} (h : ∀ x ∈ l, Plain (f x) (g x)) :
    Plain (binarySearchBy f l) (Verif.binarySearchBy g l) := by
  unfold binarySearchBy Verif.binarySearchBy
  split
  · exact Plain.pure _
  · refine (bsLoop_plain h _ _).bind ?_
    unfold getUnchecked
    cases hx : l[Verif.bsLoop g l 0 l.length]? with
    | none => intro w r e; cases e
    | some x =>
      refine (Plain.pure x).bind ((h x (List.mem_of_getElem? hx)).bind ?_)
      simp only [hx]
      cases g x <;> exact Plain.pure _

end plain

section driver
variable {σ A B : Type}

/-- how a callback without user code ends -/
def flowOf (b : Bool) : Flow := if b then .cont else .stop

/-- if the merge returns, the plain merge ends the same way; if it panics, the state is one that the plain merge went through -/
def Along (G : σ → σ → Prop) (r : (σ × Outcome Bool) × W) (p : σ × Flow) : Prop :=
  (∀ b, r.1.2 = .ret b → p = (r.1.1, flowOf b)) ∧ (r.1.2 = .panic → G r.1.1 p.1)

theorem Along.step {G : σ → σ → Prop} (hG : ∀ s, G s s) (p : σ × Flow) (w : W) : Along G (step p w) p := by
  obtain ⟨s, fl⟩ := p
  cases fl with
  | cont => exact ⟨fun b h => by cases h; rfl, fun h => by cases h⟩
  | stop => exact ⟨fun b h => by cases h; rfl, fun h => by cases h⟩
  | panic => exact ⟨fun b h => (by cases h), fun _ => hG s⟩

theorem Along.andThen {G : σ → σ → Prop} (hT : ∀ a b c, G a b → G b c → G a c) {r : (σ × Outcome Bool) × W} {p : σ × Flow}
    {k : σ → W → (σ × Outcome Bool) × W} {k' : σ → σ × Flow} (h : Along G r p) (hG : ∀ s, p = (s, .cont) → G s (k' s).1)
    (hk : ∀ s w, p = (s, .cont) → Along G (k s w) (k' s)) : Along G (andThen r k) (Verif.andThen p k') := by
  obtain ⟨⟨s, o⟩, w⟩ := r
  obtain ⟨h1, h2⟩ := h
  cases o with
  | ret b =>
    have e := h1 b rfl
    subst e
    cases b with
    | true => exact hk s w rfl
    | false => exact ⟨fun b h => by cases h; rfl, fun h => by cases h⟩
  | fault => exact ⟨fun b h => (by cases h), fun h => by cases h⟩
  | panic =>
    refine ⟨fun b h => (by cases h), fun _ => ?_⟩
    obtain ⟨s', fl⟩ := p
    have := h2 rfl
    cases fl with
    | cont => exact hT _ _ _ this (hG s' rfl)
    | stop => exact this
    | panic => exact this

variable [MergeState σ A B]

/-- what the driver needs to know about the two operations -/
structure Sim (G : σ → σ → Prop) (I : σ → Prop) (op : HOp W σ A B) (op' : MergeOp σ A B) : Prop where
  refl : ∀ s, G s s
  trans : ∀ a b c, G a b → G b c → G a c
  cmp : ∀ a b, Plain (op.cmp a b) (op'.cmp a b)
  fromA : op.fromA = op'.fromA
  fromB : op.fromB = op'.fromB
  collision : ∀ s w, I s → Along G (op.collision s w) (op'.collision s)
  keepA : ∀ s n s', I s → op'.fromA s n = (s', .cont) → I s'
  keepB : ∀ s n s', I s → op'.fromB s n = (s', .cont) → I s'
  keepC : ∀ s s', I s → op'.collision s = (s', .cont) → I s'
  growA : ∀ s n, I s → G s (op'.fromA s n).1
  growB : ∀ s n, I s → G s (op'.fromB s n).1
  growC : ∀ s, I s → G s (op'.collision s).1

theorem andThen_cont {p : σ × Flow} {k : σ → σ × Flow} {s : σ} (h : Verif.andThen p k = (s, .cont)) : ∃ m, p = (m, .cont) ∧ k m = (s, .cont) := by
  obtain ⟨m, fl⟩ := p
  cases fl with
  | cont => exact ⟨m, rfl, h⟩
  | stop => cases h
  | panic => cases h

theorem andThen_grow {G : σ → σ → Prop} (hT : ∀ a b c, G a b → G b c → G a c) {s : σ} {p : σ × Flow} {k : σ → σ × Flow} (h : G s p.1)
    (hk : ∀ m, p = (m, .cont) → G m (k m).1) : G s (Verif.andThen p k).1 := by
  obtain ⟨m, fl⟩ := p
  cases fl with
  | cont => exact hT _ _ _ h (hk m rfl)
  | stop => exact h
  | panic => exact h

/-- the plain driver keeps `I` and only grows -/
theorem Sim.plain {G : σ → σ → Prop} {I : σ → Prop} {op : HOp W σ A B} {op' : MergeOp σ A B} (h : Sim G I op op') :
    ∀ (an bn : Nat) (s : σ), I s → G s (Verif.binaryMerge op' s an bn).1 ∧ ∀ s', Verif.binaryMerge op' s an bn = (s', .cont) → I s' := by
  intro an
  induction an using Nat.strongRecOn with
  | _ an ih =>
    intro bn s hs
    rw [Verif.binaryMerge]
    split
    · split
      · exact ⟨h.refl s, fun s' e => by cases e; exact hs⟩
      · exact ⟨h.growB s bn hs, fun s' e => h.keepB s bn s' hs e⟩
    · split
      · exact ⟨h.growA s an hs, fun s' e => h.keepA s an s' hs e⟩
      · simp only
        split
        · exact ⟨h.refl s, fun s' e => by cases e⟩
        · split
          · exact ⟨h.refl s, fun s' e => by cases e⟩
          · split
            · rename_i bm _
              obtain ⟨g1, k1⟩ := ih (an / 2) (by omega) bm s hs
              constructor
              · exact andThen_grow h.trans g1 fun m e => andThen_grow h.trans (h.growC m (k1 m e)) fun m' e' =>
                  (ih (an - an / 2 - 1) (by omega) _ m' (h.keepC m m' (k1 m e) e')).1
              · intro s' e
                obtain ⟨m, e1, e⟩ := andThen_cont e
                obtain ⟨m', e2, e⟩ := andThen_cont e
                exact (ih (an - an / 2 - 1) (by omega) _ m' (h.keepC m m' (k1 m e1) e2)).2 s' e
            · rename_i bi _
              obtain ⟨g1, k1⟩ := ih (an / 2) (by omega) bi s hs
              constructor
              · exact andThen_grow h.trans g1 fun m e => andThen_grow h.trans (h.growA m 1 (k1 m e)) fun m' e' =>
                  (ih (an - an / 2 - 1) (by omega) _ m' (h.keepA m 1 m' (k1 m e) e')).1
              · intro s' e
                obtain ⟨m, e1, e⟩ := andThen_cont e
                obtain ⟨m', e2, e⟩ := andThen_cont e
                exact (ih (an - an / 2 - 1) (by omega) _ m' (h.keepA m 1 m' (k1 m e1) e2)).2 s' e

theorem drive_agrees {G : σ → σ → Prop} {I : σ → Prop} {op : HOp W σ A B} {op' : MergeOp σ A B} (h : Sim G I op op') :
    ∀ (an bn : Nat) (s : σ) (w : W), I s → Along G (drive op s an bn w) (Verif.binaryMerge op' s an bn) := by
  intro an
  induction an using Nat.strongRecOn with
  | _ an ih =>
    intro bn s w hs
    have hg := (h.plain an bn s hs).1
    rw [Verif.binaryMerge] at hg
    rw [drive, Verif.binaryMerge]
    by_cases h0 : an = 0
    · simp only [h0, dif_pos]
      split
      · exact Along.step h.refl _ w
      · rw [h.fromB]; exact Along.step h.refl _ w
    · simp only [dif_neg h0] at hg ⊢
      by_cases h1 : bn = 0
      · simp only [if_pos h1]
        rw [h.fromA]; exact Along.step h.refl _ w
      · simp only [if_neg h1] at hg ⊢
        cases ha : (MergeState.aSlice s)[an / 2]? with
        | none => exact ⟨fun b e => (by cases e), fun _ => h.refl s⟩
        | some a =>
          simp only [ha] at hg
          simp only
          by_cases h2 : (MergeState.bSlice s).length < bn
          · simp only [if_pos h2]; exact ⟨fun b e => (by cases e), fun _ => h.refl s⟩
          · simp only [if_neg h2] at hg ⊢
            have hb : Plain (binarySearchBy (fun b => do let o ← op.cmp a b; pure o.swap) ((MergeState.bSlice s).take bn))
                (Verif.binarySearchBy (fun b => (op'.cmp a b).swap) ((MergeState.bSlice s).take bn)) :=
              binarySearchBy_plain fun b _ => (h.cmp a b).bind (Plain.pure _)
            have hp : ∀ bm s', Verif.binaryMerge op' s (an / 2) bm = (s', .cont) → I s' := fun bm => (h.plain (an / 2) bm s hs).2
            have hb := hb w
            rcases hq : binarySearchBy (fun b => do let o ← op.cmp a b; pure o.swap) ((MergeState.bSlice s).take bn) w with ⟨q, w'⟩
            rw [hq] at hb
            cases q with
            | panic => exact ⟨fun b e => (by cases e), fun _ => hg⟩
            | fault => exact ⟨fun b e => (by cases e), fun e => (by cases e)⟩
            | ret r =>
              rw [← hb r rfl]
              cases r with
              | found bm =>
                refine (ih (an / 2) (by omega) bm s w' hs).andThen h.trans (fun m e => ?_) fun m w e => ?_
                · exact andThen_grow h.trans (h.growC m (hp _ m e)) fun m' e' => (h.plain _ _ m' (h.keepC m m' (hp _ m e) e')).1
                · refine (h.collision m w (hp _ m e)).andThen h.trans (fun m' e' => (h.plain _ _ m' (h.keepC m m' (hp _ m e) e')).1) fun m' w e' => ?_
                  exact ih _ (by omega) _ m' w (h.keepC m m' (hp _ m e) e')
              | notFound bi =>
                refine (ih (an / 2) (by omega) bi s w' hs).andThen h.trans (fun m e => ?_) fun m w e => ?_
                · exact andThen_grow h.trans (h.growA m 1 (hp _ m e)) fun m' e' => (h.plain _ _ m' (h.keepA m 1 m' (hp _ m e) e')).1
                · rw [h.fromA]
                  refine (Along.step h.refl _ w).andThen h.trans (fun m' e' => (h.plain _ _ m' (h.keepA m 1 m' (hp _ m e) e')).1) fun m' w e' => ?_
                  exact ih _ (by omega) _ m' w (h.keepA m 1 m' (hp _ m e) e')

theorem driveAll_agrees {G : σ → σ → Prop} {I : σ → Prop} {op : HOp W σ A B} {op' : MergeOp σ A B} (h : Sim G I op op') (s : σ) (w : W) (hs : I s) :
    Along G (driveAll op s w) (Verif.mergeAll op' s) := drive_agrees h _ _ s w hs

end driver
end Hostile
end Verif
