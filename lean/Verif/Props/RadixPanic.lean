import Verif.Lemmas.RadixPanic
import Verif.Lemmas.RadixMisc
/-!
# C70: in-place combinations of radix trees whose closure panics

The closure is an arbitrary function of the two values; it may panic for some of them, after changing the left value. The panic unwinds through the
recursion; on the way every vector of children that is being rebuilt is dropped down to the part already built. A caller that catches the panic
still has the tree.
-/
namespace Verif
namespace Tree
open Std
variable {K : Type} [Ord K] [TransOrd K] [LawfulEqOrd K] [DecidableEq K] {V W : Type}

/-- **C70.** `outer_combine_with`. Let `T` be the tree that results if the closure keeps the value wherever `f` panics. Then either nothing panicked
(there is no key for which `f` panics) and the result is `T`, or the combination panicked and leaves a valid tree: exactly the part of `T` before the
branch in which `f` panicked first, or, if the very first call panicked, the original tree with just that value changed. -/
theorem C70_outer (a b : Tree K V) (ha : Valid a) (hb : Valid b) (f : MutFn V V) :
    ∃ T, a.outerCombineWith b (completed true f) = (T, .cont) ∧
      ((a.outerCombineWith b f = (T, .cont) ∧ ¬Pan f a b) ∨
        ((a.outerCombineWith b f).2 = .panic ∧ Valid (a.outerCombineWith b f).1 ∧
          (StoppedAt f a b (a.outerCombineWith b f).1 T ∨ FirstCallPanicked f a b (a.outerCombineWith b f).1))) :=
  ⟨_, outerWithGo_eq (completed_noPanic true f) _ a b ha hb (by omega), outerWithGo_part ha hb⟩

/-- **C70.** `inner_combine_with` -/
theorem C70_inner (a : Tree K V) (b : Tree K W) (ha : Valid a) (hb : Valid b) (f : MutFn V W) :
    ∃ T, a.innerCombineWith b (completed true f) = (T, .cont) ∧
      ((a.innerCombineWith b f = (T, .cont) ∧ ¬Pan f a b) ∨
        ((a.innerCombineWith b f).2 = .panic ∧ Valid (a.innerCombineWith b f).1 ∧
          (StoppedAt f a b (a.innerCombineWith b f).1 T ∨ FirstCallPanicked f a b (a.innerCombineWith b f).1))) :=
  ⟨_, innerWithGo_eq (completed_noPanic true f) _ a b ha hb (by omega), innerWithGo_part ha hb⟩

/-- **C70.** `left_combine_with` -/
theorem C70_left (a : Tree K V) (b : Tree K W) (ha : Valid a) (hb : Valid b) (f : MutFn V W) :
    ∃ T, a.leftCombineWith b (completed true f) = (T, .cont) ∧
      ((a.leftCombineWith b f = (T, .cont) ∧ ¬Pan f a b) ∨
        ((a.leftCombineWith b f).2 = .panic ∧ Valid (a.leftCombineWith b f).1 ∧
          (StoppedAt f a b (a.leftCombineWith b f).1 T ∨ FirstCallPanicked f a b (a.leftCombineWith b f).1))) :=
  ⟨_, leftWithGo_eq (completed_noPanic true f) _ a b ha hb (by omega), leftWithGo_part ha hb⟩

private theorem panics_iff_pan {f : MutFn V W} {a : Tree K V} {b : Tree K W} {r : Tree K V × Flow} {T : Tree K V} (h : Outcome f a b r T) :
    r.2 = .panic ↔ Pan f a b := by
  rcases h.first with ⟨rfl, hn⟩ | ⟨h1, k, ⟨v, w, h2⟩, _⟩
  · exact ⟨fun e => absurd e (by simp), fun e => absurd e hn⟩
  · exact ⟨fun _ => ⟨k, v, w, h2⟩, fun _ => h1⟩

/-- **C70.** The three combinations panic if and only if `f` panics for (the values of) some key that both trees have. -/
theorem C70_panics_iff (a : Tree K V) (b : Tree K W) (b' : Tree K V) (ha : Valid a) (hb : Valid b) (hb' : Valid b') (f : MutFn V W) (f' : MutFn V V) :
    ((a.outerCombineWith b' f').2 = .panic ↔ Pan f' a b') ∧
    ((a.innerCombineWith b f).2 = .panic ↔ Pan f a b) ∧
    ((a.leftCombineWith b f).2 = .panic ↔ Pan f a b) :=
  ⟨panics_iff_pan (outerWithGo_part (u := true) ha hb'), panics_iff_pan (innerWithGo_part (u := true) ha hb),
    panics_iff_pan (leftWithGo_part (u := true) ha hb)⟩

/-- **C70.** What can be in the tree after a panic, without reference to completed runs: every entry is an untouched entry of `self`, an entry of
`that` (only `outer_combine_with`), or an entry under a common key, with the value `f` computed. No key is invented. -/
theorem C70_no_invention (a : Tree K V) (b : Tree K W) (b' : Tree K V) (ha : Valid a) (hb : Valid b) (hb' : Valid b') (f : MutFn V W)
    (f' : MutFn V V) (k : List K) (v : V) :
    (Entry (a.outerCombineWith b' f').1 k v → Entry a k v ∨ Entry b' k v ∨ ∃ x y, Entry a k x ∧ Entry b' k y ∧ v = (f' x y).1) ∧
    (Entry (a.innerCombineWith b f).1 k v → Entry a k v ∨ ∃ x y, Entry a k x ∧ Entry b k y ∧ v = (f x y).1) ∧
    (Entry (a.leftCombineWith b f).1 k v → Entry a k v ∨ ∃ x y, Entry a k x ∧ Entry b k y ∧ v = (f x y).1) := by
  have pf : ∀ {W : Type} (f : MutFn V W) x y, pureOf (completed true f) x y = some v → v = (f x y).1 := by
    intro W f x y h
    rcases hf : f x y with ⟨z, c⟩
    cases c with
    | panic => simp [pureOf, completed, hf] at h; exact h.symm
    | ret c => cases c <;> simp [pureOf, completed, hf] at h; exact h.symm
  have first : ∀ {W : Type} {f : MutFn V W} {b : Tree K W} {t : Tree K V}, FirstCallPanicked f a b t → Entry t k v →
      Entry a k v ∨ ∃ x y, Entry a k x ∧ Entry b k y ∧ v = (f x y).1 := by
    rintro W f b t ⟨k0, x, y, h1, h2, h3, h4, h5⟩ he
    rcases (h5 k v).1 he with ⟨rfl, rfl⟩ | ⟨_, h⟩
    · exact .inr ⟨x, y, h1, h2, rfl⟩
    · exact .inl h
  refine ⟨fun he => ?_, fun he => ?_, fun he => ?_⟩
  · obtain ⟨T, hT, h⟩ := C70_outer a b' ha hb' f'
    have spec := ref_spec (outerPar_good (pureOf (completed true f'))) denObs_laws (a.size + b'.size + 1) a b' ha hb' (by omega)
    have e : T = ref (outerPar (pureOf (completed true f'))) (a.size + b'.size + 1) a b' := by
      have := hT.symm.trans (outerWithGo_eq (completed_noPanic true f') _ a b' ha hb' (by omega))
      exact congrArg Prod.fst this
    have main : Entry T k v → Entry a k v ∨ Entry b' k v ∨ ∃ x y, Entry a k x ∧ Entry b' k y ∧ v = (f' x y).1 := by
      intro h
      rw [e, ← den_iff_entry spec.1] at h
      have p := spec.2.1 k
      rw [h] at p
      simp only [← den_iff_entry ha, ← den_iff_entry hb']
      cases hx : den a k with
      | none =>
        cases hy : den b' k with
        | none => simp [denObs, hx, hy, outerPureVal] at p
        | some y => simp [denObs, hx, hy, outerPureVal] at p; exact .inr (.inl (by rw [p]))
      | some x =>
        cases hy : den b' k with
        | none => simp [denObs, hx, hy, outerPureVal] at p; exact .inl (by rw [p])
        | some y =>
          simp only [denObs, hx, hy, outerPureVal] at p
          exact .inr (.inr ⟨x, y, rfl, rfl, pf f' x y p.symm⟩)
    rcases h with h | ⟨_, _, ⟨_, _, _, _, _, _, h⟩ | h⟩
    · rw [h.1] at he; exact main he
    · exact main ((h k v).1 he).1
    · rcases first h he with h | h
      · exact .inl h
      · exact .inr (.inr h)
  · obtain ⟨T, hT, h⟩ := C70_inner a b ha hb f
    have spec := ref_spec (innerPar_good (pureOf (completed true f))) denObs_laws (a.size + b.size + 1) a b ha hb (by omega)
    have e : T = ref (innerPar (pureOf (completed true f))) (a.size + b.size + 1) a b := by
      have := hT.symm.trans (innerWithGo_eq (completed_noPanic true f) _ a b ha hb (by omega))
      exact congrArg Prod.fst this
    have main : Entry T k v → Entry a k v ∨ ∃ x y, Entry a k x ∧ Entry b k y ∧ v = (f x y).1 := by
      intro h
      rw [e, ← den_iff_entry spec.1] at h
      have p := spec.2.1 k
      rw [h] at p
      simp only [← den_iff_entry ha, ← den_iff_entry hb]
      cases hx : den a k with
      | none => cases hy : den b k <;> simp [denObs, hx, hy, innerPureVal] at p
      | some x =>
        cases hy : den b k with
        | none => simp [denObs, hx, hy, innerPureVal] at p
        | some y =>
          simp only [denObs, hx, hy, innerPureVal] at p
          exact .inr ⟨x, y, rfl, rfl, pf f x y p.symm⟩
    rcases h with h | ⟨_, _, ⟨_, _, _, _, _, _, h⟩ | h⟩
    · rw [h.1] at he; exact main he
    · exact main ((h k v).1 he).1
    · exact first h he
  · obtain ⟨T, hT, h⟩ := C70_left a b ha hb f
    have spec := ref_spec (leftMutPar_good (pureOf (completed true f))) denObs_laws (a.size + b.size + 1) a b ha hb (by omega)
    have e : T = ref (leftPar (leftMutVal (pureOf (completed true f)))) (a.size + b.size + 1) a b := by
      have := hT.symm.trans (leftWithGo_eq (completed_noPanic true f) _ a b ha hb (by omega))
      exact congrArg Prod.fst this
    have main : Entry T k v → Entry a k v ∨ ∃ x y, Entry a k x ∧ Entry b k y ∧ v = (f x y).1 := by
      intro h
      rw [e, ← den_iff_entry spec.1] at h
      have p := spec.2.1 k
      rw [h] at p
      simp only [← den_iff_entry ha, ← den_iff_entry hb]
      cases hx : den a k with
      | none => cases hy : den b k <;> simp [denObs, hx, hy, leftMutVal] at p
      | some x =>
        cases hy : den b k with
        | none => simp [denObs, hx, hy, leftMutVal] at p; exact .inl (by rw [p])
        | some y =>
          simp only [denObs, hx, hy, leftMutVal, Option.bind_some] at p
          exact .inr ⟨x, y, rfl, rfl, pf f x y p.symm⟩
    rcases h with h | ⟨_, _, ⟨_, _, _, _, _, _, h⟩ | h⟩
    · rw [h.1] at he; exact main he
    · exact main ((h k v).1 he).1
    · exact first h he

/-! ### What is lost -/

/-- keys `[1,2]`, `[1,3]`, `[1,4]` -/
def panicDemo : Tree Nat Nat := ⟨[1], none, [⟨[2], some 20, []⟩, ⟨[3], some 30, []⟩, ⟨[4], some 40, []⟩]⟩

/-- **C70, counterexample.** A panic is not atomic: combining in place with a tree that has only the key `[1,3]` and a closure that panics (without
touching the value) loses the entry `[1,3]` and also `[1,4]`, which the other tree does not even have; and the tree that remains is not canonical: it
differs (`==`) from the tree with the same one entry. -/
theorem C70_counterexample :
    Canonical panicDemo ∧ HasEntry panicDemo [1, 3] ∧ HasEntry panicDemo [1, 4] ∧
    panicDemo.outerCombineWith (single [1, 3] 0) (fun v _ => (v, .panic)) = (⟨[1], none, [⟨[2], some 20, []⟩]⟩, .panic) ∧
    ¬Canonical (⟨[1], none, [⟨[2], some 20, []⟩]⟩ : Tree Nat Nat) ∧
    (∀ k v, Entry (⟨[1], none, [⟨[2], some 20, []⟩]⟩ : Tree Nat Nat) k v ↔ Entry (single [1, 2] 20) k v) ∧
    treeEq (· == ·) (⟨[1], none, [⟨[2], some 20, []⟩]⟩ : Tree Nat Nat) (single [1, 2] 20) = false := by
  have vl : ∀ x v, Valid (⟨[x], some v, []⟩ : Tree Nat Nat) := fun x v => valid_iff.2 Kids.nil
  have fl : ∀ x v, Full (⟨[x], some v, []⟩ : Tree Nat Nat) := fun x v => full_iff.2 ⟨by simp, by simp⟩
  have v1 : Valid (⟨[1], none, [⟨[2], some 20, []⟩]⟩ : Tree Nat Nat) := valid_iff.2 (Kids.single (vl _ _) (by simp))
  refine ⟨⟨valid_iff.2 ⟨?_, ?_, ?_⟩, .inr (full_iff.2 ⟨by simp [panicDemo], ?_⟩)⟩, ⟨30, ?_⟩, ⟨40, ?_⟩, ?_, ?_, ?_, ?_⟩
  · simp [panicDemo]
  · simp [panicDemo, AscendingBy, hd]
    decide
  · simp [panicDemo, vl]
  · simp [panicDemo, fl]
  · exact .there (c := ⟨[3], some 30, []⟩) (by simp) .here
  · exact .there (c := ⟨[4], some 40, []⟩) (by simp) .here
  · exact Prod.ext (eq_of_treeEq _ _ (by decide +kernel)) (by decide +kernel)
  · rintro ⟨_, h | h⟩
    · simp [empty] at h
    · simpa using (full_iff.1 h).1 rfl
  · intro k v
    constructor
    · intro h
      cases h with
      | there h1 h2 =>
        simp at h1; subst h1
        cases h2 with
        | here => exact .here
        | there h _ => simp at h
    · intro h
      cases h with
      | here => exact .there (c := ⟨[2], some 20, []⟩) (by simp) .here
      | there h _ => simp at h
  · decide +kernel

/-- the theorem above is about this case: the complete result has three entries, `[1,3]` is the first key for which the closure panics, and what
remains is what comes before it -/
example : StoppedAt (fun v _ => (v, .panic)) panicDemo (single [1, 3] 0) (⟨[1], none, [⟨[2], some 20, []⟩]⟩ : Tree Nat Nat) panicDemo := by
  have h := C70_outer panicDemo (single [1, 3] 0) C70_counterexample.1.1 (valid_iff.2 Kids.nil) (fun v _ => (v, .panic))
  obtain ⟨T, hT, h⟩ := h
  have e : T = panicDemo := by
    have := congrArg Prod.fst hT
    rw [← show _ = T from this]
    exact eq_of_treeEq _ _ (by decide +kernel)
  rw [e, C70_counterexample.2.2.2.1] at h
  rcases h with ⟨h, _⟩ | ⟨_, _, h | ⟨k, v, w, h1, h2, _, h4, _⟩⟩
  · exact absurd (congrArg Prod.snd h) (by simp)
  · exact h
  · exfalso
    have e2 : k = [1, 3] := by
      cases h2 with
      | here => rfl
      | there h _ => simp at h
    subst e2
    rcases h4 [1, 2] (.inl ⟨20, .there (c := ⟨[2], some 20, []⟩) (by simp) .here⟩) with h | h
    · simp at h
    · have := lexLt_heads (p := [1]) (k := [3]) (k' := [2]) rfl rfl h
      exact this (by decide)

end Tree
end Verif
