import Verif.Lemmas.RadixEffectsPure
import Verif.Props.RadixEffects
/-!
# C83: on what, in which order and how often the combinations into a new radix tree call their closure

The closure may have side effects (a state of any type `S` that every call reads and changes) and may panic; a panic loses the new tree, and the
two trees combined are borrowed and unchanged anyway.
-/
namespace Verif
namespace Tree
open Std

variable {K V W S : Type} [Ord K] [TransOrd K] [LawfulEqOrd K] [DecidableEq K]

/-- **C83 (outer_combine, and so union).** The closure is called on exactly the values the two trees have under the same key, once for each such key, by
ascending key, until it panics. The new tree has the answers, under the keys they were given for, and the entries only one of the trees has. -/
theorem C83_outer_combine (a b : Tree K V) (ha : Valid a) (hb : Valid b) (f : V → V → S → Call (Option V) × S) (c : S) :
    ∃ args, InKeyOrder (Common a b) args ∧
      ∀ log c' p, fillEach (fun x s => created (f x.2.1 x.2.2 s)) args c = (log, c', p) →
        (p = true → a.outerCombineE b f c = (.panic, c')) ∧
        (p = false → ∃ r, a.outerCombineE b f c = (.ret r, c') ∧ Valid r ∧ (Canonical a → Canonical b → Canonical r) ∧
          ∀ k v, Entry r k v ↔ OuterAfter a b log k v) := by
  refine ⟨_, asks_order ha hb, fun log c' p h => ?_⟩
  have r := outer_run_pure ha hb f c log c' p h
  exact ⟨r.stopped, r.done⟩

/-- **C83 (inner_combine, and so intersection).** The same calls; the new tree has just the answers. -/
theorem C83_inner_combine (a : Tree K V) (b : Tree K W) (ha : Valid a) (hb : Valid b) (f : V → W → S → Call (Option V) × S) (c : S) :
    ∃ args, InKeyOrder (Common a b) args ∧
      ∀ log c' p, fillEach (fun x s => created (f x.2.1 x.2.2 s)) args c = (log, c', p) →
        (p = true → a.innerCombineE b f c = (.panic, c')) ∧
        (p = false → ∃ r, a.innerCombineE b f c = (.ret r, c') ∧ Valid r ∧ (Canonical a → Canonical b → Canonical r) ∧
          ∀ k v, Entry r k v ↔ InnerAfter log k v) := by
  refine ⟨_, asks_order ha hb, fun log c' p h => ?_⟩
  have r := inner_run_pure ha hb f c log c' p h
  exact ⟨r.stopped, r.done⟩

/-- **C83 (left_combine, and so difference).** By ascending key, the closure is called for the keys of `a` that `b` has too, with both values, and also,
with `None`, for those keys of `a` at which the keys of `b` merely fork (`AskedAnyway`), but not for the other keys of `a`, whose entries are taken as they
are. -/
theorem C83_left_combine (a : Tree K V) (b : Tree K W) (ha : Valid a) (hb : Canonical b) (f : V → Option W → S → Call (Option V) × S) (c : S) :
    ∃ args, InKeyOrder (LeftOffered a b) args ∧
      ∀ log c' p, fillEach (fun x s => created (f x.2.1 x.2.2 s)) args c = (log, c', p) →
        (p = true → a.leftCombineE b f c = (.panic, c')) ∧
        (p = false → ∃ r, a.leftCombineE b f c = (.ret r, c') ∧ Valid r ∧ (Canonical a → Canonical r) ∧
          ∀ k v, Entry r k v ↔ LeftCombined a b log k v) := by
  refine ⟨_, left_order ha hb, fun log c' p h => ?_⟩
  have r := left_run_pure ha hb f c log c' p h
  refine ⟨r.stopped, fun hp => ?_⟩
  obtain ⟨t, h1, h2, h3, h4⟩ := r.done hp
  exact ⟨t, h1, h2, fun ca => h3 ca hb, h4⟩

/-! ## Concrete cases -/

/-- number the calls: the `n`-th call answers `100 * n` plus the right value (or 7); panics if `stop = n` -/
def numberingPure (stop : Nat) (_ : Nat) (w : Nat) (n : Nat) : Call (Option Nat) × Nat :=
  (if n = stop then .panic else .ret (some (100 * n + w)), n + 1)

private theorem ret_eq {r : Call (Tree Nat Nat) × Nat} {t : Tree Nat Nat} {n : Nat}
    (h : (match r.1 with | .ret u => treeEq (· == ·) u t | .panic => false) = true) (hn : r.2 = n) : r = (.ret t, n) := by
  obtain ⟨o, m⟩ := r
  cases o with
  | panic => simp at h
  | ret u => simp only at h hn; rw [eq_of_treeEq u t h, hn]

example : effDemo.outerCombineE effDemo' (numberingPure 7) 0 =
    (.ret ⟨[1], none, [⟨[2], some 1, []⟩, ⟨[3], some 30, []⟩, ⟨[4], some 102, []⟩, ⟨[5], some 3, []⟩]⟩, 2) :=
  ret_eq (by decide +kernel) (by decide +kernel)
example : effDemo.innerCombineE effDemo' (numberingPure 7) 0 = (.ret ⟨[1], none, [⟨[2], some 1, []⟩, ⟨[4], some 102, []⟩]⟩, 2) :=
  ret_eq (by decide +kernel) (by decide +kernel)
/-- the closure is asked about the key `[1]`, which the right tree does not have, but not about `[1,3]`, which it does not have either -/
example : (⟨[1], some 10, [⟨[2], some 20, []⟩, ⟨[3], some 30, []⟩]⟩ : Tree Nat Nat).leftCombineE effDemo'
      (fun v w => numberingPure 7 v (w.getD 7)) 0 =
    (.ret ⟨[1], some 7, [⟨[2], some 101, []⟩, ⟨[3], some 30, []⟩]⟩, 2) :=
  ret_eq (by decide +kernel) (by decide +kernel)
example : AskedAnyway effDemo' [1] ∧ ¬ AskedAnyway effDemo' [1, 3] := by
  have ne : ∀ k, HasEntry effDemo' k → k = [1, 2] ∨ k = [1, 4] ∨ k = [1, 5] := by
    rintro k ⟨v, h⟩
    cases h with
    | there h1 h2 =>
      simp at h1
      rcases h1 with rfl | rfl | rfl <;> cases h2 <;> simp_all
  have h2 : HasEntry effDemo' [1, 2] := ⟨1, .there (c := ⟨[2], some 1, []⟩) (by simp) .here⟩
  have h4 : HasEntry effDemo' [1, 4] := ⟨2, .there (c := ⟨[4], some 2, []⟩) (by simp) .here⟩
  refine ⟨⟨fun h => ?_, .inl ⟨2, 4, [], [], by decide, h2, h4⟩⟩, ?_⟩
  · simpa using ne _ h
  · rintro ⟨_, ⟨c, d, s, s', _, h, _⟩ | ⟨h, _⟩⟩
    · simpa using ne _ h
    · simp at h
example : (effDemo.outerCombineE effDemo' (numberingPure 1) 0).2 = 2 := by decide +kernel

end Tree
end Verif
