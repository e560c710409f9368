import Verif.Lemmas.RadixEffects
/-!
# C82: on what, in which order and how often the in-place combinations of radix trees call their closure, and what a panic leaves behind

The closure may have side effects (a state of any type `S` that every call reads and changes), may change the value it is given, and may panic.
-/
namespace Verif
namespace Tree
open Std

variable {K V W S : Type} [Ord K] [TransOrd K] [LawfulEqOrd K] [DecidableEq K]

/-- **C82 (outer_combine_with, and so union_with).** The closure is called on exactly the values the two trees have under the same key, once for each
such key, by ascending key, until it panics; its state afterwards is that after these calls. Without a panic the tree has what the calls left and the
entries only one of the trees has. After a panic the tree is still valid and holds what `Interrupted` says. -/
theorem C82_outer_combine_with (a b : Tree K V) (ha : Valid a) (hb : Valid b) (f : MutFnE S V V) (c : S) :
    ∃ args, InKeyOrder (Common a b) args ∧
      ∀ log c' p, fillEach (fun x s => keptSlot (f x.2.1 x.2.2 s)) args c = (log, c', p) →
        (a.outerCombineWithE b f c).1.2 = c' ∧ (a.outerCombineWithE b f c).2 = (if p then .panic else .cont) ∧
        Valid (a.outerCombineWithE b f c).1.1 ∧
        (p = false → (∀ k v, Entry (a.outerCombineWithE b f c).1.1 k v ↔ OuterAfter a b log k v) ∧
          (Canonical a → Canonical b → Canonical (a.outerCombineWithE b f c).1.1)) ∧
        (p = true → Interrupted a b log (OuterAfter a b log) (a.outerCombineWithE b f c).1.1) := by
  refine ⟨_, asks_order ha hb, fun log c' p h => ?_⟩
  have r := outer_run ha hb f c log c' p h
  exact ⟨r.st, r.fl, r.valid, fun hp => ⟨r.done hp, r.canon hp⟩, r.stopped⟩

/-- **C82 (inner_combine_with, and so intersection_with).** The same calls; without a panic the tree has just what the calls left. -/
theorem C82_inner_combine_with (a : Tree K V) (b : Tree K W) (ha : Valid a) (hb : Valid b) (f : MutFnE S V W) (c : S) :
    ∃ args, InKeyOrder (Common a b) args ∧
      ∀ log c' p, fillEach (fun x s => keptSlot (f x.2.1 x.2.2 s)) args c = (log, c', p) →
        (a.innerCombineWithE b f c).1.2 = c' ∧ (a.innerCombineWithE b f c).2 = (if p then .panic else .cont) ∧
        Valid (a.innerCombineWithE b f c).1.1 ∧
        (p = false → (∀ k v, Entry (a.innerCombineWithE b f c).1.1 k v ↔ InnerAfter log k v) ∧
          (Canonical a → Canonical b → Canonical (a.innerCombineWithE b f c).1.1)) ∧
        (p = true → Interrupted a b log (InnerAfter log) (a.innerCombineWithE b f c).1.1) := by
  refine ⟨_, asks_order ha hb, fun log c' p h => ?_⟩
  have r := inner_run ha hb f c log c' p h
  exact ⟨r.st, r.fl, r.valid, fun hp => ⟨r.done hp, r.canon hp⟩, r.stopped⟩

/-- **C82 (left_combine_with, and so difference_with).** The same calls; without a panic the tree has what the calls left and the entries only the
left tree has. -/
theorem C82_left_combine_with (a : Tree K V) (b : Tree K W) (ha : Valid a) (hb : Valid b) (f : MutFnE S V W) (c : S) :
    ∃ args, InKeyOrder (Common a b) args ∧
      ∀ log c' p, fillEach (fun x s => keptSlot (f x.2.1 x.2.2 s)) args c = (log, c', p) →
        (a.leftCombineWithE b f c).1.2 = c' ∧ (a.leftCombineWithE b f c).2 = (if p then .panic else .cont) ∧
        Valid (a.leftCombineWithE b f c).1.1 ∧
        (p = false → (∀ k v, Entry (a.leftCombineWithE b f c).1.1 k v ↔ LeftAfter a b log k v) ∧
          (Canonical a → Canonical b → Canonical (a.leftCombineWithE b f c).1.1)) ∧
        (p = true → Interrupted a b log (LeftAfter a b log) (a.leftCombineWithE b f c).1.1) := by
  refine ⟨_, asks_order ha hb, fun log c' p h => ?_⟩
  have r := left_run ha hb f c log c' p h
  exact ⟨r.st, r.fl, r.valid, fun hp => ⟨r.done hp, r.canon hp⟩, r.stopped⟩

/-! ## Concrete cases -/

/-- entries `[1,2] ↦ 20`, `[1,3] ↦ 30`, `[1,4] ↦ 40` -/
def effDemo : Tree Nat Nat := ⟨[1], none, [⟨[2], some 20, []⟩, ⟨[3], some 30, []⟩, ⟨[4], some 40, []⟩]⟩
/-- entries `[1,2] ↦ 1`, `[1,4] ↦ 2`, `[1,5] ↦ 3` -/
def effDemo' : Tree Nat Nat := ⟨[1], none, [⟨[2], some 1, []⟩, ⟨[4], some 2, []⟩, ⟨[5], some 3, []⟩]⟩

/-- number the calls: the `n`-th call writes `100 * n` plus the right value; keeps the entry unless `stop = n`, when it panics -/
def numbering (stop : Nat) : MutFnE Nat Nat Nat := fun _ w n => (100 * n + w, if n = stop then .panic else .ret true, n + 1)

theorem effDemo_valid : Valid effDemo ∧ Valid effDemo' := by
  have vl : ∀ x v, Valid (⟨[x], some v, []⟩ : Tree Nat Nat) := fun x v => valid_iff.2 Kids.nil
  refine ⟨valid_iff.2 ⟨?_, ?_, ?_⟩, valid_iff.2 ⟨?_, ?_, ?_⟩⟩
  · simp [effDemo]
  · simp [effDemo, AscendingBy, hd]; decide
  · simp [effDemo, vl]
  · simp [effDemo']
  · simp [effDemo', AscendingBy, hd]; decide
  · simp [effDemo', vl]

/-- two calls, for `[1,2]` and then `[1,4]` -/
example : effDemo.outerCombineWithE effDemo' (numbering 7) 0 =
    ((⟨[1], none, [⟨[2], some 1, []⟩, ⟨[3], some 30, []⟩, ⟨[4], some 102, []⟩, ⟨[5], some 3, []⟩]⟩, 2), .cont) :=
  Prod.ext (Prod.ext (eq_of_treeEq _ _ (by decide +kernel)) (by decide +kernel)) (by decide +kernel)
example : effDemo.innerCombineWithE effDemo' (numbering 7) 0 = ((⟨[1], none, [⟨[2], some 1, []⟩, ⟨[4], some 102, []⟩]⟩, 2), .cont) :=
  Prod.ext (Prod.ext (eq_of_treeEq _ _ (by decide +kernel)) (by decide +kernel)) (by decide +kernel)
/-- the second call panics: `[1,4]` and everything after it is gone, the state is that after two calls -/
example : effDemo.leftCombineWithE effDemo' (numbering 1) 0 = ((⟨[1], none, [⟨[2], some 1, []⟩, ⟨[3], some 30, []⟩]⟩, 2), .panic) :=
  Prod.ext (Prod.ext (eq_of_treeEq _ _ (by decide +kernel)) (by decide +kernel)) (by decide +kernel)

end Tree
end Verif
