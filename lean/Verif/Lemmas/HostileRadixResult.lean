import Verif.Lemmas.HostileRadixLike
import Verif.Lemmas.RadixPrefixGo
/-! # Keys that answer like a total order if they answer at all: what a panic leaves behind, combinations into a new tree, and questions -/
namespace Verif
open Std
namespace Tree
variable {K V X : Type} [Ord K] [DecidableEq K] [TransOrd K] [LawfulEqOrd K]

/-- the tree before the final `unsplit` is valid -/
theorem go_cases_valid {O : Type} {P : Par K V X} {o : Obs K X O} {H : Option V → O → Option V → Prop} (G : Good P o H) (L : ObsLaws o P.stop)
    {f : MutFn V X} {go : Nat → Tree K V → Tree K X → Tree K V × Flow}
    {cases : (Tree K V → Tree K X → Tree K V × Flow) → Tree K V → Tree K X → Tree K V × Flow}
    (hgo : ∀ fuel a b, go (fuel + 1) a b = finish (cases (go fuel) a b))
    (hcases : ∀ (rec : Tree K V → Tree K X → Tree K V × Flow) r a b, Valid a → Valid b → AgreeP f rec r (a.size + b.size) →
      Partly f a b (cases rec a b) (refCases P r (commonPrefix a.pre b.pre) a b)) {a : Tree K V} {b : Tree K X} (ha : Valid a) (hb : Valid b) :
    Valid (cases (go (a.size + b.size)) a b).1 := by
  obtain ⟨m, hm⟩ : ∃ m, a.size + b.size = m + 1 := ⟨a.size + b.size - 1, by have := size_eq a; omega⟩
  have S := refCases_valid G L (fuel := m + 1) ha hb (by omega)
  rw [hm]
  rcases hcases (go (m + 1)) (ref P (m + 1)) a b ha hb (by
    intro x y hx hy h
    exact ⟨(go_part G L hgo hcases m x y hx hy (by omega)).first, (ref_spec G L (m + 1) x y hx hy (by omega)).2.2.1⟩) S with ⟨e, -⟩ | ⟨-, ⟨h, -⟩ | h⟩
  · rw [e]; exact S
  · exact h
  · exact (root_part ha h).1

theorem outerWithCases_valid {f : MutFn V V} {a b : Tree K V} (ha : Valid a) (hb : Valid b) :
    Valid (outerWithCases (outerWithOp (outerWithGo f (a.size + b.size))) f (commonPrefix a.pre b.pre) a b).1 :=
  go_cases_valid (outerPar_good (pureOf (completed true f))) denObs_laws (go := outerWithGo f)
    (cases := fun rec a b => outerWithCases (outerWithOp rec) f (commonPrefix a.pre b.pre) a b) (fun _ _ _ => rfl)
    (fun _ _ _ _ ha hb h => outerWithCases_part ha hb h) ha hb
theorem innerWithCases_valid {f : MutFn V X} {a : Tree K V} {b : Tree K X} (ha : Valid a) (hb : Valid b) :
    Valid (innerWithCases (innerWithOp (innerWithGo f (a.size + b.size))) f (commonPrefix a.pre b.pre) a b).1 :=
  go_cases_valid (innerPar_good (pureOf (completed true f))) denObs_laws (go := innerWithGo f)
    (cases := fun rec a b => innerWithCases (innerWithOp rec) f (commonPrefix a.pre b.pre) a b) (fun _ _ _ => rfl)
    (fun _ _ _ _ ha hb h => innerWithCases_part ha hb h) ha hb
theorem leftWithCases_valid {f : MutFn V X} {a : Tree K V} {b : Tree K X} (ha : Valid a) (hb : Valid b) :
    Valid (leftWithCases (leftWithOp (leftWithGo f (a.size + b.size))) f (commonPrefix a.pre b.pre) a b).1 :=
  go_cases_valid (leftMutPar_good (pureOf (completed true f))) denObs_laws (go := leftWithGo f)
    (cases := fun rec a b => leftWithCases (leftWithOp rec) f (commonPrefix a.pre b.pre) a b) (fun _ _ _ => rfl)
    (fun _ _ _ _ ha hb h => leftWithCases_part ha hb h) ha hb
theorem removePrefixCases_valid {f : X → Bool} {a : Tree K V} {b : Tree K X} (ha : Valid a) (hb : Valid b) :
    Valid (removePrefixCases (removePrefixOp (removePrefixGo f (a.size + b.size))) f (commonPrefix a.pre b.pre) a b).1 := by
  rw [removePrefixCases_eq (r := ref (removePar f) (a.size + b.size)) ha hb
    (fun x y h => removePrefixGo_eq _ x y h.left h.right h.size)]
  exact refCases_valid (removePar_good f) (coverObs_laws f) ha hb (by omega)
theorem retainPrefixCases_valid {f : X → Bool} {a : Tree K V} {b : Tree K X} (ha : Valid a) (hb : Valid b) :
    Valid (retainPrefixCases (retainPrefixOp (retainPrefixGo f (a.size + b.size))) f (commonPrefix a.pre b.pre) a b).1 := by
  rw [retainPrefixCases_eq (r := ref (retainPar f) (a.size + b.size)) ha hb
    (fun x y h => retainPrefixGo_eq _ x y h.left h.right h.size)]
  exact refCases_valid (retainPar_good f) (coverObs_laws f) ha hb (by omega)

end Tree

namespace Hostile
namespace Radix
variable {W K V X : Type} [Ord K] [DecidableEq K] [TransOrd K] [LawfulEqOrd K]

/-- the children of the one are children of the other -/
theorem entry_of_kids {t t' : Tree K V} (hp : t.pre = t'.pre) (hv : t.val = t'.val) (hk : ∀ c ∈ t.kids, c ∈ t'.kids) {key : List K} {v : V}
    (h : Tree.Entry t key v) : Tree.Entry t' key v := by
  rcases t with ⟨p, tv, ks⟩
  rcases t' with ⟨p', tv', ks'⟩
  cases hp; cases hv
  cases h with
  | here => exact .here
  | there h1 h2 => exact .there (hk _ h1) h2

theorem Cut.entry {sort : Sorter W (Tree K V)} {t t' : Tree K V} (h : Cut sort t t') {key : List K} {v : V} (he : Tree.Entry t key v) :
    Tree.Entry t' key v := by
  obtain ⟨h1, h2, h3⟩ := h
  refine entry_of_kids h1 h2 (fun c hc => ?_) he
  rcases h3 with h3 | ⟨-, h3⟩
  · exact h3.subset hc
  · exact h3.mem_iff.1 hc

theorem Cut.valid {sort : Sorter W (Tree K V)} {t t' : Tree K V} (h : Cut sort t t') (ht : Tree.Valid t') : Tree.Valid t ∨ SortingPanics sort := by
  obtain ⟨h1, h2, h3⟩ := h
  rcases h3 with h3 | ⟨h3, -⟩
  · left
    obtain ⟨r, e⟩ := h3
    have hk := ht.kids
    refine Tree.valid_iff.2 ⟨fun c hc => hk.ne c ?_, ?_, fun c hc => hk.valid c ?_⟩
    · rw [← e]; exact List.mem_append_left _ hc
    · have := hk.asc
      rw [← e] at this
      exact (List.pairwise_append.1 this).1
    · rw [← e]; exact List.mem_append_left _ hc
  · exact .inr h3

theorem finish_entry {q : Tree K V × Flow} (hq : Tree.Valid q.1) {key : List K} {v : V} (h : Tree.Entry q.1 key v) :
    Tree.Entry (Tree.finish q).1 key v := by
  obtain ⟨t, fl⟩ := q
  cases fl with
  | cont => exact (Tree.entry_unsplit hq key v).2 h
  | stop => exact h
  | panic => exact h

/-- what is to be shown about a combination in place -/
theorem Run.result {sort : Sorter W (Tree K V)} {x : Tree K V} {r : (Tree K V × Outcome Bool) × W} {q : Tree K V × Flow} (h : Run sort x r q)
    (hx : Tree.Valid x) (hq : Tree.Valid q.1) {t : Tree K V} {res : Outcome Bool} (e : r.1 = (t, res)) :
    (res = .ret true → Tree.finish q = (t, .cont)) ∧
    (res = .panic → (Tree.Valid t ∨ SortingPanics sort) ∧ ((∀ key v, Tree.Entry t key v → Tree.Entry x key v) ∨ ∀ key v, Tree.Entry t key v → Tree.Entry (Tree.finish q).1 key v)) := by
  obtain ⟨h1, h2⟩ := h
  rw [e] at h1 h2
  refine ⟨fun hr => h1 true hr, fun hp => ?_⟩
  rcases h2 hp with h | h
  · have h : t = x := h
    subst h
    exact ⟨.inl hx, .inl fun _ _ h => h⟩
  · exact ⟨h.valid hq, .inr fun key v he => finish_entry hq (h.entry he)⟩

end Radix
end Hostile
end Verif
