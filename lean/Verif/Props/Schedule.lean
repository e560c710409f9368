import Verif.Lemmas.Schedule
import Verif.Lemmas.SetOps
/-!
# C12: results do not depend on the merge schedule

`Legal cmp a b evs` (Verif/Spec/Schedule.lean) describes the callback sequences a correct merge driver may issue for the
ascending inputs `a`, `b`. `runEvs` issues them against a merge operation.
-/
namespace Verif
open Std
variable {T : Type _} [Ord T] [TransOrd T]

/-- the crate's four set merge operations over some merge state -/
inductive IsSetOp {σ : Type _} (m : MergeStateMut σ) : MergeOp σ T T → Prop
  | union : IsSetOp m (setUnionOp m)
  | intersection : IsSetOp m (setIntersectionOp m)
  | difference : IsSetOp m (setDiffOp m)
  | xor : IsSetOp m (setXorOp m)

/-- **C12 (sets, into a new vector).** Any two legal schedules produce the same result vector and outcome. -/
theorem C12_set_new_vector (a b : List T) (op : MergeOp (SliceMS T T T) T T)
    (hop : IsSetOp (SliceMS.mut cloneConverter cloneConverter) op) (e1 e2 : List Ev)
    (h1 : Legal compare a b e1) (h2 : Legal compare a b e2) :
    (runEvs op { a := a, b := b, r := [] } e1).1.r = (runEvs op { a := a, b := b, r := [] } e2).1.r ∧
    (runEvs op { a := a, b := b, r := [] } e1).2 = (runEvs op { a := a, b := b, r := [] } e2).2 := by
  cases hop
  all_goals first
    | exact legal_agree (setUnionOp_impl (SliceMS.advSpec _ _)) _ trivial h1 h2
    | exact legal_agree (setIntersectionOp_impl (SliceMS.advSpec _ _)) _ trivial h1 h2
    | exact legal_agree (setDiffOp_impl (SliceMS.advSpec _ _)) _ trivial h1 h2
    | exact legal_agree (setXorOp_impl (SliceMS.advSpec _ _)) _ trivial h1 h2

/-- **C12 (sets, in place).** The same for the in-place merge, for every converter (also the panicking one). -/
theorem C12_set_in_place (conv : T → Call T) (a b : List T)
    (op : MergeOp (InPlaceMS T T) T T) (hop : IsSetOp (InPlaceMS.mut conv) op) (e1 e2 : List Ev)
    (h1 : Legal compare a b e1) (h2 : Legal compare a b e2) :
    (runEvs op { tgt := [], src := a, b := b } e1).1.tgt = (runEvs op { tgt := [], src := a, b := b } e2).1.tgt ∧
    (runEvs op { tgt := [], src := a, b := b } e1).2 = (runEvs op { tgt := [], src := a, b := b } e2).2 := by
  cases hop
  all_goals first
    | exact legal_agree (setUnionOp_impl (InPlaceMS.advSpec _)) _ trivial h1 h2
    | exact legal_agree (setIntersectionOp_impl (InPlaceMS.advSpec _)) _ trivial h1 h2
    | exact legal_agree (setDiffOp_impl (InPlaceMS.advSpec _)) _ trivial h1 h2
    | exact legal_agree (setXorOp_impl (InPlaceMS.advSpec _)) _ trivial h1 h2

/-- **C12 (sets, boolean).** The same for the early-aborting boolean merge. -/
theorem C12_set_bool (a b : List T) (op : MergeOp (BoolMS T T) T T)
    (hop : IsSetOp BoolMS.mut op) (e1 e2 : List Ev) (h1 : Legal compare a b e1) (h2 : Legal compare a b e2) :
    (runEvs op { a := a, b := b, r := false } e1).1.r = (runEvs op { a := a, b := b, r := false } e2).1.r ∧
    (runEvs op { a := a, b := b, r := false } e1).2 = (runEvs op { a := a, b := b, r := false } e2).2 := by
  have fin : ∀ {x y : Bool}, (if x then [()] else []) = (if y then [()] else []) → x = y := by
    intro x y; cases x <;> cases y <;> simp
  cases hop
  · obtain ⟨h, h'⟩ := legal_agree (setUnionOp_impl BoolMS.advSpec) { a := a, b := b, r := false } rfl h1 h2
    exact ⟨fin h, h'⟩
  · obtain ⟨h, h'⟩ := legal_agree (setIntersectionOp_impl BoolMS.advSpec) { a := a, b := b, r := false } rfl h1 h2
    exact ⟨fin h, h'⟩
  · obtain ⟨h, h'⟩ := legal_agree (setDiffOp_impl BoolMS.advSpec) { a := a, b := b, r := false } rfl h1 h2
    exact ⟨fin h, h'⟩
  · obtain ⟨h, h'⟩ := legal_agree (setXorOp_impl BoolMS.advSpec) { a := a, b := b, r := false } rfl h1 h2
    exact ⟨fin h, h'⟩

/-- **C12.** binary merge and tape merge plans are legal schedules -/
theorem C12_plans_legal (a b : List T) (ha : Ascending a) (hb : Ascending b) :
    Legal compare a b (planBin compare a b) ∧ Legal compare a b (planTape compare a b) :=
  ⟨planBin_legal (ka := fun x : T => x) (kb := fun x : T => x) (fun _ _ => rfl) a b ha hb,
   planTape_legal (ka := fun x : T => x) (kb := fun x : T => x) (fun _ _ => rfl) a b ha hb⟩

/-- **C12.** the driver the crate uses runs a legal schedule (shown for the in-place merges; the same holds for the others) -/
theorem C12_driver_runs_legal_schedule (conv : T → Call T) (a b : List T) (ha : Ascending a) (hb : Ascending b)
    (op : MergeOp (InPlaceMS T T) T T) (hop : IsSetOp (InPlaceMS.mut conv) op) :
    ∃ evs, Legal compare a b evs ∧
      mergeAll op { tgt := [], src := a, b := b } = runEvs op { tgt := [], src := a, b := b } evs := by
  cases hop
  all_goals first
    | exact driver_legal (ka := fun x : T => x) (kb := fun x : T => x) (setUnionOp_impl (InPlaceMS.advSpec conv)) (fun _ _ => rfl) { tgt := [], src := a, b := b } trivial ha hb
    | exact driver_legal (ka := fun x : T => x) (kb := fun x : T => x) (setIntersectionOp_impl (InPlaceMS.advSpec conv)) (fun _ _ => rfl) { tgt := [], src := a, b := b } trivial ha hb
    | exact driver_legal (ka := fun x : T => x) (kb := fun x : T => x) (setDiffOp_impl (InPlaceMS.advSpec conv)) (fun _ _ => rfl) { tgt := [], src := a, b := b } trivial ha hb
    | exact driver_legal (ka := fun x : T => x) (kb := fun x : T => x) (setXorOp_impl (InPlaceMS.advSpec conv)) (fun _ _ => rfl) { tgt := [], src := a, b := b } trivial ha hb

/-- two different legal schedules for the same inputs: element by element, or one block -/
example : Legal compare [1, 2, 5] [5] [.a 1, .a 1, .c] ∧ Legal compare [1, 2, 5] [5] [.a 2, .c] :=
  ⟨.a 1 (by decide) (by decide) (by decide) (.a 1 (by decide) (by decide) (by decide) (.c (by decide) .done)),
   .a 2 (by decide) (by decide) (by decide) (.c (by decide) .done)⟩

end Verif
