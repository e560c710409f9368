import Verif.Lemmas.RadixCloneSim
/-! What a panicking clone leaves of an in-place combination. -/
namespace Verif
namespace Tree
open Std

section
variable {K V W S S0 : Type _} {π : S → S0} {Bad : Prop}

/-- a closure runs as in the other run, or panics without having changed the value -/
def FnSim (π : S → S0) (Bad : Prop) (f : MutFnE S V W) (fE : MutFnE S0 V W) : Prop :=
  ∀ v w s, fE v w (π s) = ((f v w s).1, (f v w s).2.1, π (f v w s).2.2) ∨ ((f v w s).1 = v ∧ (f v w s).2.1 = .panic ∧ Bad)
/-- a predicate runs as in the other run -/
def PredSim (π : S → S0) (f : PredE S W) (fE : PredE S0 W) : Prop := ∀ w s, fE w (π s) = ((f w s).1, π (f w s).2)

/-- a node that has been changed in part: `a` before, `r` now, `T` in the other run -/
structure CutCase (a r T : Tree K V) : Prop where
  pre : r.pre = a.pre
  preT : T.pre = a.pre
  part : (r.kids = a.kids ∧ (r.val = a.val ∨ r.val = T.val)) ∨ (r.val = T.val ∧ r.kids <+: T.kids)
/-- the same, if the node may have been split first -/
def Cut (a : Tree K V) (n : Nat) (r T : Tree K V) : Prop := CutCase a r T ∨ (n < a.pre.length ∧ CutCase (a.split n).1 r T)

theorem Sim.cutL {a : Tree K V} {n : Nat} {r : (Tree K V × S) × Flow} {r' : (Tree K V × S0) × Flow} (h : Sim π Bad (CutCase a) r r') :
    Sim π Bad (Cut a n) r r' := h.mono .inl
theorem Sim.cutR {a : Tree K V} {n : Nat} (hn : n < a.pre.length) {r : (Tree K V × S) × Flow} {r' : (Tree K V × S0) × Flow}
    (h : Sim π Bad (CutCase (a.split n).1) r r') : Sim π Bad (Cut a n) r r' := h.mono fun h => .inr ⟨hn, h⟩

theorem applyMutE_sim {f : MutFnE S V W} {fE : MutFnE S0 V W} (h : FnSim π Bad f fE) (v : V) (w : W) (s : S) :
    Sim π Bad (fun r _ => r = some v) (applyMutE f v w s) (applyMutE fE v w (π s)) := by
  have := h v w s
  unfold applyMutE
  rcases hfe : f v w s with ⟨v', r, s'⟩
  rw [hfe] at this
  rcases this with e | ⟨e1, e2, e3⟩
  · simp only at e
    rw [e]
    rcases r with b | _
    · cases b <;> exact .inl rfl
    · exact .inl rfl
  · simp only at e1 e2
    subst e1 e2
    exact .inr ⟨rfl, e3, rfl⟩

theorem innerVal_sim {f : MutFnE S V W} {fE : MutFnE S0 V W} (h : FnSim π Bad f fE) (v : Option V) (w : Option W) (s : S) :
    Sim π Bad (fun r _ => r = v) (innerValE f v w s) (innerValE fE v w (π s)) := by
  cases v with
  | none => exact .inl rfl
  | some v =>
    cases w with
    | none => exact .inl rfl
    | some w => exact applyMutE_sim h v w s

theorem leftVal_sim {f : MutFnE S V W} {fE : MutFnE S0 V W} (h : FnSim π Bad f fE) (v : Option V) (w : Option W) (s : S) :
    Sim π Bad (fun r _ => r = v) (leftValE f v w s) (leftValE fE v w (π s)) := by
  cases w with
  | none => exact .inl rfl
  | some w =>
    cases v with
    | none => exact .inl rfl
    | some v => exact applyMutE_sim h v w s

theorem outerVal_sim {e : Clones S V V} {f : MutFnE S V V} {fE : MutFnE S0 V V} (he : Faithful π Bad e) (h : FnSim π Bad f fE) (v w : Option V) (s : S) :
    Sim π Bad (fun r _ => r = v) (outerValC e f v w s) (outerValE fE v w (π s)) := by
  cases w with
  | none => exact .inl rfl
  | some w =>
    cases v with
    | some v => exact applyMutE_sim h v w s
    | none =>
      rcases he.other w s with ⟨s', h1, h2⟩ | ⟨s', h1, h2⟩
      · left; simp [outerValC, outerValE, h1, h2]
      · right; simp [outerValC, h1, h2]

theorem withVal_sim {a : Tree K V} {r : (Option V × S) × Flow} {r' : (Option V × S0) × Flow} (h : Sim π Bad (fun r _ => r = a.val) r r') :
    Sim π Bad (fun r _ => r = a) (a.withValE r) (a.withValE r') := by
  rcases h with rfl | ⟨h1, h2, h3⟩
  · exact .inl rfl
  · refine .inr ⟨h1, h2, ?_⟩
    rcases a with ⟨p, v, ks⟩
    simp only at h3
    simp only [withValE, h3]

variable [Ord K]

theorem kids_pre (op : MergeOp (InPlaceMS (Tree K V) (Tree K W) × S0) (Tree K V) (Tree K W)) (r : (Tree K V × S0) × Flow) (rhs : List (Tree K W)) :
    (andThen r fun t => childrenWithE op t rhs).1.1.pre = r.1.1.pre ∧ (andThen r fun t => childrenWithE op t rhs).1.1.val = r.1.1.val := by
  obtain ⟨⟨t, s⟩, fl⟩ := r
  cases fl with
  | cont => exact childrenWithE_keeps op (t, s) rhs
  | stop => exact ⟨rfl, rfl⟩
  | panic => exact ⟨rfl, rfl⟩

theorem CutKids'.case {a t r T : Tree K V} (h : CutKids' t r T) (h1 : t.pre = a.pre) (h2 : t.kids = a.kids) (h3 : T.pre = t.pre) (h4 : T.val = t.val) :
    CutCase a r T := by
  refine ⟨h.pre.trans h1, h3.trans h1, ?_⟩
  rcases h.kids with h5 | h5
  · exact .inl ⟨h5.trans h2, .inr (h.val.trans h4.symm)⟩
  · exact .inr ⟨h.val.trans h4.symm, h5⟩

variable [TransOrd K] [LawfulEqOrd K] {takeA takeB : Bool} {convE : Tree K W → Call (Tree K V)}
  {oconv : Option (Tree K W → S → Call (Tree K V) × S)} {rec : Tree K V → Tree K W → S → (Tree K V × S) × Flow}
  {recE : Tree K V → Tree K W → S0 → (Tree K V × S0) × Flow} {e : Clones S V W} {a : Tree K V} {b : Tree K W} {n : Nat}

/-- everything a merge of children needs -/
structure MergeOk (π : S → S0) (Bad : Prop) (e : Clones S V W) (oconv : Option (Tree K W → S → Call (Tree K V) × S)) (takeB : Bool)
    (convE : Tree K W → Call (Tree K V)) (rec : Tree K V → Tree K W → S → (Tree K V × S) × Flow)
    (recE : Tree K V → Tree K W → S0 → (Tree K V × S0) × Flow) : Prop where
  faithful : Faithful π Bad e
  takes : Takes π Bad oconv takeB convE
  step : RecSim π Bad rec recE
  conv : ∀ c, oconv = some c → ConvOkC (fun _ _ => True) (fun _ _ => True) c

theorem kids_sim (M : MergeOk π Bad e oconv takeB convE rec recE) {a t : Tree K V} (s : S) {rhs : List (Tree K W)} (hv : Valid t) (kb : Kids rhs)
    (h1 : t.pre = a.pre) (h2 : t.kids = a.kids) :
    Sim π Bad (CutCase a) (childrenWithC e (inPlaceOpC takeA oconv rec) (t, s) rhs)
      (childrenWithE (inPlaceOpE takeA takeB convE recE) (t, π s) rhs) := by
  have hk := childrenWithE_keeps (inPlaceOpE takeA takeB convE recE) (t, π s) rhs
  exact (childrenWithC_sim M.faithful M.takes M.step M.conv s hv kb).mono fun h => h.case h1 h2 hk.1 hk.2

/-- a value is changed, then the children are merged -/
theorem val_kids_sim (M : MergeOk π Bad e oconv takeB convE rec recE) {a : Tree K V} {r : (Option V × S) × Flow} {r' : (Option V × S0) × Flow}
    (h : Sim π Bad (fun r _ => r = a.val) r r') {rhs : List (Tree K W)} (ha : Valid a) (kb : Kids rhs) :
    Sim π Bad (CutCase a) (andThen (a.withValE r) fun t => childrenWithC e (inPlaceOpC takeA oconv rec) t rhs)
      (andThen (a.withValE r') fun t => childrenWithE (inPlaceOpE takeA takeB convE recE) t rhs) := by
  refine (withVal_sim h).andThen (kids_sim M _ (valid_iff.2 ha.kids) kb rfl rfl) fun _ hc => ?_
  rw [hc]
  exact ⟨rfl, (kids_pre _ _ _).1, .inl ⟨rfl, .inl rfl⟩⟩

/-- `b` is below `a`; `t` is `a` or `a` without its value -/
theorem above_sim [DecidableEq K] (M : MergeOk π Bad e oconv takeB convE rec recE) {a t : Tree K V} (s : S) (hv : Valid t) (hb : Valid b) (hn : n < b.pre.length)
    (h1 : t.pre = a.pre) (h2 : t.kids = a.kids) :
    Sim π Bad (CutCase a) (withMatC (b.materializeShortenedC e.other n s) t fun z s => childrenWithC e (inPlaceOpC takeA oconv rec) (t, s) [z])
      (withMatE (b.materializeShortened n) (t, π s) fun z => childrenWithE (inPlaceOpE takeA takeB convE recE) (t, π s) [z]) := by
  rw [materializeShortened_eq hb hn]
  rcases materializeC_sim M.faithful.other b n s hb hn with ⟨s', e1, e2⟩ | ⟨s', e1, e2⟩
  · rw [e1]
    simp only [withMatC, withMatE]
    rw [← e2]
    exact kids_sim M s' hv (Kids.single (hb.shorten n) (shorten_ne hn)) h1 h2
  · rw [e1]
    simp only [withMatC, withMatE]
    have hk := childrenWithE_keeps (inPlaceOpE takeA takeB convE recE) (t, π s) [b.shorten n]
    exact .inr ⟨rfl, e2, ⟨h1, hk.1.trans h1, .inl ⟨h2, .inr hk.2.symm⟩⟩⟩

theorem clear_sim (he : Faithful π Bad e) {a : Tree K V} (s : S) :
    Sim π Bad (CutCase a) (clearKidsC e ({ a with val := none }, s)) (({ a with val := none, kids := [] }, π s), .cont) := by
  obtain ⟨_, ⟨s', h1, h2⟩ | ⟨s', h1, h2⟩⟩ := childrenMutC_sim he { a with val := none } s
  · left; simp [clearKidsC, h1, andThen, h2]
  · right; simp only [clearKidsC, h1, andThen, true_and]
    exact ⟨h2, ⟨rfl, rfl, .inl ⟨rfl, .inr rfl⟩⟩⟩

theorem ifSelected_sim {f : PredE S W} {fE : PredE S0 W} (hf : PredSim π f fE) {cut : Tree K V → Tree K V → Prop} (v : Option W) (s : S) (t : Tree K V)
    {yes no : S → (Tree K V × S) × Flow} {yesE noE : S0 → (Tree K V × S0) × Flow} (h1 : ∀ s, Sim π Bad cut (yes s) (yesE (π s)))
    (h2 : ∀ s, Sim π Bad cut (no s) (noE (π s))) : Sim π Bad cut (ifSelectedE f v s t yes no) (ifSelectedE fE v (π s) t yesE noE) := by
  unfold ifSelectedE
  cases v with
  | none => exact h2 s
  | some w =>
    simp only
    rw [hf w s]
    rcases f w s with ⟨r, s'⟩
    rcases r with b | _
    · cases b
      · exact h2 s'
      · exact h1 s'
    · exact .inl rfl

theorem Sim.self {T : Type _} {cut : T → T → Prop} (t : T) (s : S) (fl : Flow) : Sim π Bad cut ((t, s), fl) ((t, π s), fl) := .inl rfl

variable [DecidableEq K]

/-- `a` is below `b` -/
theorem below_sim (M : MergeOk π Bad e oconv takeB convE rec recE) (s : S) (ha : Valid a) (hb : Valid b) (hn : n < a.pre.length) :
    Sim π Bad (CutCase (a.split n).1) (andThen (((a.split n).1, s), (a.split n).2) fun t => childrenWithC e (inPlaceOpC takeA oconv rec) t b.kids)
      (andThen (((a.split n).1, π s), (a.split n).2) fun t => childrenWithE (inPlaceOpE takeA takeB convE recE) t b.kids) := by
  rw [split_eq hn]
  simp only [andThen]
  exact kids_sim M s (valid_iff.2 (Kids.single (ha.shorten n) (shorten_ne hn))) hb.kids rfl rfl

section nconv
variable (he : Faithful π Bad e) (hr : RecSim π Bad rec recE)
include he hr

omit [DecidableEq K] [TransOrd K] [LawfulEqOrd K] in
theorem mergeOk_none : MergeOk π Bad e none false convE rec recE := ⟨he, .none _, hr, fun _ h => by cases h⟩

theorem innerWithCasesC_sim {f : MutFnE S V W} {fE : MutFnE S0 V W} (hf : FnSim π Bad f fE) (ha : Valid a) (hb : Valid b) (hla : n ≤ a.pre.length)
    (hlb : n ≤ b.pre.length) (s : S) :
    Sim π Bad (Cut a n) (innerWithCasesC e (inPlaceOpC takeA none rec) f n a b s)
      (innerWithCasesE (inPlaceOpE takeA false convE recE) fE n a b (π s)) := by
  have M := mergeOk_none (convE := convE) he hr
  unfold innerWithCasesC innerWithCasesE
  split
  · exact Sim.cutL (val_kids_sim M (innerVal_sim hf _ _ _) ha hb.kids)
  · split
    · exact Sim.cutL (above_sim M s (valid_iff.2 ha.kids) hb (by omega) rfl rfl)
    · split
      · exact Sim.cutR (by omega) (below_sim M s ha hb (by omega))
      · exact Sim.cutL (clear_sim he s)

theorem leftWithCasesC_sim {f : MutFnE S V W} {fE : MutFnE S0 V W} (hf : FnSim π Bad f fE) (ha : Valid a) (hb : Valid b) (hla : n ≤ a.pre.length)
    (hlb : n ≤ b.pre.length) (s : S) :
    Sim π Bad (Cut a n) (leftWithCasesC e (inPlaceOpC takeA none rec) f n a b s)
      (leftWithCasesE (inPlaceOpE takeA false convE recE) fE n a b (π s)) := by
  have M := mergeOk_none (convE := convE) he hr
  unfold leftWithCasesC leftWithCasesE
  split
  · exact Sim.cutL (val_kids_sim M (leftVal_sim hf _ _ _) ha hb.kids)
  · split
    · exact Sim.cutL (above_sim M s ha hb (by omega) rfl rfl)
    · split
      · exact Sim.cutR (by omega) (below_sim M s ha hb (by omega))
      · exact Sim.self ..

theorem removePrefixCasesC_sim {f : PredE S W} {fE : PredE S0 W} (hf : PredSim π f fE) (ha : Valid a) (hb : Valid b) (hla : n ≤ a.pre.length)
    (hlb : n ≤ b.pre.length) (s : S) :
    Sim π Bad (Cut a n) (removePrefixCasesC e (inPlaceOpC takeA none rec) f n a b s)
      (removePrefixCasesE (inPlaceOpE takeA false convE recE) fE n a b (π s)) := by
  have M := mergeOk_none (convE := convE) he hr
  unfold removePrefixCasesC removePrefixCasesE
  split
  · exact ifSelected_sim hf _ _ _ (fun s => Sim.cutL (clear_sim he s)) fun s => Sim.cutL (kids_sim M s ha hb.kids rfl rfl)
  · split
    · exact ifSelected_sim hf _ _ _ (fun s => Sim.cutL (clear_sim he s)) fun s =>
        Sim.cutR (by omega) (below_sim M s ha hb (by omega))
    · split
      · exact Sim.cutL (above_sim M s ha hb (by omega) rfl rfl)
      · exact Sim.self ..

theorem retainPrefixCasesC_sim {f : PredE S W} {fE : PredE S0 W} (hf : PredSim π f fE) (ha : Valid a) (hb : Valid b) (hla : n ≤ a.pre.length)
    (hlb : n ≤ b.pre.length) (s : S) :
    Sim π Bad (Cut a n) (retainPrefixCasesC e (inPlaceOpC takeA none rec) f n a b s)
      (retainPrefixCasesE (inPlaceOpE takeA false convE recE) fE n a b (π s)) := by
  have M := mergeOk_none (convE := convE) he hr
  unfold retainPrefixCasesC retainPrefixCasesE
  split
  · exact ifSelected_sim hf _ _ _ (fun s => Sim.self ..) fun s => Sim.cutL (kids_sim M s (valid_iff.2 ha.kids) hb.kids rfl rfl)
  · split
    · exact ifSelected_sim hf _ _ _ (fun s => Sim.self ..) fun s =>
        Sim.cutR (by omega) (below_sim M s ha hb (by omega))
    · split
      · exact Sim.cutL (above_sim M s (valid_iff.2 ha.kids) hb (by omega) rfl rfl)
      · exact Sim.cutL (clear_sim he s)

end nconv

/-- the whole operation, once the cases are known -/
theorem finishC_sim (he : Faithful π Bad e) {r : (Tree K V × S) × Flow} {r' : (Tree K V × S0) × Flow} {cut : Tree K V → Tree K V → Prop}
    (h : Sim π Bad cut r r') : Sim π Bad (fun t T => (cut t r'.1.1 ∨ t = r'.1.1) ∧ T = (finishE r').1.1) (finishC e r) (finishE r') := by
  obtain ⟨⟨t, s⟩, fl⟩ := r
  rcases h with h | ⟨h1, h2, h3⟩
  · subst h
    cases fl with
    | stop => exact .inl rfl
    | panic => exact .inl rfl
    | cont =>
      obtain ⟨_, ⟨s', h1, h2⟩ | ⟨s', h1, h2⟩⟩ := childrenMutC_sim he t s
      · left; simp [finishC, finishE, andThen, h1, h2]
      · right
        refine ⟨by simp [finishC, andThen, h1], h2, .inr ?_, rfl⟩
        simp [finishC, andThen, h1]
  · simp only at h1 h3
    subst h1
    exact .inr ⟨rfl, h2, .inl h3, rfl⟩

theorem innerWithGoC_sim (he : Faithful π Bad e) {f : MutFnE S V W} {fE : MutFnE S0 V W} (hf : FnSim π Bad f fE) : ∀ fuel : Nat,
    RecSim (K := K) π Bad (innerWithGoC e f fuel) (innerWithGoE fE fuel)
  | 0 => fun _ _ _ _ _ => .inl rfl
  | fuel + 1 => fun a b s ha hb => (finishC_sim he (innerWithCasesC_sim he (innerWithGoC_sim he hf fuel) hf ha hb (commonPrefix_le_left ..)
      (commonPrefix_le_right ..) s)).weak
theorem leftWithGoC_sim (he : Faithful π Bad e) {f : MutFnE S V W} {fE : MutFnE S0 V W} (hf : FnSim π Bad f fE) : ∀ fuel : Nat,
    RecSim (K := K) π Bad (leftWithGoC e f fuel) (leftWithGoE fE fuel)
  | 0 => fun _ _ _ _ _ => .inl rfl
  | fuel + 1 => fun a b s ha hb => (finishC_sim he (leftWithCasesC_sim he (leftWithGoC_sim he hf fuel) hf ha hb (commonPrefix_le_left ..)
      (commonPrefix_le_right ..) s)).weak
theorem removePrefixGoC_sim (he : Faithful π Bad e) {f : PredE S W} {fE : PredE S0 W} (hf : PredSim π f fE) : ∀ fuel : Nat,
    RecSim (K := K) (V := V) π Bad (removePrefixGoC e f fuel) (removePrefixGoE fE fuel)
  | 0 => fun _ _ _ _ _ => .inl rfl
  | fuel + 1 => fun a b s ha hb => (finishC_sim he (removePrefixCasesC_sim he (removePrefixGoC_sim he hf fuel) hf ha hb (commonPrefix_le_left ..)
      (commonPrefix_le_right ..) s)).weak
theorem retainPrefixGoC_sim (he : Faithful π Bad e) {f : PredE S W} {fE : PredE S0 W} (hf : PredSim π f fE) : ∀ fuel : Nat,
    RecSim (K := K) (V := V) π Bad (retainPrefixGoC e f fuel) (retainPrefixGoE fE fuel)
  | 0 => fun _ _ _ _ _ => .inl rfl
  | fuel + 1 => fun a b s ha hb => (finishC_sim he (retainPrefixCasesC_sim he (retainPrefixGoC_sim he hf fuel) hf ha hb (commonPrefix_le_left ..)
      (commonPrefix_le_right ..) s)).weak
end

section outer
variable {K V S S0 : Type _} {π : S → S0} {Bad : Prop} [Ord K] [TransOrd K] [LawfulEqOrd K] [DecidableEq K] {e : Clones S V V} {a b : Tree K V} {n : Nat}
  {rec : Tree K V → Tree K V → S → (Tree K V × S) × Flow} {recE : Tree K V → Tree K V → S0 → (Tree K V × S0) × Flow} {takeA : Bool}

theorem mergeOk_some (he : Faithful π Bad e) (hr : RecSim π Bad rec recE) :
    MergeOk π Bad e (some fun t => t.materializeShortenedC e.other 0) true materialize rec recE := by
  refine ⟨he, .some _ _ ?_, hr, ?_⟩
  · intro y s hy hp
    have hl : 0 < y.pre.length := List.length_pos_iff.2 hp
    rcases materializeC_sim he.other y 0 s hy hl with ⟨s', e1, e2⟩ | ⟨s', e1, e2⟩
    · exact .inl ⟨_, s', materializeShortened_eq hy hl, e1, e2⟩
    · exact .inr ⟨s', e1, e2⟩
  · intro c hc
    cases hc
    exact convOk_mat fun _ _ _ _ _ _ _ => trivial

theorem outerWithCasesC_sim (he : Faithful π Bad e) (hr : RecSim π Bad rec recE) {f : MutFnE S V V} {fE : MutFnE S0 V V} (hf : FnSim π Bad f fE)
    (ha : Valid a) (hb : Valid b) (hla : n ≤ a.pre.length) (hlb : n ≤ b.pre.length) (s : S) :
    Sim π Bad (Cut a n) (outerWithCasesC e (inPlaceOpC takeA (some fun t => t.materializeShortenedC e.other 0) rec) f n a b s)
      (outerWithCasesE (inPlaceOpE takeA true materialize recE) fE n a b (π s)) := by
  have M := mergeOk_some he hr
  unfold outerWithCasesC outerWithCasesE
  split
  · exact Sim.cutL (val_kids_sim M (outerVal_sim he hf _ _ _) ha hb.kids)
  · split
    · exact Sim.cutL (above_sim M s ha hb (by omega) rfl rfl)
    · have hn : n < a.pre.length := by omega
      split
      · refine Sim.mono (cut := CutCase (a.split n).1) ?_ fun h => .inr ⟨hn, h⟩
        rw [split_eq hn]
        simp only [andThen]
        exact val_kids_sim M (outerVal_sim he hf _ _ _) (valid_iff.2 (Kids.single (ha.shorten n) (shorten_ne hn))) hb.kids
      · refine Sim.mono (cut := CutCase (a.split n).1) ?_ fun h => .inr ⟨hn, h⟩
        have hnb : n < b.pre.length := by omega
        rw [split_eq hn]
        simp only [andThen]
        rw [materializeShortened_eq hb hnb]
        rcases materializeC_sim he.other b n s hb hnb with ⟨s', e1, e2⟩ | ⟨s', e1, e2⟩
        · rw [e1]
          simp only [withMatC, withMatE]
          rw [← e2]
          split
          · exact .inl rfl
          · exact .inl rfl
        · rw [e1]
          simp only [withMatC, withMatE]
          refine .inr ⟨rfl, e2, ⟨rfl, ?_, .inl ⟨rfl, .inl rfl⟩⟩⟩
          split <;> rfl

theorem outerWithGoC_sim (he : Faithful π Bad e) {f : MutFnE S V V} {fE : MutFnE S0 V V} (hf : FnSim π Bad f fE) : ∀ fuel : Nat,
    RecSim (K := K) π Bad (outerWithGoC e f fuel) (outerWithGoE fE fuel)
  | 0 => fun _ _ _ _ _ => .inl rfl
  | fuel + 1 => fun a b s ha hb => (finishC_sim he (outerWithCasesC_sim he (outerWithGoC_sim he hf fuel) hf ha hb (commonPrefix_le_left ..)
      (commonPrefix_le_right ..) s)).weak
end outer
end Tree
end Verif
