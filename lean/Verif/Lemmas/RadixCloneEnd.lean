import Verif.Spec.RadixClone
import Verif.Lemmas.RadixCloneCut
import Verif.Lemmas.RadixEffects
/-! The whole in-place combinations with panicking clones, in terms of entries. -/
namespace Verif
namespace Tree
open Std

section
variable {K V W S S0 R : Type _}

/-- clones that are always fine -/
def idClones (S V W : Type _) : Clones S V W := ⟨fun v s => (.ret v, s), fun v s => (.ret v, s), fun s => (false, s)⟩

theorem idClones_faithful : Faithful (id : S → S) False (idClones S V W) :=
  ⟨fun _ s => .inl ⟨s, rfl, rfl⟩, fun _ s => .inl ⟨s, rfl, rfl⟩, fun _ => rfl⟩
theorem fnSim_id (f : MutFnE S V W) : FnSim (id : S → S) False f f := fun _ _ _ => .inl rfl
theorem predSim_id (f : PredE S W) : PredSim (id : S → S) f f := fun _ _ => rfl

theorem Sim.eq {T : Type _} {cut : T → T → Prop} {r r' : (T × S) × Flow} (h : Sim (id : S → S) False cut r r') : r' = r := by
  rcases h with h | ⟨_, h, _⟩
  · exact h
  · exact h.elim

theorem faithful_of_honest {seen : S → R} {e : Clones S V W} (h : HonestClones seen e) : Faithful seen (ClonePanics e) e := by
  refine ⟨fun v s => ?_, fun v s => ?_, h.shared⟩
  · obtain ⟨h1, h2⟩ := h.own v s
    rcases hc : e.own v s with ⟨r, s'⟩
    rw [hc] at h1 h2
    rcases h1 with h1 | h1
    · simp only at h1; exact .inl ⟨s', by rw [h1], h2⟩
    · simp only at h1; exact .inr ⟨s', by rw [h1], .inl ⟨v, s, by rw [hc]; exact h1⟩⟩
  · obtain ⟨h1, h2⟩ := h.other v s
    rcases hc : e.other v s with ⟨r, s'⟩
    rw [hc] at h1 h2
    rcases h1 with h1 | h1
    · simp only at h1; exact .inl ⟨s', by rw [h1], h2⟩
    · simp only at h1; exact .inr ⟨s', by rw [h1], .inr ⟨v, s, by rw [hc]; exact h1⟩⟩

theorem fnSim_of_worksAs {Bad : Prop} {seen : S → R} {f : MutFnE S V W} {g : MutFnE R V W} (h : WorksAs seen f g) : FnSim seen Bad f g :=
  fun v w s => .inl (h v w s)

variable [Ord K]

theorem entry_at_pre {t : Tree K V} (h : Valid t) (v : V) : Entry t t.pre v ↔ t.val = some v := by
  rw [entry_self t, entry_node_iff]
  constructor
  · rintro (⟨_, h1⟩ | ⟨c, hc, k1, h1, h2⟩)
    · exact h1
    · obtain ⟨r, rfl⟩ := entry_pre h2
      have hne := h.kids.ne c hc
      have := congrArg List.length h1
      simp at this
      exact absurd this.1 hne
  · exact fun h => .inl ⟨rfl, h⟩

theorem entry_off_pre {t u : Tree K V} (hp : u.pre = t.pre) (hk : u.kids = t.kids) {k : List K} (hne : k ≠ t.pre) (v : V) : Entry u k v ↔ Entry t k v := by
  rw [entry_self u, entry_self t, entry_node_iff, entry_node_iff, hp, hk]
  simp [hne]

variable [TransOrd K] [LawfulEqOrd K]

/-- the leading children of a node -/
theorem entry_leading {t u : Tree K V} (hT : Valid t) (hp : u.pre = t.pre) (hv : u.val = t.val) (hk : u.kids <+: t.kids) :
    (∃ m, ∀ k v, Entry u k v ↔ Entry t k v ∧ LexLt k m) ∨ ∀ k v, Entry u k v ↔ Entry t k v := by
  obtain ⟨rest, hrest⟩ := hk
  cases rest with
  | nil =>
    right
    intro k v
    rw [List.append_nil] at hrest
    rw [entry_self u, entry_self t, hp, hv, hrest]
  | cons d ds =>
    left
    have hd' : d ∈ t.kids := by rw [← hrest]; simp
    obtain ⟨x, r, hx⟩ := head?_some_of_ne (hT.kids.ne d hd')
    refine ⟨t.pre ++ [x], fun k v => ?_⟩
    have hasc := hT.kids.asc
    rw [← hrest, AscendingBy, List.pairwise_append] at hasc
    rw [entry_self u, entry_self t, entry_node_iff, entry_node_iff, hp, hv]
    constructor
    · rintro (⟨rfl, h1⟩ | ⟨c, hc, k1, rfl, h2⟩)
      · exact ⟨.inl ⟨rfl, h1⟩, .inl ⟨x, [], rfl⟩⟩
      · have hc' : c ∈ t.kids := by rw [← hrest]; simp [hc]
        refine ⟨.inr ⟨c, hc', k1, rfl, h2⟩, lexLt_append _ ?_⟩
        obtain ⟨y, s, e1, rfl⟩ := entry_head hT.kids hc' h2
        refine .inr ⟨[], y, x, s, [], rfl, rfl, ?_⟩
        have := hasc.2.2 c hc d (by simp)
        rw [e1, show hd d = some x by simp [hd, hx]] at this
        exact this
    · rintro ⟨⟨rfl, h1⟩ | ⟨c, hc, k1, rfl, h2⟩, hl⟩
      · exact .inl ⟨rfl, h1⟩
      · refine .inr ⟨c, ?_, k1, rfl, h2⟩
        rw [← hrest] at hc
        rcases List.mem_append.1 hc with hc | hc
        · exact hc
        · exfalso
          have hc' : c ∈ t.kids := by rw [← hrest]; simp only [List.mem_append]; exact .inr hc
          obtain ⟨y, s, e1, rfl⟩ := entry_head hT.kids hc' h2
          have hle : compare y x ≠ .lt := by
            rcases List.mem_cons.1 hc with rfl | hc
            · have : y = x := by simpa [hd, hx] using e1.symm
              rw [this]; simp [cmp_self]
            · have := (List.pairwise_cons.1 hasc.2.1).1 c hc
              rw [e1, show hd d = some x by simp [hd, hx]] at this
              have := cmp_gt_iff.2 (show compare x y = .lt from this)
              simp [this]
          rcases lexLt_cons (lexLt_cancel.1 hl) with h3 | ⟨_, h3⟩
          · exact hle h3
          · rcases h3 with ⟨c, r, h3⟩ | ⟨p, x, y, r, s, _, h3, _⟩ <;> simp at h3

/-- entries after a node has been changed in part -/
theorem cutCase_entries {a a' r T : Tree K V} (ha : Valid a') (hT : Valid T) (hr : Valid r) (hea : ∀ k v, Entry a' k v ↔ Entry a k v)
    (hp : ∃ q, a.pre = a'.pre ++ q) (h : CutCase a' r T) : CutOff a (Entry T) r := by
  rcases h.part with ⟨h1, h2⟩ | ⟨h1, h2⟩
  · refine .inl ⟨a'.pre, ?_, ?_, ?_⟩
    · intro k v hk
      obtain ⟨q, hq⟩ := hp
      obtain ⟨q', rfl⟩ := entry_pre hk
      exact ⟨q ++ q', by rw [hq]; simp⟩
    · intro k v hne
      rw [← hea]
      exact entry_off_pre h.pre h1 hne v
    · rcases h2 with h2 | h2
      · left
        intro v
        rw [← hea, entry_at_pre ha, ← h2, ← entry_at_pre hr, h.pre]
      · right
        intro v
        have e1 := entry_at_pre hr v
        have e2 := entry_at_pre hT v
        rw [h.pre] at e1
        rw [h.preT] at e2
        rw [e1, e2, h2]
  · rcases entry_leading hT (h.pre.trans h.preT.symm) h1 h2 with h | h
    · exact .inr (.inl h)
    · exact .inr (.inr h)

theorem cutShort_congr {a r : Tree K V} {f g : List K → V → Prop} (h : CutOff a f r) (e : ∀ k v, f k v ↔ g k v) : CutOff a g r := by
  have : f = g := by funext k v; exact propext (e k v)
  rwa [← this]

variable [DecidableEq K] {π : S → S0} {Bad : Prop} {e : Clones S V W}

theorem cut_entries {a r T : Tree K V} {n : Nat} (ha : Valid a) (hT : Valid T) (hr : Valid r) (h : Cut a n r T) : CutOff a (Entry T) r := by
  rcases h with h | ⟨hn, h⟩
  · exact cutCase_entries ha hT hr (fun _ _ => Iff.rfl) ⟨[], by simp⟩ h
  · rw [split_eq hn] at h
    refine cutCase_entries (valid_iff.2 (Kids.single (ha.shorten n) (shorten_ne hn))) hT hr (fun k v => (entry_split a n k v).symm) ?_ h
    exact ⟨a.pre.drop n, by simp⟩

/-- the result of a run with clones: as without, or cut short -/
def Ends (π : S → S0) (Bad : Prop) (a : Tree K V) (r : (Tree K V × S) × Flow) (r' : (Tree K V × S0) × Flow) : Prop :=
  (r.1.1 = r'.1.1 ∧ π r.1.2 = r'.1.2 ∧ r.2 = r'.2) ∨ (Bad ∧ r.2 = .panic ∧ Valid r.1.1 ∧ CutOff a (Entry r'.1.1) r.1.1)

theorem finish_ends {a : Tree K V} {n : Nat} (he : Faithful π Bad e) {r : (Tree K V × S) × Flow} {r' : (Tree K V × S0) × Flow} (ha : Valid a)
    (hT : Valid r'.1.1) (hr : Valid (finishC e r).1.1) (h : Sim π Bad (Cut a n) r r') : Ends π Bad a (finishC e r) (finishE r') := by
  have hfin : ∀ k v, Entry r'.1.1 k v ↔ Entry (finishE r').1.1 k v := by
    intro k v
    obtain ⟨⟨t, s⟩, fl⟩ := r'
    cases fl with
    | cont => exact (entry_unsplit hT k v).symm
    | stop => exact Iff.rfl
    | panic => exact Iff.rfl
  rcases finishC_sim he h with h | ⟨h1, h2, h3, _⟩
  · left
    rw [h]
    exact ⟨rfl, rfl, rfl⟩
  · right
    refine ⟨h2, h1, hr, cutShort_congr ?_ hfin⟩
    rcases h3 with h3 | h3
    · exact cut_entries ha hT hr h3
    · rw [h3]; exact .inr (.inr fun _ _ => Iff.rfl)

theorem Mid.valid {P : List K → V → Prop} {a r : Tree K V} {n : Nat} (h : Mid P a n r) : Valid r := by
  rcases h with h | h
  · exact h.valid
  · exact h.valid

theorem closedT (e : Clones S V W) : Closed e (fun (_ : List K) _ => True) fun _ _ => True :=
  ⟨fun _ _ _ _ _ _ _ => trivial, fun _ _ _ _ _ _ _ => trivial⟩
theorem sitT {a : Tree K V} {b : Tree K W} (va : Valid a) (vb : Valid b) :
    Sit (fun (_ : List K) _ => True) (fun (_ : List K) _ => True) a b (commonPrefix a.pre b.pre) := sit va vb (fun _ _ _ => trivial) fun _ _ _ => trivial

theorem innerGoE_eq (f : MutFnE S V W) (fuel : Nat) : RecSim (K := K) (id : S → S) False (innerWithGoC (idClones S V W) f fuel) (innerWithGoE f fuel) :=
  innerWithGoC_sim idClones_faithful (fnSim_id f) fuel

theorem recT {rec : Tree K V → Tree K W → S → (Tree K V × S) × Flow}
    (h : ∀ x y s, Valid x → Valid y → LeftC (fun _ _ => True) x y (rec x y s)) (p : List K) :
    RecOkC (under p fun (_ : List K) _ => True) (under p fun _ _ => True) rec :=
  LeftC.recOk fun x y s vx vy _ _ => h x y s vx vy

section wo
variable {a : Tree K V} {b : Tree K W} (ha : Valid a) (hb : Valid b)
include ha hb

theorem inner_ends (he : Faithful π Bad e) {f : MutFnE S V W} {fE : MutFnE S0 V W} (hf : FnSim π Bad f fE) (s : S) :
    Ends π Bad a (a.innerCombineWithCl b e f s) (a.innerCombineWithE b fE (π s)) := by
  have h := innerWithCasesC_sim (takeA := false) (convE := noConverter) he (innerWithGoC_sim he hf (a.size + b.size)) hf ha hb
    (commonPrefix_le_left a.pre b.pre) (commonPrefix_le_right ..) s
  refine finish_ends he ha ?_ ?_ h
  · have h2 := innerWithCasesC_sim (takeA := false) (convE := noConverter) (idClones_faithful (S := S0) (V := V) (W := W))
      (innerWithGoC_sim idClones_faithful (fnSim_id fE) (a.size + b.size)) (fnSim_id fE) ha hb
      (commonPrefix_le_left a.pre b.pre) (commonPrefix_le_right ..) (π s)
    rw [show innerWithCasesE (innerWithOpE (innerWithGoE fE (a.size + b.size))) fE (commonPrefix a.pre b.pre) a b (π s) = _ from h2.eq]
    exact (innerWithCasesC_ok (closedT _) (fun _ _ _ _ _ _ => trivial) (recT fun x y s vx vy =>
      innerWithGoC_left fE _ _ _ (closedT _) (fun _ _ _ _ _ _ => trivial) x y s vx vy (fun _ _ _ => trivial) fun _ _ _ => trivial)
      (sitT ha hb) (π s)).valid
  · exact (innerWithGoC_left f (a.size + b.size + 1) _ _ (closedT e) (fun _ _ _ _ _ _ => trivial) a b s ha hb (fun _ _ _ => trivial) fun _ _ _ => trivial).valid

theorem left_ends (he : Faithful π Bad e) {f : MutFnE S V W} {fE : MutFnE S0 V W} (hf : FnSim π Bad f fE) (s : S) :
    Ends π Bad a (a.leftCombineWithCl b e f s) (a.leftCombineWithE b fE (π s)) := by
  have h := leftWithCasesC_sim (takeA := true) (convE := noConverter) he (leftWithGoC_sim he hf (a.size + b.size)) hf ha hb
    (commonPrefix_le_left a.pre b.pre) (commonPrefix_le_right ..) s
  refine finish_ends he ha ?_ ?_ h
  · have h2 := leftWithCasesC_sim (takeA := true) (convE := noConverter) (idClones_faithful (S := S0) (V := V) (W := W))
      (leftWithGoC_sim idClones_faithful (fnSim_id fE) (a.size + b.size)) (fnSim_id fE) ha hb
      (commonPrefix_le_left a.pre b.pre) (commonPrefix_le_right ..) (π s)
    rw [show leftWithCasesE (leftWithOpE (leftWithGoE fE (a.size + b.size))) fE (commonPrefix a.pre b.pre) a b (π s) = _ from h2.eq]
    exact (leftWithCasesC_ok (closedT _) (fun _ _ _ _ _ _ => trivial) (recT fun x y s vx vy =>
      leftWithGoC_left fE _ _ _ (closedT _) (fun _ _ _ _ _ _ => trivial) x y s vx vy (fun _ _ _ => trivial) fun _ _ _ => trivial)
      (sitT ha hb) (π s)).valid
  · exact (leftWithGoC_left f (a.size + b.size + 1) _ _ (closedT e) (fun _ _ _ _ _ _ => trivial) a b s ha hb (fun _ _ _ => trivial) fun _ _ _ => trivial).valid

theorem remove_ends (he : Faithful π Bad e) {f : PredE S W} {fE : PredE S0 W} (hf : PredSim π f fE) (s : S) :
    Ends π Bad a (a.removePrefixWithCl b e f s) (a.removePrefixWithE b fE (π s)) := by
  have h := removePrefixCasesC_sim (takeA := true) (convE := noConverter) he (removePrefixGoC_sim he hf (a.size + b.size)) hf ha hb
    (commonPrefix_le_left a.pre b.pre) (commonPrefix_le_right ..) s
  refine finish_ends he ha ?_ ?_ h
  · have h2 := removePrefixCasesC_sim (takeA := true) (convE := noConverter) (idClones_faithful (S := S0) (V := V) (W := W))
      (removePrefixGoC_sim idClones_faithful (predSim_id fE) (a.size + b.size)) (predSim_id fE) ha hb
      (commonPrefix_le_left a.pre b.pre) (commonPrefix_le_right ..) (π s)
    rw [show removePrefixCasesE (removePrefixOpE (removePrefixGoE fE (a.size + b.size))) fE (commonPrefix a.pre b.pre) a b (π s) = _ from h2.eq]
    exact (removePrefixCasesC_ok (closedT _) (recT fun x y s vx vy =>
      removePrefixGoC_left fE _ _ _ (closedT _) x y s vx vy (fun _ _ _ => trivial) fun _ _ _ => trivial) (sitT ha hb) (π s)).valid
  · exact (removePrefixGoC_left f (a.size + b.size + 1) _ _ (closedT e) a b s ha hb (fun _ _ _ => trivial) fun _ _ _ => trivial).valid

theorem retain_ends (he : Faithful π Bad e) {f : PredE S W} {fE : PredE S0 W} (hf : PredSim π f fE) (s : S) :
    Ends π Bad a (a.retainPrefixWithCl b e f s) (a.retainPrefixWithE b fE (π s)) := by
  have h := retainPrefixCasesC_sim (takeA := false) (convE := noConverter) he (retainPrefixGoC_sim he hf (a.size + b.size)) hf ha hb
    (commonPrefix_le_left a.pre b.pre) (commonPrefix_le_right ..) s
  refine finish_ends he ha ?_ ?_ h
  · have h2 := retainPrefixCasesC_sim (takeA := false) (convE := noConverter) (idClones_faithful (S := S0) (V := V) (W := W))
      (retainPrefixGoC_sim idClones_faithful (predSim_id fE) (a.size + b.size)) (predSim_id fE) ha hb
      (commonPrefix_le_left a.pre b.pre) (commonPrefix_le_right ..) (π s)
    rw [show retainPrefixCasesE (retainPrefixOpE (retainPrefixGoE fE (a.size + b.size))) fE (commonPrefix a.pre b.pre) a b (π s) = _ from h2.eq]
    exact (retainPrefixCasesC_ok (closedT _) (recT fun x y s vx vy =>
      retainPrefixGoC_left fE _ _ _ (closedT _) x y s vx vy (fun _ _ _ => trivial) fun _ _ _ => trivial) (sitT ha hb) (π s)).valid
  · exact (retainPrefixGoC_left f (a.size + b.size + 1) _ _ (closedT e) a b s ha hb (fun _ _ _ => trivial) fun _ _ _ => trivial).valid

end wo
end

section outer
variable {K V S S0 : Type _} [Ord K] [TransOrd K] [LawfulEqOrd K] [DecidableEq K] {π : S → S0} {Bad : Prop} {e : Clones S V V} {a b : Tree K V}

theorem outer_ends (ha : Valid a) (hb : Valid b) (he : Faithful π Bad e) {f : MutFnE S V V} {fE : MutFnE S0 V V} (hf : FnSim π Bad f fE) (s : S) :
    Ends π Bad a (a.outerCombineWithCl b e f s) (a.outerCombineWithE b fE (π s)) := by
  have h := outerWithCasesC_sim (takeA := true) he (outerWithGoC_sim he hf (a.size + b.size)) hf ha hb
    (commonPrefix_le_left a.pre b.pre) (commonPrefix_le_right ..) s
  refine finish_ends he ha ?_ ?_ h
  · have h2 := outerWithCasesC_sim (takeA := true) (idClones_faithful (S := S0) (V := V) (W := V))
      (outerWithGoC_sim idClones_faithful (fnSim_id fE) (a.size + b.size)) (fnSim_id fE) ha hb
      (commonPrefix_le_left a.pre b.pre) (commonPrefix_le_right ..) (π s)
    rw [show outerWithCasesE (outerWithOpE (outerWithGoE fE (a.size + b.size))) fE (commonPrefix a.pre b.pre) a b (π s) = _ from h2.eq]
    exact (outerWithCasesC_ok (closedT _) (fun _ _ _ _ _ _ _ => trivial) (fun _ _ _ _ _ _ => trivial) (recT fun x y s vx vy =>
      outerWithGoC_left fE _ _ _ (closedT _) (fun _ _ _ _ _ _ _ => trivial) (fun _ _ _ _ _ _ => trivial) x y s vx vy (fun _ _ _ => trivial)
        fun _ _ _ => trivial) (sitT ha hb) (π s)).valid
  · exact (outerWithGoC_left f (a.size + b.size + 1) _ _ (closedT e) (fun _ _ _ _ _ _ _ => trivial) (fun _ _ _ _ _ _ => trivial) a b s ha hb
      (fun _ _ _ => trivial) fun _ _ _ => trivial).valid
end outer
end Tree
end Verif
