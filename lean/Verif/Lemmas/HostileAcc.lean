import Verif.Lemmas.HostileOps
/-! What a merge into a new vector may contain, whatever the driver does. -/
namespace Verif
namespace Hostile
section sets
variable {T : Type}

/-- everything in the new vector comes from the inputs -/
def NewAcc (a0 b0 : List T) (s : SliceMS T T T) : Prop :=
  ∃ gone : List T, ∀ p : T → Bool, s.r.countP p + s.a.countP p + s.b.countP p + gone.countP p = a0.countP p + b0.countP p

theorem NewAcc.within {a0 b0 : List T} {s : SliceMS T T T} (h : NewAcc a0 b0 s) : Within s.r (a0 ++ b0) := by
  classical
  obtain ⟨gone, h⟩ := h
  refine ⟨s.a ++ s.b ++ gone, ?_⟩
  rw [List.perm_iff_count]
  intro x
  have := h (· == x)
  simp only [List.count, List.countP_append]
  omega

theorem pushAll_clone (r l : List T) : Verif.pushAll cloneConverter r l = (r ++ l, .cont) := by
  induction l generalizing r with
  | nil => simp [Verif.pushAll]
  | cons x l ih => simp [Verif.pushAll, cloneConverter, ih]

theorem newAcc_advA {a0 b0 : List T} {s : SliceMS T T T} (h : NewAcc a0 b0 s) (n : Nat) (take : Bool) :
    NewAcc a0 b0 ((SliceMS.mut cloneConverter cloneConverter).advanceA s n take).1 := by
  obtain ⟨gone, h⟩ := h
  unfold SliceMS.mut
  simp only
  split
  · exact ⟨gone, h⟩
  · split
    · refine ⟨gone, fun p => ?_⟩
      have h1 := h p
      have h2 := countP_split p n s.a
      simp only [pushAll_clone, List.countP_append]; omega
    · refine ⟨gone ++ s.a.take n, fun p => ?_⟩
      have h1 := h p
      have h2 := countP_split p n s.a
      simp only [List.countP_append]; omega

theorem newAcc_advB {a0 b0 : List T} {s : SliceMS T T T} (h : NewAcc a0 b0 s) (n : Nat) (take : Bool) :
    NewAcc a0 b0 ((SliceMS.mut cloneConverter cloneConverter).advanceB s n take).1 := by
  obtain ⟨gone, h⟩ := h
  unfold SliceMS.mut
  simp only
  split
  · exact ⟨gone, h⟩
  · split
    · refine ⟨gone, fun p => ?_⟩
      have h1 := h p
      have h2 := countP_split p n s.b
      simp only [pushAll_clone, List.countP_append]; omega
    · refine ⟨gone ++ s.b.take n, fun p => ?_⟩
      have h1 := h p
      have h2 := countP_split p n s.b
      simp only [List.countP_append]; omega

/-- the new vector is a subsequence of the left input -/
def SubAcc (a0 : List T) (s : SliceMS T T T) : Prop := (s.r ++ s.a).Sublist a0

theorem subAcc_advA {a0 : List T} {s : SliceMS T T T} (h : SubAcc a0 s) (n : Nat) (take : Bool) :
    SubAcc a0 ((SliceMS.mut cloneConverter cloneConverter).advanceA s n take).1 := by
  unfold SubAcc at *
  unfold SliceMS.mut
  simp only
  split
  · exact h
  · split
    · simp only [pushAll_clone, List.append_assoc, List.take_append_drop]; exact h
    · exact (List.Sublist.append_left (List.drop_sublist _ _) _).trans h

theorem subAcc_skipB {a0 : List T} {s : SliceMS T T T} (h : SubAcc a0 s) (n : Nat) :
    SubAcc a0 ((SliceMS.mut cloneConverter cloneConverter).advanceB s n false).1 := by
  unfold SliceMS.mut
  simp only
  split
  · exact h
  · exact h

variable [Ord T]

theorem union_newAcc (a0 b0 : List T) : Preserves (NewAcc a0 b0) (setUnionOp (T := T) (SliceMS.mut cloneConverter cloneConverter)) :=
  ⟨fun _ h n => newAcc_advA h n _, fun _ h n => newAcc_advB h n _, fun _ h => andThen_pres (newAcc_advA h 1 _) fun _ h => newAcc_advB h 1 _⟩
theorem intersection_newAcc (a0 b0 : List T) : Preserves (NewAcc a0 b0) (setIntersectionOp (T := T) (SliceMS.mut cloneConverter cloneConverter)) :=
  ⟨fun _ h n => newAcc_advA h n _, fun _ h n => newAcc_advB h n _, fun _ h => andThen_pres (newAcc_advA h 1 _) fun _ h => newAcc_advB h 1 _⟩
theorem diff_newAcc (a0 b0 : List T) : Preserves (NewAcc a0 b0) (setDiffOp (T := T) (SliceMS.mut cloneConverter cloneConverter)) :=
  ⟨fun _ h n => newAcc_advA h n _, fun _ h n => newAcc_advB h n _, fun _ h => andThen_pres (newAcc_advA h 1 _) fun _ h => newAcc_advB h 1 _⟩
theorem xor_newAcc (a0 b0 : List T) : Preserves (NewAcc a0 b0) (setXorOp (T := T) (SliceMS.mut cloneConverter cloneConverter)) :=
  ⟨fun _ h n => newAcc_advA h n _, fun _ h n => newAcc_advB h n _, fun _ h => andThen_pres (newAcc_advA h 1 _) fun _ h => newAcc_advB h 1 _⟩
theorem intersection_subAcc (a0 : List T) : Preserves (SubAcc a0) (setIntersectionOp (T := T) (SliceMS.mut cloneConverter cloneConverter)) :=
  ⟨fun _ h n => subAcc_advA h n _, fun _ h n => subAcc_skipB h n, fun _ h => andThen_pres (subAcc_advA h 1 _) fun _ h => subAcc_skipB h 1⟩
theorem diff_subAcc (a0 : List T) : Preserves (SubAcc a0) (setDiffOp (T := T) (SliceMS.mut cloneConverter cloneConverter)) :=
  ⟨fun _ h n => subAcc_advA h n _, fun _ h n => subAcc_skipB h n, fun _ h => andThen_pres (subAcc_advA h 1 _) fun _ h => subAcc_skipB h 1⟩

end sets

section maps
variable {K V X R : Type}

/-- every key of the new vector comes from the inputs -/
def NewKeys (a0 : List (K × V)) (b0 : List (K × X)) (s : SliceMS (K × V) (K × X) (K × R)) : Prop :=
  ∃ gone : List K, ∀ p : K → Bool,
    (s.r.map (·.1)).countP p + (s.a.map (·.1)).countP p + (s.b.map (·.1)).countP p + gone.countP p =
    (a0.map (·.1)).countP p + (b0.map (·.1)).countP p

theorem NewKeys.within {a0 : List (K × V)} {b0 : List (K × X)} {s : SliceMS (K × V) (K × X) (K × R)} (h : NewKeys a0 b0 s) :
    Within (s.r.map (·.1)) (a0.map (·.1) ++ b0.map (·.1)) := by
  classical
  obtain ⟨gone, h⟩ := h
  refine ⟨s.a.map (·.1) ++ s.b.map (·.1) ++ gone, ?_⟩
  rw [List.perm_iff_count]
  intro x
  have := h (· == x)
  simp only [List.count, List.countP_append]
  omega

variable {a0 : List (K × V)} {b0 : List (K × X)}

theorem newKeys_loopA {g : K × V → Call (Option (K × R))} (hg : ∀ x y, g x = .ret (some y) → y.1 = x.1) (n : Nat) :
    ∀ s : SliceMS (K × V) (K × X) (K × R), NewKeys a0 b0 s → NewKeys a0 b0 (s.loopA g n).1 := by
  induction n with
  | zero => intro s h; exact h
  | succ n ih =>
    intro s h
    obtain ⟨gone, h'⟩ := h
    rw [SliceMS.loopA]
    cases hs : s.a with
    | nil => exact ih s ⟨gone, h'⟩
    | cons x as =>
      simp only
      cases hx : g x with
      | panic =>
        refine ⟨gone ++ [x.1], fun p => ?_⟩
        have := h' p
        rw [hs] at this
        simp only [List.map_cons, List.countP_append, List.countP_cons, List.countP_nil] at this ⊢
        omega
      | ret o =>
        cases o with
        | none =>
          refine ih _ ⟨gone ++ [x.1], fun p => ?_⟩
          have := h' p
          rw [hs] at this
          simp only [List.map_cons, List.countP_append, List.countP_cons, List.countP_nil, Option.toList, List.append_nil] at this ⊢
          omega
        | some y =>
          have hy := hg x y hx
          refine ih _ ⟨gone, fun p => ?_⟩
          have := h' p
          rw [hs] at this
          simp only [List.map_cons, List.map_append, List.map_nil, List.countP_append, List.countP_cons, List.countP_nil, Option.toList, hy] at this ⊢
          omega

theorem newKeys_loopB {g : K × X → Call (Option (K × R))} (hg : ∀ x y, g x = .ret (some y) → y.1 = x.1) (n : Nat) :
    ∀ s : SliceMS (K × V) (K × X) (K × R), NewKeys a0 b0 s → NewKeys a0 b0 (s.loopB g n).1 := by
  induction n with
  | zero => intro s h; exact h
  | succ n ih =>
    intro s h
    obtain ⟨gone, h'⟩ := h
    rw [SliceMS.loopB]
    cases hs : s.b with
    | nil => exact ih s ⟨gone, h'⟩
    | cons x bs =>
      simp only
      cases hx : g x with
      | panic =>
        refine ⟨gone ++ [x.1], fun p => ?_⟩
        have := h' p
        rw [hs] at this
        simp only [List.map_cons, List.countP_append, List.countP_cons, List.countP_nil] at this ⊢
        omega
      | ret o =>
        cases o with
        | none =>
          refine ih _ ⟨gone ++ [x.1], fun p => ?_⟩
          have := h' p
          rw [hs] at this
          simp only [List.map_cons, List.countP_append, List.countP_cons, List.countP_nil, Option.toList, List.append_nil] at this ⊢
          omega
        | some y =>
          have hy := hg x y hx
          refine ih _ ⟨gone, fun p => ?_⟩
          have := h' p
          rw [hs] at this
          simp only [List.map_cons, List.map_append, List.map_nil, List.countP_append, List.countP_cons, List.countP_nil, Option.toList, hy] at this ⊢
          omega

theorem newKeys_both {g : K × V → K × X → Call (Option (K × R))} (hg : ∀ x y z, g x y = .ret (some z) → z.1 = x.1)
    (s : SliceMS (K × V) (K × X) (K × R)) (h : NewKeys a0 b0 s) : NewKeys a0 b0 (s.both g).1 := by
  obtain ⟨gone, h'⟩ := h
  unfold SliceMS.both
  cases hs : s.a with
  | nil => exact ⟨gone, h'⟩
  | cons x as =>
    simp only
    cases hb : s.b with
    | nil =>
      refine ⟨gone ++ [x.1], fun p => ?_⟩
      have := h' p
      rw [hs, hb] at this
      simp only [List.map_cons, List.map_nil, List.countP_append, List.countP_cons, List.countP_nil, hb] at this ⊢
      omega
    | cons y bs =>
      simp only
      cases hx : g x y with
      | panic =>
        refine ⟨gone ++ [x.1, y.1], fun p => ?_⟩
        have := h' p
        rw [hs, hb] at this
        simp only [List.map_cons, List.countP_append, List.countP_cons, List.countP_nil] at this ⊢
        omega
      | ret o =>
        cases o with
        | none =>
          refine ⟨gone ++ [x.1, y.1], fun p => ?_⟩
          have := h' p
          rw [hs, hb] at this
          simp only [List.map_cons, List.countP_append, List.countP_cons, List.countP_nil, Option.toList, List.append_nil] at this ⊢
          omega
        | some z =>
          have hz := hg x y z hx
          refine ⟨gone ++ [y.1], fun p => ?_⟩
          have := h' p
          rw [hs, hb] at this
          simp only [List.map_cons, List.map_append, List.map_nil, List.countP_append, List.countP_cons, List.countP_nil, Option.toList, hz] at this ⊢
          omega

theorem newKeys_dropA (n : Nat) (s : SliceMS (K × V) (K × X) (K × R)) (h : NewKeys a0 b0 s) : NewKeys a0 b0 (s.dropA n).1 := by
  obtain ⟨gone, h'⟩ := h
  unfold SliceMS.dropA
  split
  · exact ⟨gone, h'⟩
  · refine ⟨gone ++ (s.a.take n).map (·.1), fun p => ?_⟩
    have h1 := h' p
    have h2 := countP_split p n (s.a.map (·.1))
    rw [← List.map_take, ← List.map_drop] at h2
    simp only [List.countP_append]
    omega

theorem newKeys_dropB (n : Nat) (s : SliceMS (K × V) (K × X) (K × R)) (h : NewKeys a0 b0 s) : NewKeys a0 b0 (s.dropB n).1 := by
  obtain ⟨gone, h'⟩ := h
  unfold SliceMS.dropB
  split
  · exact ⟨gone, h'⟩
  · refine ⟨gone ++ (s.b.take n).map (·.1), fun p => ?_⟩
    have h1 := h' p
    have h2 := countP_split p n (s.b.map (·.1))
    rw [← List.map_take, ← List.map_drop] at h2
    simp only [List.countP_append]
    omega

theorem withKey_key {k : K} {c : Call (Option R)} {y : K × R} (h : c.withKey k = .ret (some y)) : y.1 = k := by
  cases c with
  | panic => cases h
  | ret o => cases o <;> cases h; rfl

variable [Ord K]

theorem outer_newKeys (f : OuterJoinArg K V X → Call (Option R)) : Preserves (NewKeys a0 b0) (outerJoinOp f) :=
  ⟨fun s h n => newKeys_loopA (fun _ _ e => withKey_key e) n s h, fun s h n => newKeys_loopB (fun _ _ e => withKey_key e) n s h,
   fun s h => newKeys_both (fun _ _ _ e => withKey_key e) s h⟩
theorem left_newKeys (f : K → V → Option X → Call (Option R)) : Preserves (NewKeys a0 b0) (leftJoinOp f) :=
  ⟨fun s h n => newKeys_loopA (fun _ _ e => withKey_key e) n s h, fun s h n => newKeys_dropB n s h,
   fun s h => newKeys_both (fun _ _ _ e => withKey_key e) s h⟩
theorem right_newKeys (f : K → Option V → X → Call (Option R)) : Preserves (NewKeys a0 b0) (rightJoinOp f) :=
  ⟨fun s h n => newKeys_dropA n s h, fun s h n => newKeys_loopB (fun _ _ e => withKey_key e) n s h,
   fun s h => newKeys_both (fun _ _ _ e => withKey_key e) s h⟩
theorem inner_newKeys (f : K → V → X → Call (Option R)) : Preserves (NewKeys a0 b0) (innerJoinOp f) :=
  ⟨fun s h n => newKeys_dropA n s h, fun s h n => newKeys_dropB n s h,
   fun s h => newKeys_both (fun _ _ _ e => withKey_key e) s h⟩

end maps
end Hostile
end Verif
