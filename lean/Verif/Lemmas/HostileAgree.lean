import Verif.Lemmas.HostileAcc
/-! Two merge states that do the same with the elements behave the same, whatever the comparison. -/
namespace Verif
namespace Hostile
variable {σ τ W A B R : Type} [MergeState σ A B] [MergeState τ A B] {op : MergeOp σ A B} {op' : MergeOp τ A B} {out : σ → List R}
  {out' : τ → List R} {inv : σ → Prop} {inv' : τ → Prop} {fa : A → Emit R} {fb : B → Emit R} {fc : A → B → Emit R}

/-- both runs produced the same, ended the same way, and left the comparison in the same state -/
structure Same (out : σ → List R) (out' : τ → List R) (s : σ) (t : τ) (x : (σ × Outcome Bool) × W) (y : (τ × Outcome Bool) × W) : Prop where
  out : ∃ e, out x.1.1 = out s ++ e ∧ out' y.1.1 = out' t ++ e
  flow : x.1.2 = y.1.2
  w : x.2 = y.2

theorem Same.andThen {s : σ} {t : τ} {x : (σ × Outcome Bool) × W} {y : (τ × Outcome Bool) × W} {k k'} (h : Same out out' s t x y)
    (hk : x.1.2 = .ret true → y.1.2 = .ret true → Same out out' x.1.1 y.1.1 (k x.1.1 x.2) (k' y.1.1 x.2)) :
    Same out out' s t (andThen x k) (andThen y k') := by
  obtain ⟨⟨e, h1, h2⟩, h3, h4⟩ := h
  by_cases hc : x.1.2 = .ret true
  · have hc' : y.1.2 = .ret true := h3 ▸ hc
    rw [andThen_true hc, andThen_true hc']
    obtain ⟨⟨e', h5, h6⟩, h7, h8⟩ := hk hc hc'
    rw [← h4]
    exact ⟨⟨e ++ e', by rw [h5, h1, List.append_assoc], by rw [h6, h2, List.append_assoc]⟩, h7, h8⟩
  · have hc' : y.1.2 ≠ .ret true := fun h => hc (h3.trans h)
    rw [andThen_not_true hc, andThen_not_true hc']
    exact ⟨⟨e, h1, h2⟩, h3, h4⟩

theorem Same.step {s : σ} {t : τ} {r : σ × Flow} {r' : τ × Flow} {e : Emit R} {a1 a2 : List A} {b1 b2 : List B}
    (h : StepSpec out inv s r e a1 b1) (h' : StepSpec out' inv' t r' e a2 b2) (w : W) :
    Same out out' s t (step r w) (step r' w) :=
  ⟨⟨e.1, h.out, h'.out⟩, by simp only [Hostile.step]; rw [h.flow, h'.flow], rfl⟩

theorem binaryMerge_agree (impl : Implements op out inv fa fb fc) (impl' : Implements op' out' inv' fa fb fc) (cmp : Cmp W A B) :
    ∀ (an bn : Nat) (s : σ) (t : τ) (w : W), inv s → inv' t → (MergeState.aSlice s : List A) = MergeState.aSlice t →
      (MergeState.bSlice s : List B) = MergeState.bSlice t → an ≤ (MergeState.aSlice s : List A).length →
      bn ≤ (MergeState.bSlice s : List B).length →
      Same out out' s t (binaryMerge cmp op s an bn w) (binaryMerge cmp op' t an bn w) := by
  intro an
  induction an using Nat.strongRecOn with
  | _ an ih =>
  intro bn s t w hi hi' ea eb ha hb
  rw [binaryMerge, binaryMerge]
  split
  · split
    · exact ⟨⟨[], by simp [step], by simp [step]⟩, rfl, rfl⟩
    · have h1 := impl.fromB s bn hi (by omega) hb
      have h2 := impl'.fromB t bn hi' (by omega) (by rw [← eb]; exact hb)
      rw [← eb] at h2
      exact Same.step h1 h2 w
  · split
    · have h1 := impl.fromA s an hi (by omega) ha
      have h2 := impl'.fromA t an hi' (by omega) (by rw [← ea]; exact ha)
      rw [← ea] at h2
      exact Same.step h1 h2 w
    · have hm : an / 2 < (MergeState.aSlice s : List A).length := by omega
      rw [← ea, ← eb, List.getElem?_eq_getElem hm]
      simp only
      rw [if_neg (by omega), if_neg (by omega)]
      generalize (MergeState.aSlice s : List A)[an / 2] = x
      have hs := binarySearchBy_ok (mp := True) (l := (MergeState.bSlice s : List B).take bn)
        (fun b => cmp_ok (cmp := cmp) (fun _ _ _ _ => trivial) x b) w
      have hlen : ((MergeState.bSlice s : List B).take bn).length = bn := by simp; omega
      have run1 := fun (m n : Nat) s w h1 h2 h3 => (binaryMerge_run (mp := True) impl (cmp := cmp) (fun _ _ _ _ => trivial) (fun _ => trivial) m n s w h1 h2 h3).2.1
      have run2 := fun (m n : Nat) s w h1 h2 h3 => (binaryMerge_run (mp := True) impl' (cmp := cmp) (fun _ _ _ _ => trivial) (fun _ => trivial) m n s w h1 h2 h3).2.1
      split
      · exact ⟨⟨[], by simp, by simp⟩, rfl, rfl⟩
      · rename_i heq; rw [heq] at hs; exact absurd rfl hs.2.2
      · rename_i bm w' heq
        rw [heq] at hs
        have hbm := hs.1 _ rfl
        simp only [InRange, hlen] at hbm
        refine (ih (an / 2) (by omega) bm s t w' hi hi' ea eb (by omega) (by omega)).andThen fun c1 c2 => ?_
        have d1 := run1 _ _ _ _ hi (by omega) (by omega) c1
        have d2 := run2 _ _ _ _ hi' (by rw [← ea]; omega) (by rw [← eb]; omega) c2
        have e1 := d1.a
        have e2 := d1.b
        have e3 := d2.a
        have e4 := d2.b
        rw [← ea] at e3
        rw [← eb] at e4
        rw [List.drop_eq_getElem_cons (by omega)] at e1 e2 e3 e4
        have st1 := impl.collision _ _ _ _ _ d1.inv e1 e2
        have st2 := impl'.collision _ _ _ _ _ d2.inv e3 e4
        refine (Same.step st1 st2 _).andThen fun c3 c4 => ?_
        have c3 := ofFlow_true c3
        have c4 := ofFlow_true c4
        refine ih _ (by omega) _ _ _ _ (st1.inv c3) (st2.inv c4) ?_ ?_ ?_ ?_
        · simp only [step]; rw [st1.a c3, st2.a c4]
        · simp only [step]; rw [st1.b c3, st2.b c4]
        · simp only [step]; rw [st1.a c3]; simp; omega
        · simp only [step]; rw [st1.b c3]; simp; omega
      · rename_i bi w' heq
        rw [heq] at hs
        have hbi := hs.1 _ rfl
        simp only [InRange, hlen] at hbi
        refine (ih (an / 2) (by omega) bi s t w' hi hi' ea eb (by omega) (by omega)).andThen fun c1 c2 => ?_
        have d1 := run1 _ _ _ _ hi (by omega) (by omega) c1
        have d2 := run2 _ _ _ _ hi' (by rw [← ea]; omega) (by rw [← eb]; omega) c2
        have st1 := impl.fromA _ 1 d1.inv (by omega) (by rw [d1.a]; simp; omega)
        have st2 := impl'.fromA _ 1 d2.inv (by omega) (by rw [d2.a, ← ea]; simp; omega)
        rw [d1.a, d1.b] at st1
        rw [d2.a, d2.b, ← ea, ← eb] at st2
        refine (Same.step st1 st2 _).andThen fun c3 c4 => ?_
        have c3 := ofFlow_true c3
        have c4 := ofFlow_true c4
        refine ih _ (by omega) _ _ _ _ (st1.inv c3) (st2.inv c4) ?_ ?_ ?_ ?_
        · simp only [step]; rw [st1.a c3, st2.a c4]
        · simp only [step]; rw [st1.b c3, st2.b c4]
        · simp only [step]; rw [st1.a c3]; simp; omega
        · simp only [step]; rw [st1.b c3]; simp; omega

/-! ### No callback of the containers stops the merge -/

/-- the callbacks run to the end or panic -/
def NoStop (op : MergeOp σ A B) : Prop :=
  (∀ s n, (op.fromA s n).2 ≠ .stop) ∧ (∀ s n, (op.fromB s n).2 ≠ .stop) ∧ ∀ s, (op.collision s).2 ≠ .stop

omit [MergeState σ A B] in
theorem andThen_noStop {r : σ × Flow} {k : σ → σ × Flow} (h : r.2 ≠ .stop) (hk : ∀ s, (k s).2 ≠ .stop) : (Verif.andThen r k).2 ≠ .stop := by
  unfold Verif.andThen
  split
  · exact hk _
  · exact h

omit [MergeState σ A B] in
theorem run_noStop (h : NoStop op) : ∀ (evs : List Ev) (s : σ), (runEvs op s evs).2 ≠ .stop
  | [], _ => by simp [runEvs]
  | .a n :: evs, s => andThen_noStop (h.1 s n) (run_noStop h evs)
  | .b n :: evs, s => andThen_noStop (h.2.1 s n) (run_noStop h evs)
  | .c :: evs, s => andThen_noStop (h.2.2 s) (run_noStop h evs)

omit [MergeState σ A B] in
theorem IsRun.noStop {mp : Prop} {s : σ} {r : σ × Outcome Bool} (h : IsRun mp op s r) (hn : NoStop op) : r.2 = .ret true ∨ r.2 = .panic := by
  obtain ⟨evs, -, h | h⟩ := h
  · have := run_noStop hn evs s
    rw [h]
    cases hf : (runEvs op s evs).2 <;> simp_all [ofFlow]
  · exact .inr h.1

section noStop
variable {K V X : Type}

theorem vpushAll_noStop {A R : Type} (conv : A → Call R) : ∀ (l : List A) (r : List R), (Verif.pushAll conv r l).2 ≠ .stop
  | [], r => by simp [Verif.pushAll]
  | x :: l, r => by
    rw [Verif.pushAll]
    split
    · simp
    · exact vpushAll_noStop conv l _

theorem slice_advA_noStop {A B R : Type} (ca : A → Call R) (cb : B → Call R) (s : SliceMS A B R) (n : Nat) (t : Bool) :
    ((SliceMS.mut ca cb).advanceA s n t).2 ≠ .stop := by
  simp only [SliceMS.mut]
  split
  · simp
  · split
    · exact vpushAll_noStop _ _ _
    · simp
theorem slice_advB_noStop {A B R : Type} (ca : A → Call R) (cb : B → Call R) (s : SliceMS A B R) (n : Nat) (t : Bool) :
    ((SliceMS.mut ca cb).advanceB s n t).2 ≠ .stop := by
  simp only [SliceMS.mut]
  split
  · simp
  · split
    · exact vpushAll_noStop _ _ _
    · simp

theorem slice_union_noStop {T : Type} [Ord T] (ca cb : T → Call T) : NoStop (setUnionOp (T := T) (SliceMS.mut ca cb)) :=
  ⟨fun s n => slice_advA_noStop ca cb s n _, fun s n => slice_advB_noStop ca cb s n _,
   fun s => andThen_noStop (slice_advA_noStop ca cb s _ _) fun s => slice_advB_noStop ca cb s _ _⟩
theorem slice_intersection_noStop {T : Type} [Ord T] (ca cb : T → Call T) : NoStop (setIntersectionOp (T := T) (SliceMS.mut ca cb)) :=
  ⟨fun s n => slice_advA_noStop ca cb s n _, fun s n => slice_advB_noStop ca cb s n _,
   fun s => andThen_noStop (slice_advA_noStop ca cb s _ _) fun s => slice_advB_noStop ca cb s _ _⟩
theorem slice_diff_noStop {T : Type} [Ord T] (ca cb : T → Call T) : NoStop (setDiffOp (T := T) (SliceMS.mut ca cb)) :=
  ⟨fun s n => slice_advA_noStop ca cb s n _, fun s n => slice_advB_noStop ca cb s n _,
   fun s => andThen_noStop (slice_advA_noStop ca cb s _ _) fun s => slice_advB_noStop ca cb s _ _⟩
theorem slice_xor_noStop {T : Type} [Ord T] (ca cb : T → Call T) : NoStop (setXorOp (T := T) (SliceMS.mut ca cb)) :=
  ⟨fun s n => slice_advA_noStop ca cb s n _, fun s n => slice_advB_noStop ca cb s n _,
   fun s => andThen_noStop (slice_advA_noStop ca cb s _ _) fun s => slice_advB_noStop ca cb s _ _⟩

theorem slice_loopA_noStop {A B R : Type} (g : A → Call (Option R)) : ∀ (n : Nat) (s : SliceMS A B R), (s.loopA g n).2 ≠ .stop
  | 0, s => by simp [SliceMS.loopA]
  | n + 1, s => by
    rw [SliceMS.loopA]
    split
    · exact slice_loopA_noStop g n _
    · split
      · simp
      · exact slice_loopA_noStop g n _
theorem slice_loopB_noStop {A B R : Type} (g : B → Call (Option R)) : ∀ (n : Nat) (s : SliceMS A B R), (s.loopB g n).2 ≠ .stop
  | 0, s => by simp [SliceMS.loopB]
  | n + 1, s => by
    rw [SliceMS.loopB]
    split
    · exact slice_loopB_noStop g n _
    · split
      · simp
      · exact slice_loopB_noStop g n _
theorem slice_both_noStop {A B R : Type} (g : A → B → Call (Option R)) (s : SliceMS A B R) : (s.both g).2 ≠ .stop := by
  unfold SliceMS.both
  split
  · simp
  · split
    · simp
    · split <;> simp
theorem slice_dropA_noStop {A B R : Type} (s : SliceMS A B R) (n : Nat) : (s.dropA n).2 ≠ .stop := by
  unfold SliceMS.dropA; split <;> simp
theorem slice_dropB_noStop {A B R : Type} (s : SliceMS A B R) (n : Nat) : (s.dropB n).2 ≠ .stop := by
  unfold SliceMS.dropB; split <;> simp

end noStop
end Hostile
end Verif
