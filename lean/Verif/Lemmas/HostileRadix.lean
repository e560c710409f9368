import Verif.Spec.HostileRadix
import Verif.Lemmas.HostileOps
import Verif.Lemmas.RadixWorkOps
/-! Lemmas about radix trees over key components that obey no law: the merge driver and the combinations in place. -/
namespace Verif
namespace Hostile
variable {W α β : Type} {mp : Prop}

theorem bsLoop_mem {f : α → M W Ordering} {l : List α} (hf : ∀ x ∈ l, Ok mp (f x) fun _ => True) :
    ∀ (size base : Nat), 1 ≤ size → base + size ≤ l.length → Ok mp (bsLoop f l base size) (fun r => r < l.length) := by
  intro size
  induction size using Nat.strongRecOn with
  | _ size ih =>
    intro base h1 h2
    rw [bsLoop]
    split
    · refine (Ok.getUnchecked (by omega)).bind fun x hx => (hf x hx).bind fun o _ => ?_
      split
      · exact ih _ (by omega) _ (by omega) (by omega)
      · exact ih _ (by omega) _ (by omega) (by omega)
    · exact Ok.pure (by omega)

/-- where a search may end, and what is known about the element found -/
def Hit (l : List α) (Q : α → Prop) : SearchResult → Prop
  | .found i => ∃ x, l[i]? = some x ∧ Q x
  | .notFound i => i ≤ l.length

theorem binarySearchBy_hit {f : α → M W Ordering} {l : List α} {Q : α → Prop} (hf : ∀ x ∈ l, Ok mp (f x) fun o => o = .eq → Q x) :
    Ok mp (binarySearchBy f l) (Hit l Q) := by
  unfold binarySearchBy
  split
  · exact Ok.pure (Nat.zero_le _)
  · refine (bsLoop_mem (fun x hx => (hf x hx).mono fun _ _ => trivial) l.length 0 (by omega) (by omega)).bind fun base hb => ?_
    have : Ok mp (getUnchecked l base : M W α) (fun x => l[base]? = some x) := by
      unfold getUnchecked
      rw [List.getElem?_eq_getElem hb]
      exact Ok.pure rfl
    refine this.bind fun x hx => (hf x (List.mem_of_getElem? hx)).bind fun o ho => ?_
    cases o with
    | lt => exact Ok.pure (by show base + 1 ≤ _; omega)
    | eq => exact Ok.pure ⟨x, hx, ho rfl⟩
    | gt => exact Ok.pure (by show base ≤ _; omega)

section driver
variable {σ A B : Type} [MergeState σ A B]

/-- no undefined behaviour; panics only if `mp`; whatever happens the state satisfies `J`; if the computation is to go on it satisfies `I` -/
def OkS (mp : Prop) (J I : σ → Prop) (r : (σ × Outcome Bool) × W) : Prop :=
  J r.1.1 ∧ r.1.2 ≠ .fault ∧ (r.1.2 = .panic → mp) ∧ (r.1.2 = .ret true → I r.1.1)

theorem OkS.andThen {σ : Type} {J I I' : σ → Prop} {r : (σ × Outcome Bool) × W} {k : σ → W → (σ × Outcome Bool) × W} (h : OkS mp J I r)
    (hk : ∀ s w, I s → OkS mp J I' (k s w)) : OkS mp J I' (andThen r k) := by
  by_cases ht : r.1.2 = .ret true
  · unfold Hostile.andThen; rw [ht]; exact hk _ _ (h.2.2.2 ht)
  · rw [andThen_not_true ht]
    exact ⟨h.1, h.2.1, h.2.2.1, fun h' => absurd h' ht⟩

theorem OkS.mono {σ : Type} {J I J' I' : σ → Prop} {r : (σ × Outcome Bool) × W} (h : OkS mp J I r) (hj : ∀ s, J s → J' s) (hi : ∀ s, I s → I' s) :
    OkS mp J' I' r := ⟨hj _ h.1, h.2.1, h.2.2.1, fun h' => hi _ (h.2.2.2 h')⟩

theorem OkS.step {σ : Type} {J I : σ → Prop} {r : σ × Flow} {w : W} (hj : J r.1) (hp : r.2 = .panic → mp) (hi : r.2 = .cont → I r.1) :
    OkS mp J I (Hostile.step r w) := by
  refine ⟨hj, ?_, fun h => hp (ofFlow_panic h), fun h => hi (ofFlow_true h)⟩
  show ofFlow r.2 ≠ .fault
  cases r.2 <;> simp [ofFlow]

theorem OkS.panic {σ : Type} {J I : σ → Prop} {s : σ} {w : W} (hj : J s) (hp : mp) : OkS mp J I ((s, .panic), w) := by
  refine ⟨hj, ?_, fun _ => hp, ?_⟩
  · intro h; cases h
  · intro h; cases h

theorem OkS.ret {σ : Type} {J I : σ → Prop} {s : σ} {b : Bool} {w : W} (hj : J s) (hi : b = true → I s) : OkS mp J I ((s, .ret b), w) := by
  refine ⟨hj, ?_, ?_, ?_⟩
  · intro h; cases h
  · intro h; cases h
  · intro h
    have : b = true := by injection h
    exact hi this

/-- what an operation has to satisfy so that a merge of `as` and `bs` does -/
structure OpOk (mp : Prop) (J I : σ → Prop) (R : A → B → Prop) (op : HOp W σ A B) : Prop where
  weaken : ∀ s, I s → J s
  cmp : ∀ s, I s → ∀ a ∈ MergeState.aSlice s, ∀ b ∈ MergeState.bSlice s, Ok mp (op.cmp a b) fun o => o = .eq → R a b
  fromA : ∀ s n (w : W), I s → n ≤ (MergeState.aSlice s : List A).length →
    OkS mp J (fun s' => I s' ∧ MergeState.aSlice s' = (MergeState.aSlice s : List A).drop n ∧ (MergeState.bSlice s' : List B) = MergeState.bSlice s) (step (op.fromA s n) w)
  fromB : ∀ s n (w : W), I s → n ≤ (MergeState.bSlice s : List B).length →
    OkS mp J (fun s' => I s' ∧ (MergeState.aSlice s' : List A) = MergeState.aSlice s ∧ MergeState.bSlice s' = (MergeState.bSlice s : List B).drop n) (step (op.fromB s n) w)
  collision : ∀ s x as y bs w, I s → (MergeState.aSlice s : List A) = x :: as → (MergeState.bSlice s : List B) = y :: bs → R x y →
    OkS mp J (fun s' => I s' ∧ (MergeState.aSlice s' : List A) = as ∧ (MergeState.bSlice s' : List B) = bs) (op.collision s w)

theorem drop_cons {l : List α} {i : Nat} {x : α} (h : l[i]? = some x) : l.drop i = x :: l.drop (i + 1) := by
  obtain ⟨hi, e⟩ := List.getElem?_eq_some_iff.1 h
  rw [List.drop_eq_getElem_cons hi, e]

theorem drive_ok {J I : σ → Prop} {R : A → B → Prop} {op : HOp W σ A B} (h : OpOk mp J I R op) :
    ∀ (an bn : Nat) (s : σ) (w : W), I s → an ≤ (MergeState.aSlice s : List A).length → bn ≤ (MergeState.bSlice s : List B).length →
    OkS mp J (fun s' => I s' ∧ MergeState.aSlice s' = (MergeState.aSlice s : List A).drop an ∧ MergeState.bSlice s' = (MergeState.bSlice s : List B).drop bn)
      (drive op s an bn w) := by
  intro an
  induction an using Nat.strongRecOn with
  | _ an ih =>
    intro bn s w hs ha hb
    rw [drive]
    split
    · rename_i h0
      subst h0
      split
      · rename_i h1
        subst h1
        exact OkS.step (h.weaken s hs) (fun h => by cases h) (fun _ => ⟨hs, by simp, by simp⟩)
      · exact (h.fromB s bn w hs hb).mono (fun _ h => h) fun s' h' => ⟨h'.1, by rw [h'.2.1]; simp, h'.2.2⟩
    · rename_i h0
      split
      · rename_i h1
        subst h1
        exact (h.fromA s an w hs ha).mono (fun _ h => h) fun s' h' => ⟨h'.1, h'.2.1, by rw [h'.2.2]; simp⟩
      · rename_i h1
        have hlt : an / 2 < (MergeState.aSlice s : List A).length := by omega
        split
        · rename_i hnone
          rw [List.getElem?_eq_getElem hlt] at hnone
          cases hnone
        · rename_i a hsome
          have ham : a ∈ (MergeState.aSlice s : List A) := List.mem_of_getElem? hsome
          rw [if_neg (by omega)]
          have hsearch := binarySearchBy_hit (mp := mp) (f := fun b => do let o ← op.cmp a b; pure o.swap) (l := (MergeState.bSlice s : List B).take bn)
            (Q := fun b => R a b) (fun b hb => (h.cmp s hs a ham b (List.mem_of_mem_take hb)).bind fun o ho => Ok.pure fun he => ho (by cases o <;> simp_all [Ordering.swap])) w
          obtain ⟨k1, k2, k3⟩ := hsearch
          split
          · rename_i w' he
            rw [he] at k2
            exact OkS.panic (h.weaken s hs) (k2 rfl)
          · rename_i w' he
            rw [he] at k3
            exact absurd rfl k3
          · rename_i bm w' he
            rw [he] at k1
            obtain ⟨b, hb1, hR⟩ := k1 _ rfl
            have hbm : bm < bn ∧ (MergeState.bSlice s : List B)[bm]? = some b := by
              rw [List.getElem?_take] at hb1
              split at hb1
              · rename_i hlt'; exact ⟨hlt', hb1⟩
              · cases hb1
            refine (ih (an / 2) (by omega) bm s w' hs (by omega) (by omega)).andThen fun s1 w1 ⟨i1, a1, b1⟩ => ?_
            rw [drop_cons hsome] at a1
            rw [drop_cons hbm.2] at b1
            refine (h.collision s1 _ _ _ _ w1 i1 a1 b1 hR).andThen fun s2 w2 ⟨i2, a2, b2⟩ => ?_
            refine (ih _ (by omega) (bn - bm - 1) s2 w2 i2 (by rw [a2, List.length_drop]; omega) (by rw [b2, List.length_drop]; omega)).mono (fun _ h => h)
              fun s3 ⟨i3, a3, b3⟩ => ⟨i3, ?_, ?_⟩
            · rw [a3, a2, List.drop_drop]; congr 1; omega
            · rw [b3, b2, List.drop_drop]; congr 1; omega
          · rename_i bi w' he
            rw [he] at k1
            have hbi : bi ≤ bn := by
              have : bi ≤ ((MergeState.bSlice s : List B).take bn).length := k1 _ rfl
              rw [List.length_take] at this; omega
            refine (ih (an / 2) (by omega) bi s w' hs (by omega) (by omega)).andThen fun s1 w1 ⟨i1, a1, b1⟩ => ?_
            refine (h.fromA s1 1 w1 i1 (by rw [a1, List.length_drop]; omega)).andThen fun s2 w2 ⟨i2, a2, b2⟩ => ?_
            refine (ih _ (by omega) (bn - bi) s2 w2 i2 (by rw [a2, a1, List.length_drop, List.length_drop]; omega)
              (by rw [b2, b1, List.length_drop]; omega)).mono (fun _ h => h) fun s3 ⟨i3, a3, b3⟩ => ⟨i3, ?_, ?_⟩
            · rw [a3, a2, a1, List.drop_drop, List.drop_drop]; congr 1; omega
            · rw [b3, b2, b1, List.drop_drop]; congr 1; omega

theorem driveAll_ok {J I : σ → Prop} {R : A → B → Prop} {op : HOp W σ A B} (h : OpOk mp J I R op) (s : σ) (w : W) (hs : I s) :
    OkS mp J (fun s' => I s' ∧ (MergeState.aSlice s' : List A) = [] ∧ (MergeState.bSlice s' : List B) = []) (driveAll op s w) :=
  (drive_ok h _ _ s w hs (Nat.le_refl _) (Nat.le_refl _)).mono (fun _ h => h) fun s' h' => ⟨h'.1, by rw [h'.2.1]; simp, by rw [h'.2.2]; simp⟩

end driver

/-! ### The in-place merge state -/
section inplace
variable {A B : Type}

theorem consume_facts (s : InPlaceMS A B) (n : Nat) (take : Bool) (h : n ≤ s.src.length) :
    (s.consume n take).src = s.src.drop n ∧ (s.consume n take).b = s.b ∧ (s.consume n take).tgt = s.tgt ++ (if take then s.src.take n else []) := by
  unfold InPlaceMS.consume
  rw [Nat.min_eq_left h]
  cases take <;> simp

theorem skipB_facts : ∀ (n : Nat) (s : InPlaceMS A B), (s.skipB n).src = s.src ∧ (s.skipB n).b = s.b.drop n ∧ (s.skipB n).tgt = s.tgt
  | 0, s => by simp [InPlaceMS.skipB]
  | n + 1, s => by
    rw [InPlaceMS.skipB]
    obtain ⟨h1, h2, h3⟩ := skipB_facts n { s with b := s.b.tail }
    refine ⟨h1, ?_, h3⟩
    rw [h2]; show s.b.tail.drop n = _
    cases s.b <;> simp

/-- `extend_from_iter` converts elements one after the other until one panics -/
theorem extend_facts (conv : B → Call A) : ∀ (n : Nat) (s : InPlaceMS A B), n ≤ s.b.length →
    ∃ ys, (s.extendFromIter conv n).1.tgt = s.tgt ++ ys ∧ (s.extendFromIter conv n).1.src = s.src ∧ ys.length ≤ n ∧
      (s.b.take ys.length).map conv = ys.map .ret ∧
      ((s.extendFromIter conv n).2 = .cont → ys.length = n ∧ (s.extendFromIter conv n).1.b = s.b.drop n) ∧
      ((s.extendFromIter conv n).2 = .panic → ∃ x ∈ s.b, conv x = .panic)
  | 0, s, _ => ⟨[], by simp [InPlaceMS.extendFromIter]⟩
  | n + 1, s, h => by
    rw [InPlaceMS.extendFromIter]
    split
    · rename_i hb; rw [hb] at h; simp at h
    · rename_i x xs hb
      split
      · rename_i hx
        refine ⟨[], by simp, rfl, by simp, by simp, ?_, fun _ => ⟨x, by rw [hb]; exact List.mem_cons_self, hx⟩⟩
        intro h; cases h
      · rename_i y hx
        obtain ⟨ys, h1, h2, h3, h4, h5, h6⟩ := extend_facts conv n { s with tgt := s.tgt ++ [y], b := xs } (by rw [hb] at h; simpa using h)
        refine ⟨y :: ys, by rw [h1]; simp, h2, by simpa using h3, ?_, fun hc => ?_, fun hp => ?_⟩
        · rw [hb]; simp only [List.length_cons, List.take_succ_cons, List.map_cons, hx]; rw [h4]
        · obtain ⟨g1, g2⟩ := h5 hc
          exact ⟨by simpa using g1, by rw [g2, hb]; rfl⟩
        · obtain ⟨z, hz, e⟩ := h6 hp
          exact ⟨z, by rw [hb]; exact List.mem_cons_of_mem _ hz, e⟩

end inplace

/-! ### Multisets of values -/

theorem Within.append {r l r' l' : List α} (h : Within r l) (h' : Within r' l') : Within (r ++ r') (l ++ l') := by
  obtain ⟨a, ha⟩ := h
  obtain ⟨b, hb⟩ := h'
  refine ⟨a ++ b, ?_⟩
  have : (r ++ r' ++ (a ++ b)).Perm ((r ++ a) ++ (r' ++ b)) := by
    simp only [List.append_assoc]
    refine List.Perm.append_left r ?_
    rw [← List.append_assoc, ← List.append_assoc a]
    exact List.Perm.append_right b List.perm_append_comm
  exact this.trans (ha.append hb)

theorem Within.nil (l : List α) : Within [] l := ⟨l, List.Perm.refl _⟩
theorem Within.perm {r r' l l' : List α} (h : Within r l) (hr : r'.Perm r) (hl : l.Perm l') : Within r' l' := by
  obtain ⟨a, ha⟩ := h
  exact ⟨a, (hr.append_right a).trans (ha.trans hl)⟩
theorem Within.right (l m : List α) : Within m (l ++ m) := ⟨l, List.perm_append_comm⟩
theorem Within.of_sublist {r l : List α} (h : r.Sublist l) : Within r l := by
  induction h with
  | slnil => exact Within.nil _
  | cons a _ ih => obtain ⟨x, hx⟩ := ih; exact ⟨a :: x, List.perm_middle.trans (hx.cons a)⟩
  | cons_cons a _ ih => obtain ⟨x, hx⟩ := ih; exact ⟨x, hx.cons a⟩

theorem Within.flatMap {β γ : Type} {f : α → List γ} {g : β → List γ} : ∀ {l : List α} {m : List β},
    l.length = m.length → (∀ (i : Nat) x y, l[i]? = some x → m[i]? = some y → Within (f x) (g y)) → Within (l.flatMap f) (m.flatMap g)
  | [], [], _, _ => Within.nil _
  | x :: l, y :: m, hl, h => by
    simp only [List.flatMap_cons]
    exact (h 0 x y rfl rfl).append (Within.flatMap (by simpa using hl) fun i x y hx hy => h (i + 1) x y hx hy)

namespace Radix
variable {K V X : Type}

theorem valsL_eq (ks : List (Tree K V)) : vals.valsL ks = ks.flatMap vals := by
  induction ks with
  | nil => rfl
  | cons c cs ih => rw [vals.valsL, ih]; rfl

theorem vals_eq (t : Tree K V) : vals t = t.val.toList ++ t.kids.flatMap vals := by
  cases t; rw [vals, valsL_eq]

/-- the values in the result are among those of the children consumed so far -/
def AccI (as : List (Tree K V)) (bs : List (Tree K X)) (gb : Tree K X → List V) (s : InPlaceMS (Tree K V) (Tree K X)) : Prop :=
  ∃ ca cb, as = ca ++ s.src ∧ bs = cb ++ s.b ∧ Within (s.tgt.flatMap vals) (ca.flatMap vals ++ cb.flatMap gb)
def AccJ (as : List (Tree K V)) (bs : List (Tree K X)) (gb : Tree K X → List V) (s : InPlaceMS (Tree K V) (Tree K X)) : Prop :=
  Within (s.tgt.flatMap vals) (as.flatMap vals ++ bs.flatMap gb)

theorem AccI.weaken {as : List (Tree K V)} {bs : List (Tree K X)} {gb : Tree K X → List V} {s} (h : AccI as bs gb s) : AccJ as bs gb s := by
  obtain ⟨ca, cb, rfl, rfl, h⟩ := h
  refine h.trans ?_
  simp only [List.flatMap_append]
  exact (Within.left _ _).append (Within.left _ _)

theorem headsCmp_true (k : Keys W K) (a : Tree K V) (b : Tree K X) (P : Ordering → Prop) (h : ∀ o, P o) : Ok True (headsCmp k a b) P := by
  unfold headsCmp
  split
  · exact Ok.call (fun _ _ => trivial) fun _ _ _ => h _
  · intro w; exact ⟨fun a h => (by cases h), fun _ => trivial, fun h => (by cases h)⟩

theorem swap4 (a b c d : List α) : (a ++ b ++ (c ++ d)).Perm (a ++ c ++ (b ++ d)) := by
  simp only [List.append_assoc]
  refine List.Perm.append_left a ?_
  rw [← List.append_assoc, ← List.append_assoc c]
  exact List.Perm.append_right d List.perm_append_comm

theorem inPlaceOp_acc {k : Keys W K} {takeA takeB : Bool} {conv : Tree K X → Call (Tree K V)}
    {rec : Tree K V → Tree K X → W → (Tree K V × Outcome Bool) × W} {as : List (Tree K V)} {bs : List (Tree K X)} {gb : Tree K X → List V}
    (hconv : takeB = true → ∀ y t, conv y = .ret t → Within (vals t) (gb y))
    (hrec : ∀ x ∈ as, ∀ y ∈ bs, ∀ w, OkS True (fun t => Within (vals t) (vals x ++ gb y)) (fun _ => True) (rec x y w)) :
    OpOk True (AccJ as bs gb) (AccI as bs gb) (fun _ _ => True) (inPlaceOp k takeA takeB conv rec) where
  weaken _ h := h.weaken
  cmp s _ a _ b _ := headsCmp_true k a b _ fun _ _ => trivial
  fromA s n w hs hn := by
    have hn : n ≤ s.src.length := hn
    obtain ⟨h1, h2, h3⟩ := consume_facts s n takeA hn
    have hi : AccI as bs gb (s.consume n takeA) := by
      obtain ⟨ca, cb, e1, e2, h⟩ := hs
      refine ⟨ca ++ s.src.take n, cb, by rw [h1, List.append_assoc, List.take_append_drop]; exact e1, by rw [h2]; exact e2, ?_⟩
      rw [h3, List.flatMap_append, List.flatMap_append]
      have : Within ((if takeA = true then s.src.take n else []).flatMap vals) ((s.src.take n).flatMap vals) := by
        cases takeA
        · exact Within.nil _
        · exact Within.refl _
      refine (h.append this).perm (List.Perm.refl _) ?_
      simp only [List.append_assoc]
      exact List.Perm.append_left _ List.perm_append_comm
    exact OkS.step hi.weaken (fun _ => trivial) fun _ => ⟨hi, h1, h2⟩
  fromB s n w hs hn := by
    have hn : n ≤ s.b.length := hn
    cases takeB with
    | false =>
      obtain ⟨h1, h2, h3⟩ := skipB_facts n s
      have hi : AccI as bs gb (s.skipB n) := by
        obtain ⟨ca, cb, e1, e2, h⟩ := hs
        refine ⟨ca, cb ++ s.b.take n, by rw [h1]; exact e1, by rw [h2, List.append_assoc, List.take_append_drop]; exact e2, ?_⟩
        rw [h3, List.flatMap_append]
        exact h.trans ((Within.refl _).append (Within.left _ _))
      exact OkS.step hi.weaken (fun _ => trivial) fun _ => ⟨hi, h1, h2⟩
    | true =>
      obtain ⟨ys, h1, h2, h3, h4, h5, -⟩ := extend_facts conv n s hn
      obtain ⟨ca, cb, e1, e2, h⟩ := hs
      have hys : Within (ys.flatMap vals) ((s.b.take ys.length).flatMap gb) := by
        have hl : ys.length = (s.b.take ys.length).length := by rw [List.length_take]; omega
        refine Within.flatMap hl fun i t y ht hy => hconv rfl y t ?_
        have e := congrArg (fun l => l[i]?) h4
        simp only [List.getElem?_map, hy, ht] at e
        injection e
      have hw : Within ((s.extendFromIter conv n).1.tgt.flatMap vals) (ca.flatMap vals ++ (cb ++ s.b.take ys.length).flatMap gb) := by
        rw [h1, List.flatMap_append, List.flatMap_append]
        refine (h.append hys).perm (List.Perm.refl _) ?_
        rw [List.append_assoc]
      refine OkS.step ?_ (fun _ => trivial) fun hc => ?_
      · refine hw.trans ?_
        rw [e1, e2, List.flatMap_append, List.flatMap_append, List.flatMap_append]
        refine (Within.left _ _).append ((Within.refl _).append ?_)
        have := Within.left ((s.b.take ys.length).flatMap gb) ((s.b.drop ys.length).flatMap gb)
        rwa [← List.flatMap_append, List.take_append_drop] at this
      · obtain ⟨g1, g2⟩ := h5 hc
        refine ⟨⟨ca, cb ++ s.b.take n, by rw [← h2] at e1; exact e1, ?_, by rw [g1] at hw; exact hw⟩, h2, g2⟩
        have g2 : ((InPlaceMS.mut conv).advanceB s n true).1.b = s.b.drop n := g2
        show bs = cb ++ s.b.take n ++ ((InPlaceMS.mut conv).advanceB s n true).1.b
        rw [g2, List.append_assoc, List.take_append_drop]; exact e2
  collision s x as' y bs' w hs ha hb _ := by
    have ha : s.src = x :: as' := ha
    have hb : s.b = y :: bs' := hb
    obtain ⟨ca, cb, e1, e2, h⟩ := id hs
    have hr := hrec x (by rw [e1, ha]; simp) y (by rw [e2, hb]; simp) w
    show OkS True _ _ (match s.src, s.b with
      | x :: as, y :: _ =>
        andThen (onFirst s as (rec x y w)) fun s w' =>
        andThen (step ((InPlaceMS.mut conv).advanceA s 1 (!(rec x y w).1.1.isEmpty)) w') fun s w' =>
        step ((InPlaceMS.mut conv).advanceB s 1 false) w'
      | _, _ => ((s, .panic), w))
    rw [ha, hb]
    refine OkS.andThen (I := fun s' => s' = { s with src := (rec x y w).1.1 :: as' }) ⟨hs.weaken, hr.2.1, fun _ => trivial, fun _ => rfl⟩ ?_
    rintro s' w' rfl
    obtain ⟨h1, h2, h3⟩ := consume_facts { s with src := (rec x y w).1.1 :: as' } 1 (!(rec x y w).1.1.isEmpty) (by simp)
    have hw : Within ((InPlaceMS.consume { s with src := (rec x y w).1.1 :: as' } 1 (!(rec x y w).1.1.isEmpty)).tgt.flatMap vals)
        ((ca ++ [x]).flatMap vals ++ (cb ++ [y]).flatMap gb) := by
      rw [h3, List.flatMap_append, List.flatMap_append, List.flatMap_append]
      have : Within ((if (!(rec x y w).1.1.isEmpty) = true then ((rec x y w).1.1 :: as').take 1 else []).flatMap vals)
          ([x].flatMap vals ++ [y].flatMap gb) := by
        cases (!(rec x y w).1.1.isEmpty)
        · exact Within.nil _
        · simpa using hr.1
      exact (h.append this).perm (List.Perm.refl _) (swap4 _ _ _ _)
    refine OkS.andThen (I := fun s' => s' = InPlaceMS.consume { s with src := (rec x y w).1.1 :: as' } 1 (!(rec x y w).1.1.isEmpty))
      (OkS.step ?_ (fun _ => trivial) fun _ => rfl) ?_
    · refine hw.trans ?_
      rw [e1, e2, ha, hb]
      simp only [List.flatMap_append, List.flatMap_cons, List.flatMap_nil, List.append_nil]
      exact ((Within.refl _).append (Within.left _ _)).append ((Within.refl _).append (Within.left _ _))
    · rintro s' w' rfl
      obtain ⟨g1, g2, g3⟩ := skipB_facts 1 (InPlaceMS.consume { s with src := (rec x y w).1.1 :: as' } 1 (!(rec x y w).1.1.isEmpty))
      have hi : AccI as bs gb ((InPlaceMS.consume { s with src := (rec x y w).1.1 :: as' } 1 (!(rec x y w).1.1.isEmpty)).skipB 1) := by
        refine ⟨ca ++ [x], cb ++ [y], ?_, ?_, by rw [g3]; exact hw⟩
        · rw [g1, h1, e1, ha]; simp
        · rw [g2, h2, e2, hb]; simp
      exact OkS.step hi.weaken (fun _ => trivial) fun _ => ⟨hi, by show _ = as'; exact g1.trans h1, by show _ = bs'; refine g2.trans ?_; rw [h2, hb]; rfl⟩

end Radix
end Hostile
end Verif
