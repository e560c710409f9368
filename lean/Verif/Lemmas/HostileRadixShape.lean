import Verif.Lemmas.HostileRadixVals
import Verif.Lemmas.RadixBase
/-! Radix trees over key components that obey no law except that `cmp == Equal` implies `==`: combinations in place keep the shape of the trees. -/
namespace Verif
namespace Hostile
variable {W K V X : Type}

section driver
variable {σ A B : Type}

/-- the merge is not told to end early -/
def NotStopped (r : (σ × Outcome Bool) × W) : Prop := r.1.2 ≠ .ret false

theorem NotStopped.andThen {r : (σ × Outcome Bool) × W} {k : σ → W → (σ × Outcome Bool) × W} (h : NotStopped r) (hk : ∀ s w, NotStopped (k s w)) : NotStopped (andThen r k) := by
  by_cases ht : r.1.2 = .ret true
  · unfold Hostile.andThen; rw [ht]; exact hk _ _
  · rw [andThen_not_true ht]; exact h

theorem NotStopped.step {r : σ × Flow} {w : W} (h : r.2 ≠ .stop) : NotStopped (Hostile.step r w) := by
  show ofFlow r.2 ≠ _
  cases hr : r.2 <;> simp_all [ofFlow]

theorem NotStopped.panic {s : σ} {w : W} : NotStopped ((s, .panic), w) := by intro h; cases h

variable [MergeState σ A B]

theorem drive_notStopped {op : HOp W σ A B} (hA : ∀ s n, (op.fromA s n).2 ≠ .stop) (hB : ∀ s n, (op.fromB s n).2 ≠ .stop) (hc : ∀ s w, NotStopped (op.collision s w)) :
    ∀ (an bn : Nat) (s : σ) (w : W), NotStopped (drive op s an bn w) := by
  intro an
  induction an using Nat.strongRecOn with
  | _ an ih =>
    intro bn s w
    rw [drive]
    split
    · split
      · exact NotStopped.step (by intro h; cases h)
      · exact NotStopped.step (hB _ _)
    · rename_i h0
      split
      · exact NotStopped.step (hA _ _)
      · split
        · exact NotStopped.panic
        · split
          · exact NotStopped.panic
          · split
            · exact NotStopped.panic
            · intro h; cases h
            · exact (ih _ (by omega) _ _ _).andThen fun s w => (hc s w).andThen fun s w => ih _ (by omega) _ _ _
            · exact (ih _ (by omega) _ _ _).andThen fun s w => (NotStopped.step (hA _ _)).andThen fun s w => ih _ (by omega) _ _ _

end driver

namespace Radix

/-! ### Shapes -/

theorem headed_iff {t : Tree K V} : Headed t ↔ ∀ c ∈ t.kids, c.pre ≠ [] ∧ Headed c := by
  constructor
  · rintro ⟨h1, h2⟩; exact fun c hc => ⟨h1 c hc, h2 c hc⟩
  · obtain ⟨p, v, ks⟩ := t; intro h; exact .mk (fun c hc => (h c hc).1) (fun c hc => (h c hc).2)

theorem Headed.kids {t t' : Tree K V} (h : Headed t) (e : t'.kids = t.kids) : Headed t' := headed_iff.2 (by rw [e]; exact headed_iff.1 h)

/-- a child of a good tree -/
def Ch (b : Prop) (t : Tree K V) : Prop := t.pre ≠ [] ∧ Headed t ∧ (b → Tree.Full t)
/-- a tree that an operation may be given -/
def In (b : Prop) (t : Tree K V) : Prop := (∀ c ∈ t.kids, Ch b c) ∧ (b → t.pre ≠ [] → Tree.Full t)
/-- a tree as returned by an operation -/
def Out (b : Prop) (t : Tree K V) : Prop := Headed t ∧ (b → t = Tree.empty ∨ Tree.Full t)
/-- a tree in the middle of an operation -/
def Mid (b : Prop) (t : Tree K V) : Prop := ∀ c ∈ t.kids, Ch b c

theorem Mid.headed {b : Prop} {t : Tree K V} (h : Mid b t) : Headed t := headed_iff.2 fun c hc => ⟨(h c hc).1, (h c hc).2.1⟩
theorem In.headed {b : Prop} {t : Tree K V} (h : In b t) : Headed t := Mid.headed h.1
theorem Out.toIn {b : Prop} {t : Tree K V} (h : Out b t) : In b t := by
  have h1 := headed_iff.1 h.1
  refine ⟨fun c hc => ⟨(h1 c hc).1, (h1 c hc).2, fun hb => ?_⟩, fun hb hp => ?_⟩
  · rcases h.2 hb with rfl | hf
    · cases hc
    · exact (Tree.full_iff.1 hf).2 c hc
  · rcases h.2 hb with rfl | hf
    · exact absurd rfl hp
    · exact hf
theorem Ch.toIn {b : Prop} {t : Tree K V} (h : Ch b t) : In b t := Out.toIn ⟨h.2.1, fun hb => .inr (h.2.2 hb)⟩
theorem In.drop {b : Prop} {t : Tree K V} (h : In b t) {n : Nat} (hn : n < t.pre.length) : Ch b { t with pre := t.pre.drop n } := by
  have hp : t.pre ≠ [] := by intro e; rw [e] at hn; simp at hn
  refine ⟨?_, h.headed.kids rfl, fun hb => (h.2 hb hp).setPre _⟩
  intro e
  have : (t.pre.drop n).length = 0 := by
    have e : t.pre.drop n = [] := e
    rw [e]; rfl
  rw [List.length_drop] at this; omega
theorem Ch.kid {b : Prop} {t : Tree K V} {n : Nat} (h : Ch b { t with pre := t.pre.drop n }) :
    Mid b { pre := t.pre.take n, val := none, kids := [{ t with pre := t.pre.drop n }] } := fun c hc => by
  obtain rfl := List.mem_singleton.1 hc; exact h

theorem unsplit_out {b : Prop} {t : Tree K V} (h : Mid b t) : Out b t.unsplit := by
  refine ⟨?_, fun hb => Tree.unsplit_full fun c hc => (h c hc).2.2 hb⟩
  have h1 : Mid b t.dropEmptyKids := fun c hc => h c ((List.mem_filter.1 hc).1)
  have h2 : Headed t.dropEmptyKids.mergeOnlyChild := by
    unfold Tree.mergeOnlyChild
    split
    · rename_i c hk hv
      have := (h1 c (by rw [hk]; simp)).2.1
      unfold Tree.prepend
      split
      · exact this.kids rfl
      · exact this
    · exact h1.headed
  unfold Tree.unsplit Tree.clearEmptyPrefix
  split
  · exact h2.kids rfl
  · exact h2

mutual
theorem materialize_total : ∀ (t : Tree K V) (n : Nat), n < t.pre.length → Headed t → t.materializeShortened n = .ret { t with pre := t.pre.drop n }
  | ⟨p, v, ks⟩, n, hn, h => by
    rw [Tree.materializeShortened, if_pos hn, materializeKids_total ks (headed_iff.1 h)]
theorem materializeKids_total : ∀ ks : List (Tree K V), (∀ c ∈ ks, c.pre ≠ [] ∧ Headed c) → Tree.materializeKids ks = .ret ks
  | [], _ => by rw [Tree.materializeKids]
  | c :: cs, h => by
    have hc := h c (by simp)
    rw [Tree.materializeKids, materialize_total c 0 (List.length_pos_iff.2 hc.1) hc.2, materializeKids_total cs fun d hd => h d (by simp [hd])]
    simp only [List.drop_zero]
    cases c; rfl
end

/-! ### Comparing -/

/-- the two lists begin with components that `==` cannot tell apart -/
def Heads (k : Keys W K) (p q : List K) : Prop := ∃ x xs y ys, p = x :: xs ∧ q = y :: ys ∧ ∀ w r, (k.eq x y w).1 = .ret r → r = true

theorem commonPrefix_ok {mp : Prop} {k : Keys W K} (hk : KeysPanic k → mp) : ∀ p q : List K,
    Ok mp (commonPrefix k p q) (fun n => n ≤ p.length ∧ n ≤ q.length ∧ (Heads k p q → 1 ≤ n))
  | [], q => Ok.pure ⟨Nat.le_refl _, Nat.zero_le _, by rintro ⟨x, xs, y, ys, h, -⟩; cases h⟩
  | x :: xs, [] => Ok.pure ⟨Nat.zero_le _, Nat.le_refl _, by rintro ⟨_, _, y, ys, -, h, -⟩; cases h⟩
  | x :: xs, y :: ys => by
    unfold commonPrefix
    rw [Tree.commonPrefixM]
    refine (Ok.call (P := fun b => ∃ w, (k.eq x y w).1 = .ret b) (fun w h => hk (.inl ⟨x, y, w, h⟩)) fun w b h => ⟨w, h⟩).bind fun b ⟨w, hb⟩ => ?_
    split
    · exact (commonPrefix_ok hk xs ys).bind fun n hn => Ok.pure ⟨by simpa using hn.1, by simpa using hn.2.1, fun _ => by omega⟩
    · rename_i hf
      refine Ok.pure ⟨Nat.zero_le _, Nat.zero_le _, ?_⟩
      rintro ⟨_, _, _, _, h1, h2, h3⟩
      cases h1; cases h2
      exact absurd (h3 w b hb) hf

theorem headsCmp_ok {mp : Prop} {k : Keys W K} (hk : KeysPanic k → mp) (hc : Consistent k) {a : Tree K V} {b : Tree K X} (ha : a.pre ≠ []) (hb : b.pre ≠ []) :
    Ok mp (headsCmp k a b) (fun o => o = .eq → Heads k a.pre b.pre) := by
  unfold headsCmp
  split
  · rename_i x xs y ys e1 e2
    obtain ⟨same, h1, h2⟩ := hc
    refine Ok.call (fun w h => hk (.inr ⟨x, y, w, h⟩)) fun w o ho he => ?_
    subst he
    exact ⟨x, xs, y, ys, e1, e2, fun w' r hr => h2 x y w' r (h1 x y w ho) hr⟩
  · rename_i hne
    obtain ⟨x, xs, e1⟩ := List.exists_cons_of_ne_nil ha
    obtain ⟨y, ys, e2⟩ := List.exists_cons_of_ne_nil hb
    exact absurd e2 (hne x xs y ys e1)

/-! ### Merging children in place -/
section op
variable {mp b c : Prop} {k : Keys W K} {takeA takeB : Bool} {conv : Tree K X → Call (Tree K V)}
  {rec : Tree K V → Tree K X → W → (Tree K V × Outcome Bool) × W}

def ShJ (b : Prop) (s : InPlaceMS (Tree K V) (Tree K X)) : Prop := ∀ t ∈ s.tgt, Ch b t
def ShI (b c : Prop) (as : List (Tree K V)) (bs : List (Tree K X)) (s : InPlaceMS (Tree K V) (Tree K X)) : Prop :=
  ShJ b s ∧ (∀ x ∈ s.src, x ∈ as ∧ Ch b x) ∧ ∀ y ∈ s.b, y ∈ bs ∧ Ch c y

theorem inPlaceOp_shape (hk : KeysPanic k → mp) (hc : Consistent k) {as : List (Tree K V)} {bs : List (Tree K X)}
    (hconv : takeB = true → ∀ y, Ch c y → ∃ t, conv y = .ret t ∧ Ch b t)
    (hrec : ∀ x ∈ as, ∀ y ∈ bs, Ch b x → Ch c y → Heads k x.pre y.pre → ∀ w, OkS mp (fun _ => True) (fun t => t.isEmpty = false → Ch b t) (rec x y w)) :
    OpOk mp (ShJ b) (ShI b c as bs) (fun x y => Heads k x.pre y.pre) (inPlaceOp k takeA takeB conv rec) where
  weaken _ h := h.1
  cmp s hs x hx y hy := headsCmp_ok hk hc (hs.2.1 x hx).2.1 (hs.2.2 y hy).2.1
  fromA s n w hs hn := by
    have hn : n ≤ s.src.length := hn
    obtain ⟨h1, h2, h3⟩ := consume_facts s n takeA hn
    have hj : ShJ b (s.consume n takeA) := by
      intro t ht
      rw [h3] at ht
      rcases List.mem_append.1 ht with h | h
      · exact hs.1 t h
      · cases takeA
        · cases h
        · exact (hs.2.1 t (List.mem_of_mem_take h)).2
    refine OkS.step hj (fun h => by cases h) fun _ => ⟨⟨hj, fun x hx => ?_, fun y hy => ?_⟩, h1, h2⟩
    · have hx : x ∈ (s.consume n takeA).src := hx
      rw [h1] at hx; exact hs.2.1 x (List.mem_of_mem_drop hx)
    · have hy : y ∈ (s.consume n takeA).b := hy
      rw [h2] at hy; exact hs.2.2 y hy
  fromB s n w hs hn := by
    have hn : n ≤ s.b.length := hn
    cases takeB with
    | false =>
      obtain ⟨h1, h2, h3⟩ := skipB_facts n s
      have hj : ShJ b (s.skipB n) := by intro t ht; rw [h3] at ht; exact hs.1 t ht
      refine OkS.step hj (fun h => by cases h) fun _ => ⟨⟨hj, fun x hx => ?_, fun y hy => ?_⟩, h1, h2⟩
      · have hx : x ∈ (s.skipB n).src := hx
        rw [h1] at hx; exact hs.2.1 x hx
      · have hy : y ∈ (s.skipB n).b := hy
        rw [h2] at hy; exact hs.2.2 y (List.mem_of_mem_drop hy)
    | true =>
      obtain ⟨ys, h1, h2, h3, h4, h5, h6⟩ := extend_facts conv n s hn
      have hj : ShJ b (s.extendFromIter conv n).1 := by
        intro t ht
        rw [h1] at ht
        rcases List.mem_append.1 ht with h | h
        · exact hs.1 t h
        · have : Call.ret t ∈ (s.b.take ys.length).map conv := by rw [h4]; exact List.mem_map_of_mem h
          obtain ⟨y, hy, e⟩ := List.mem_map.1 this
          obtain ⟨t', e', ht'⟩ := hconv rfl y (hs.2.2 y (List.mem_of_mem_take hy)).2
          rw [e'] at e; cases e; exact ht'
      refine OkS.step hj (fun hp => ?_) fun hcn => ?_
      · obtain ⟨y, hy, e⟩ := h6 hp
        obtain ⟨t', e', -⟩ := hconv rfl y (hs.2.2 y hy).2
        rw [e'] at e; cases e
      · obtain ⟨-, g2⟩ := h5 hcn
        refine ⟨⟨hj, fun x hx => ?_, fun y hy => ?_⟩, h2, g2⟩
        · have hx : x ∈ (s.extendFromIter conv n).1.src := hx
          rw [h2] at hx; exact hs.2.1 x hx
        · have hy : y ∈ (s.extendFromIter conv n).1.b := hy
          rw [g2] at hy; exact hs.2.2 y (List.mem_of_mem_drop hy)
  collision s x as' y bs' w hs ha hb hR := by
    have ha : s.src = x :: as' := ha
    have hb : s.b = y :: bs' := hb
    have hx := hs.2.1 x (by rw [ha]; simp)
    have hy := hs.2.2 y (by rw [hb]; simp)
    have hr := hrec x hx.1 y hy.1 hx.2 hy.2 hR w
    show OkS mp _ _ (match s.src, s.b with
      | x :: as, y :: _ =>
        andThen (onFirst s as (rec x y w)) fun s w' =>
        andThen (step ((InPlaceMS.mut conv).advanceA s 1 (!(rec x y w).1.1.isEmpty)) w') fun s w' =>
        step ((InPlaceMS.mut conv).advanceB s 1 false) w'
      | _, _ => ((s, .panic), w))
    rw [ha, hb]
    refine OkS.andThen (I := fun s' => s' = { s with src := (rec x y w).1.1 :: as' } ∧ ((rec x y w).1.1.isEmpty = false → Ch b (rec x y w).1.1))
      ⟨hs.1, hr.2.1, hr.2.2.1, fun h => ⟨rfl, hr.2.2.2 h⟩⟩ ?_
    rintro s' w' ⟨rfl, hgood⟩
    obtain ⟨h1, h2, h3⟩ := consume_facts { s with src := (rec x y w).1.1 :: as' } 1 (!(rec x y w).1.1.isEmpty) (by simp)
    have hj : ShJ b (InPlaceMS.consume { s with src := (rec x y w).1.1 :: as' } 1 (!(rec x y w).1.1.isEmpty)) := by
      intro t ht
      rw [h3] at ht
      rcases List.mem_append.1 ht with h | h
      · exact hs.1 t h
      · cases he : (rec x y w).1.1.isEmpty with
        | true => rw [he] at h; cases h
        | false =>
          rw [he] at h
          have : t = (rec x y w).1.1 := by simpa using h
          rw [this]; exact hgood he
    refine OkS.andThen (I := fun s' => s' = InPlaceMS.consume { s with src := (rec x y w).1.1 :: as' } 1 (!(rec x y w).1.1.isEmpty))
      (OkS.step hj (fun h => by cases h) fun _ => rfl) ?_
    rintro s' w' rfl
    obtain ⟨g1, g2, g3⟩ := skipB_facts 1 (InPlaceMS.consume { s with src := (rec x y w).1.1 :: as' } 1 (!(rec x y w).1.1.isEmpty))
    have hj' : ShJ b ((InPlaceMS.consume { s with src := (rec x y w).1.1 :: as' } 1 (!(rec x y w).1.1.isEmpty)).skipB 1) := by
      intro t ht; rw [g3] at ht; exact hj t ht
    refine OkS.step hj' (fun h => by cases h) fun _ => ⟨⟨hj', fun z hz => ?_, fun z hz => ?_⟩, g1.trans h1, g2.trans (by rw [h2, hb]; rfl)⟩
    · have hz : z ∈ ((InPlaceMS.consume { s with src := (rec x y w).1.1 :: as' } 1 (!(rec x y w).1.1.isEmpty)).skipB 1).src := hz
      rw [g1, h1] at hz
      exact hs.2.1 z (by rw [ha]; simp at hz; simp [hz])
    · have hz : z ∈ ((InPlaceMS.consume { s with src := (rec x y w).1.1 :: as' } 1 (!(rec x y w).1.1.isEmpty)).skipB 1).b := hz
      rw [g2, h2] at hz
      exact hs.2.2 z (List.mem_of_mem_drop hz)

end op

/-! ### The five combinations in place -/
section go
variable {mp b c : Prop} {k : Keys W K} {takeA takeB : Bool} {conv : Tree K X → Call (Tree K V)}
  {rec : Tree K V → Tree K X → W → (Tree K V × Outcome Bool) × W} {fuel : Nat}

/-- what a combination in place leaves behind, and what it returns -/
abbrev Res (mp b : Prop) (H : Prop) (r : (Tree K V × Outcome Bool) × W) : Prop :=
  OkS mp Headed (fun t => Out b t ∧ (H → t.isEmpty = false → t.pre ≠ [])) r

/-- what the part before `unsplit` leaves behind -/
abbrev Part (mp b : Prop) (p : List K) (r : (Tree K V × Outcome Bool) × W) : Prop := OkS mp Headed (fun t => Mid b t ∧ t.pre = p) r

theorem Out.ch {t : Tree K V} (h : Out b t) (he : t.isEmpty = false) (hp : t.pre ≠ []) : Ch b t :=
  ⟨hp, h.1, fun hb => (h.2 hb).resolve_left fun e => by rw [e] at he; cases he⟩

theorem kids_shape (hk : KeysPanic k → mp) (hc : Consistent k) (hconv : takeB = true → ∀ y, Ch c y → ∃ t, conv y = .ret t ∧ Ch b t)
    (hrec : ∀ x y w, x.size + y.size < fuel → In b x → In c y → Res mp b (Heads k x.pre y.pre) (rec x y w)) (t : Tree K V) (rhs : List (Tree K X))
    (hs : ∀ x ∈ t.kids, ∀ y ∈ rhs, x.size + y.size < fuel) (ht : Mid b t) (hr : ∀ y ∈ rhs, Ch c y) (w : W) :
    Part mp b t.pre (childrenWith (inPlaceOp k takeA takeB conv rec) t rhs w) := by
  have hop := inPlaceOp_shape (b := b) (c := c) (takeA := takeA) (takeB := takeB) (conv := conv) (rec := rec) hk hc (as := t.kids) (bs := rhs) hconv
    (by
      intro x hx y hy hxc hyc hH w
      obtain ⟨-, r2, r3, r4⟩ := hrec x y w (hs x hx y hy) hxc.toIn hyc.toIn
      exact ⟨trivial, r2, r3, fun h he => (r4 h).1.ch he ((r4 h).2 hH he)⟩)
  obtain ⟨h1, h2, h3, h4⟩ := driveAll_ok hop { tgt := [], src := t.kids, b := rhs } w
    ⟨fun _ h => (by cases h), fun x hx => ⟨hx, ht x hx⟩, fun y hy => ⟨hy, hr y hy⟩⟩
  exact ⟨Mid.headed (b := b) h1, h2, h3, fun h => ⟨h1, rfl⟩⟩

theorem withMat_shape {p : List K} {y : Tree K X} {n : Nat} {t : Tree K V} {kk : Tree K X → W → (Tree K V × Outcome Bool) × W} {w : W} (hn : n < y.pre.length)
    (hy : Headed y) (h : Part mp b p (kk { y with pre := y.pre.drop n } w)) : Part mp b p (withMat (y.materializeShortened n) t kk w) := by
  unfold withMat
  rw [materialize_total y n hn hy]; exact h

theorem split_shape {p : List K} {t : Tree K V} {n : Nat} {kk : Tree K V → W → (Tree K V × Outcome Bool) × W} {w : W} (hn : n < t.pre.length)
    (h : ∀ w, Part mp b p (kk { pre := t.pre.take n, val := none, kids := [{ t with pre := t.pre.drop n }] } w)) :
    Part mp b p (andThen (step (t.split n) w) kk) := by
  unfold Tree.split
  rw [if_pos hn]
  exact h w

theorem val_shape {p : List K} {t : Tree K V} {r : Option V × Flow} {kk : Tree K V → W → (Tree K V × Outcome Bool) × W} {w : W} (hr : r.2 = .panic → mp)
    (ht : Mid b t) (h : ∀ w, Part mp b p (kk { t with val := r.1 } w)) : Part mp b p (andThen (step (t.withVal r) w) kk) :=
  OkS.andThen (I := fun s => s = { t with val := r.1 }) (OkS.step (ht.headed.kids rfl) hr fun _ => rfl) fun s w hs => by rw [hs]; exact h w

theorem ret_shape {p : List K} {t : Tree K V} {w : W} (ht : Mid b t) (hp : t.pre = p) : Part mp b p ((t, .ret true), w) :=
  OkS.ret ht.headed fun _ => ⟨ht, hp⟩

theorem body_shape {cases : Nat → Tree K V → Tree K X → W → (Tree K V × Outcome Bool) × W} {x : Tree K V} {y : Tree K X} (w : W) (hk : KeysPanic k → mp)
    (hx : In b x) (h : ∀ n w, n ≤ x.pre.length → n ≤ y.pre.length → ∃ p, (1 ≤ n → 1 ≤ x.pre.length → p ≠ []) ∧ Part mp b p (cases n x y w)) :
    Res mp b (Heads k x.pre y.pre) (body k cases x y w) := by
  unfold body
  obtain ⟨h1, h2, h3⟩ := commonPrefix_ok hk x.pre y.pre w
  split
  · rename_i w' he
    rw [he] at h2
    exact OkS.panic hx.headed (h2 rfl)
  · rename_i w' he; rw [he] at h3; exact absurd rfl h3
  · rename_i n w' he
    rw [he] at h1
    obtain ⟨g1, g2, g3⟩ := h1 n rfl
    obtain ⟨p, hp, hpart⟩ := h n w' g1 g2
    refine hpart.andThen fun t w ht => OkS.ret (unsplit_out ht.1).1 fun _ => ⟨unsplit_out ht.1, fun hH he => ?_⟩
    obtain ⟨r, e⟩ := Tree.unsplit_pre he
    show t.unsplit.pre ≠ []
    rw [e, ht.2]
    intro h0
    exact hp (g3 hH) (by have := g3 hH; omega) (List.append_eq_nil_iff.1 h0).1

theorem applyMut_panic {f : Tree.MutFn V X} {v : V} {w : X} (h : (Tree.applyMut f v w).2 = .panic) : (f v w).2 = .panic := by
  unfold Tree.applyMut at h
  split at h
  · cases h
  · cases h
  · rename_i e; rw [e]
theorem outerVal_panic {f : Tree.MutFn V V} {v w : Option V} (h : (Tree.outerVal f v w).2 = .panic) : ∃ v w, (f v w).2 = .panic := by
  cases w with
  | none => cases h
  | some w =>
    cases v with
    | none => cases h
    | some v => exact ⟨v, w, applyMut_panic h⟩
theorem innerVal_panic {f : Tree.MutFn V X} {v : Option V} {w : Option X} (h : (Tree.innerVal f v w).2 = .panic) : ∃ v w, (f v w).2 = .panic := by
  unfold Tree.innerVal at h
  split at h
  · exact ⟨_, _, applyMut_panic h⟩
  · cases h
theorem leftVal_panic {f : Tree.MutFn V X} {v : Option V} {w : Option X} (h : (Tree.leftVal f v w).2 = .panic) : ∃ v w, (f v w).2 = .panic := by
  cases w with
  | none => cases h
  | some w =>
    cases v with
    | none => cases h
    | some v => exact ⟨v, w, applyMut_panic h⟩

theorem take_ne {p : List K} {n : Nat} (h : 1 ≤ n) (hp : 1 ≤ p.length) : p.take n ≠ [] := by
  intro e
  have := congrArg List.length e
  rw [List.length_take, List.length_nil] at this
  omega
theorem ne_of_pos {p : List K} (hp : 1 ≤ p.length) : p ≠ [] := by intro e; rw [e] at hp; simp at hp

theorem materialize_ch {y : Tree K V} (h : Ch b y) : ∃ t, y.materialize = .ret t ∧ Ch b t := by
  refine ⟨_, materialize_total y 0 (List.length_pos_iff.2 h.1) h.2.1, ?_⟩
  exact h.toIn.drop (List.length_pos_iff.2 h.1)

theorem outerWithGo_shape {sort : Sorter W (Tree K V)} {f : Tree.MutFn V V} (hk : KeysPanic k → mp) (hc : Consistent k) (hr : Rearranges sort)
    (hsp : SortingPanics sort → mp) (hf : (∃ v w, (f v w).2 = .panic) → mp) : ∀ (fuel : Nat) (x y : Tree K V) (w : W), x.size + y.size < fuel → In b x → In b y →
    Res mp b (Heads k x.pre y.pre) (outerWithGo k sort f fuel x y w)
  | 0, x, y, w, h, _, _ => by omega
  | fuel + 1, x, y, w, h, hx, hy => by
    have ih := fun x y w h => outerWithGo_shape hk hc hr hsp hf fuel x y w h
    rw [outerWithGo]
    refine body_shape w hk hx fun n w hn1 hn2 => ?_
    have hconv : true = true → ∀ y : Tree K V, Ch b y → ∃ t, y.materialize = .ret t ∧ Ch b t := fun _ y h => materialize_ch h
    unfold outerWithCases
    split
    · refine ⟨x.pre, fun _ h => ne_of_pos h, ?_⟩
      exact val_shape (fun h => hf (outerVal_panic h)) hx.1 fun w => kids_shape hk hc hconv ih _ _ (by exact kids_lt (a := x) h) (by exact hx.1) hy.1 w
    split
    · rename_i g1 g2
      have hlt : n < y.pre.length := by omega
      refine ⟨x.pre, fun _ h => ne_of_pos h, ?_⟩
      exact withMat_shape hlt hy.headed (kids_shape hk hc hconv ih _ _ (short_lt (a := x) h n) (by exact hx.1) (fun z hz => by
        obtain rfl := List.mem_singleton.1 hz; exact hy.drop hlt) w)
    split
    · rename_i g1 g2 g3
      have hlt : n < x.pre.length := by omega
      refine ⟨x.pre.take n, take_ne, ?_⟩
      exact split_shape hlt fun w => val_shape (fun h => hf (outerVal_panic h)) (hx.drop hlt).kid fun w =>
        kids_shape hk hc hconv ih _ _ (by exact split_lt (a := x) h n) (by exact (hx.drop hlt).kid) hy.1 w
    · rename_i g1 g2 g3
      have hlt : n < x.pre.length := by omega
      have hlt' : n < y.pre.length := by omega
      refine ⟨x.pre.take n, take_ne, ?_⟩
      refine split_shape hlt fun w => withMat_shape hlt' hy.headed ?_
      have hp := hr ([({ x with pre := x.pre.drop n } : Tree K V)] ++ [{ y with pre := y.pre.drop n }]) w
      have hm : ∀ t ∈ ([({ x with pre := x.pre.drop n } : Tree K V)] ++ [{ y with pre := y.pre.drop n }]), Ch b t := by
        intro t ht
        rcases List.mem_append.1 ht with ht | ht
        · obtain rfl := List.mem_singleton.1 ht; exact hx.drop hlt
        · obtain rfl := List.mem_singleton.1 ht; exact hy.drop hlt'
      unfold pushSort
      refine ⟨Mid.headed (b := b) fun t ht => hm t (hp.mem_iff.1 ht), ?_, ?_, fun _ => ⟨fun t ht => hm t (hp.mem_iff.1 ht), rfl⟩⟩
      · dsimp only
        split <;> (intro h; cases h)
      · dsimp only
        split
        · intro h; cases h
        · rename_i e
          exact fun _ => hsp ⟨_, _, fun t ht => (hm t ht).1, e⟩

theorem innerWithGo_shape {f : Tree.MutFn V X} (hk : KeysPanic k → mp) (hc : Consistent k)
    (hf : (∃ v w, (f v w).2 = .panic) → mp) : ∀ (fuel : Nat) (x : Tree K V) (y : Tree K X) (w : W), x.size + y.size < fuel → In b x → In c y →
    Res mp b (Heads k x.pre y.pre) (innerWithGo k f fuel x y w)
  | 0, x, y, w, h, _, _ => by omega
  | fuel + 1, x, y, w, h, hx, hy => by
    have ih := fun x y w h => innerWithGo_shape hk hc hf fuel x y w h
    rw [innerWithGo]
    refine body_shape w hk hx fun n w hn1 hn2 => ?_
    have hconv : false = true → ∀ y : Tree K X, Ch c y → ∃ t, (noConverter y : Call (Tree K V)) = .ret t ∧ Ch b t := fun h => by cases h
    unfold innerWithCases
    split
    · refine ⟨x.pre, fun _ h => ne_of_pos h, ?_⟩
      exact val_shape (fun h => hf (innerVal_panic h)) hx.1 fun w => kids_shape hk hc hconv ih _ _ (by exact kids_lt (a := x) h) (by exact hx.1) hy.1 w
    split
    · rename_i g1 g2
      have hlt : n < y.pre.length := by omega
      refine ⟨x.pre, fun _ h => ne_of_pos h, ?_⟩
      exact withMat_shape hlt hy.headed (kids_shape hk hc hconv ih _ _ (by exact short_lt (a := x) h n) (by exact hx.1) (fun z hz => by
        obtain rfl := List.mem_singleton.1 hz; exact hy.drop hlt) w)
    split
    · rename_i g1 g2 g3
      have hlt : n < x.pre.length := by omega
      refine ⟨x.pre.take n, take_ne, ?_⟩
      exact split_shape hlt fun w => kids_shape hk hc hconv ih _ _ (by exact split_lt (a := x) h n) (by exact (hx.drop hlt).kid) hy.1 w
    · exact ⟨x.pre, fun _ h => ne_of_pos h, ret_shape (fun t ht => by cases ht) rfl⟩

theorem leftWithGo_shape {f : Tree.MutFn V X} (hk : KeysPanic k → mp) (hc : Consistent k)
    (hf : (∃ v w, (f v w).2 = .panic) → mp) : ∀ (fuel : Nat) (x : Tree K V) (y : Tree K X) (w : W), x.size + y.size < fuel → In b x → In c y →
    Res mp b (Heads k x.pre y.pre) (leftWithGo k f fuel x y w)
  | 0, x, y, w, h, _, _ => by omega
  | fuel + 1, x, y, w, h, hx, hy => by
    have ih := fun x y w h => leftWithGo_shape hk hc hf fuel x y w h
    rw [leftWithGo]
    refine body_shape w hk hx fun n w hn1 hn2 => ?_
    have hconv : false = true → ∀ y : Tree K X, Ch c y → ∃ t, (noConverter y : Call (Tree K V)) = .ret t ∧ Ch b t := fun h => by cases h
    unfold leftWithCases
    split
    · refine ⟨x.pre, fun _ h => ne_of_pos h, ?_⟩
      exact val_shape (fun h => hf (leftVal_panic h)) hx.1 fun w => kids_shape hk hc hconv ih _ _ (by exact kids_lt (a := x) h) (by exact hx.1) hy.1 w
    split
    · rename_i g1 g2
      have hlt : n < y.pre.length := by omega
      refine ⟨x.pre, fun _ h => ne_of_pos h, ?_⟩
      exact withMat_shape hlt hy.headed (kids_shape hk hc hconv ih _ _ (by exact short_lt (a := x) h n) (by exact hx.1) (fun z hz => by
        obtain rfl := List.mem_singleton.1 hz; exact hy.drop hlt) w)
    split
    · rename_i g1 g2 g3
      have hlt : n < x.pre.length := by omega
      refine ⟨x.pre.take n, take_ne, ?_⟩
      exact split_shape hlt fun w => kids_shape hk hc hconv ih _ _ (by exact split_lt (a := x) h n) (by exact (hx.drop hlt).kid) hy.1 w
    · exact ⟨x.pre, fun _ h => ne_of_pos h, ret_shape hx.1 rfl⟩

theorem removePrefixGo_shape {f : X → Bool} (hk : KeysPanic k → mp) (hc : Consistent k) :
    ∀ (fuel : Nat) (x : Tree K V) (y : Tree K X) (w : W), x.size + y.size < fuel → In b x → In c y →
    Res mp b (Heads k x.pre y.pre) (removePrefixGo k f fuel x y w)
  | 0, x, y, w, h, _, _ => by omega
  | fuel + 1, x, y, w, h, hx, hy => by
    have ih := fun x y w h => removePrefixGo_shape (f := f) hk hc fuel x y w h
    rw [removePrefixGo]
    refine body_shape w hk hx fun n w hn1 hn2 => ?_
    have hconv : false = true → ∀ y : Tree K X, Ch c y → ∃ t, (noConverter y : Call (Tree K V)) = .ret t ∧ Ch b t := fun h => by cases h
    unfold removePrefixCases
    split
    · split
      · exact ⟨x.pre, fun _ h => ne_of_pos h, ret_shape (fun t ht => by cases ht) rfl⟩
      · exact ⟨x.pre, fun _ h => ne_of_pos h, kids_shape hk hc hconv ih _ _ (by exact kids_lt (a := x) h) (by exact hx.1) hy.1 w⟩
    split
    · split
      · exact ⟨x.pre, fun _ h => ne_of_pos h, ret_shape (fun t ht => by cases ht) rfl⟩
      · rename_i g1 g2 g3
        have hlt : n < x.pre.length := by omega
        refine ⟨x.pre.take n, take_ne, ?_⟩
        exact split_shape hlt fun w => kids_shape hk hc hconv ih _ _ (by exact split_lt (a := x) h n) (by exact (hx.drop hlt).kid) hy.1 w
    split
    · rename_i g1 g2 g3
      have hlt : n < y.pre.length := by omega
      refine ⟨x.pre, fun _ h => ne_of_pos h, ?_⟩
      exact withMat_shape hlt hy.headed (kids_shape hk hc hconv ih _ _ (by exact short_lt (a := x) h n) (by exact hx.1) (fun z hz => by
        obtain rfl := List.mem_singleton.1 hz; exact hy.drop hlt) w)
    · exact ⟨x.pre, fun _ h => ne_of_pos h, ret_shape hx.1 rfl⟩

theorem retainPrefixGo_shape {f : X → Bool} (hk : KeysPanic k → mp) (hc : Consistent k) :
    ∀ (fuel : Nat) (x : Tree K V) (y : Tree K X) (w : W), x.size + y.size < fuel → In b x → In c y →
    Res mp b (Heads k x.pre y.pre) (retainPrefixGo k f fuel x y w)
  | 0, x, y, w, h, _, _ => by omega
  | fuel + 1, x, y, w, h, hx, hy => by
    have ih := fun x y w h => retainPrefixGo_shape (f := f) hk hc fuel x y w h
    rw [retainPrefixGo]
    refine body_shape w hk hx fun n w hn1 hn2 => ?_
    have hconv : false = true → ∀ y : Tree K X, Ch c y → ∃ t, (noConverter y : Call (Tree K V)) = .ret t ∧ Ch b t := fun h => by cases h
    unfold retainPrefixCases
    split
    · split
      · exact ⟨x.pre, fun _ h => ne_of_pos h, kids_shape hk hc hconv ih _ _ (by exact kids_lt (a := x) h) (by exact hx.1) hy.1 w⟩
      · exact ⟨x.pre, fun _ h => ne_of_pos h, ret_shape hx.1 rfl⟩
    split
    · split
      · rename_i g1 g2 g3
        have hlt : n < x.pre.length := by omega
        refine ⟨x.pre.take n, take_ne, ?_⟩
        exact split_shape hlt fun w => kids_shape hk hc hconv ih _ _ (by exact split_lt (a := x) h n) (by exact (hx.drop hlt).kid) hy.1 w
      · exact ⟨x.pre, fun _ h => ne_of_pos h, ret_shape hx.1 rfl⟩
    split
    · rename_i g1 g2 g3
      have hlt : n < y.pre.length := by omega
      refine ⟨x.pre, fun _ h => ne_of_pos h, ?_⟩
      exact withMat_shape hlt hy.headed (kids_shape hk hc hconv ih _ _ (by exact short_lt (a := x) h n) (by exact hx.1) (fun z hz => by
        obtain rfl := List.mem_singleton.1 hz; exact hy.drop hlt) w)
    · exact ⟨x.pre, fun _ h => ne_of_pos h, ret_shape (fun t ht => by cases ht) rfl⟩

/-! They are never told to end early. -/

theorem extend_notStopped : ∀ (n : Nat) (s : InPlaceMS (Tree K V) (Tree K X)), (s.extendFromIter conv n).2 ≠ .stop
  | 0, s => by intro h; cases h
  | n + 1, s => by
    rw [InPlaceMS.extendFromIter]
    split
    · intro h; cases h
    · split
      · intro h; cases h
      · exact extend_notStopped n _

theorem kids_notStopped (hrec : ∀ x y w, NotStopped (rec x y w)) (t : Tree K V) (rhs : List (Tree K X)) (w : W) :
    NotStopped (childrenWith (inPlaceOp k takeA takeB conv rec) t rhs w) := by
  have := drive_notStopped (op := inPlaceOp k takeA takeB conv rec) (by intro s n h; cases h)
    (by
      intro s n
      show ((InPlaceMS.mut conv).advanceB s n takeB).2 ≠ .stop
      cases takeB with
      | false => intro h; cases h
      | true => exact extend_notStopped n s)
    (by
      intro s w
      show NotStopped (match s.src, s.b with
        | x :: as, y :: _ =>
          andThen (onFirst s as (rec x y w)) fun s w' =>
          andThen (step ((InPlaceMS.mut conv).advanceA s 1 (!(rec x y w).1.1.isEmpty)) w') fun s w' =>
          step ((InPlaceMS.mut conv).advanceB s 1 false) w'
        | _, _ => ((s, .panic), w))
      split
      · rename_i x as y bs _ _
        refine NotStopped.andThen (r := onFirst s as (rec x y w)) (hrec x y w) fun s w => ?_
        refine (NotStopped.step ?_).andThen fun s w => NotStopped.step ?_
        · intro h; cases h
        · intro h; cases h
      · exact NotStopped.panic)
  exact this _ _ _ w

theorem withMat_notStopped {cc : Call (Tree K X)} {t : Tree K V} {kk : Tree K X → W → (Tree K V × Outcome Bool) × W} {w : W} (h : ∀ y w, NotStopped (kk y w)) :
    NotStopped (withMat cc t kk w) := by
  unfold withMat
  split
  · exact NotStopped.panic
  · exact h _ _
theorem split_notStopped {t : Tree K V} {n : Nat} : (t.split n).2 ≠ .stop := by
  unfold Tree.split
  split <;> (intro h; cases h)
theorem applyMut_notStopped {f : Tree.MutFn V X} {v : V} {w : X} : (Tree.applyMut f v w).2 ≠ .stop := by
  unfold Tree.applyMut
  split <;> (intro h; cases h)
theorem outerVal_notStopped {f : Tree.MutFn V V} {v w : Option V} : (Tree.outerVal f v w).2 ≠ .stop := by
  unfold Tree.outerVal
  split
  · split
    · exact applyMut_notStopped
    · intro h; cases h
  · intro h; cases h
theorem innerVal_notStopped {f : Tree.MutFn V X} {v : Option V} {w : Option X} : (Tree.innerVal f v w).2 ≠ .stop := by
  unfold Tree.innerVal
  split
  · exact applyMut_notStopped
  · intro h; cases h
theorem leftVal_notStopped {f : Tree.MutFn V X} {v : Option V} {w : Option X} : (Tree.leftVal f v w).2 ≠ .stop := by
  unfold Tree.leftVal
  split
  · split
    · exact applyMut_notStopped
    · intro h; cases h
  · intro h; cases h
theorem val_notStopped {t : Tree K V} {r : Option V × Flow} {w : W} (h : r.2 ≠ .stop) : NotStopped (step (t.withVal r) w) := NotStopped.step h
theorem ret_notStopped {t : Tree K V} {w : W} : NotStopped ((t, .ret true), w) := by intro h; cases h
theorem pushSort_notStopped {sort : Sorter W (Tree K V)} {t s : Tree K V} {w : W} : NotStopped (pushSort sort t s w) := by
  unfold pushSort NotStopped
  dsimp only
  split <;> (intro h; cases h)
theorem body_notStopped {cases : Nat → Tree K V → Tree K X → W → (Tree K V × Outcome Bool) × W} {x : Tree K V} {y : Tree K X} {w : W}
    (h : ∀ n w, NotStopped (cases n x y w)) : NotStopped (body k cases x y w) := by
  unfold body
  split
  · exact NotStopped.panic
  · intro h; cases h
  · exact (h _ _).andThen fun _ _ => ret_notStopped

theorem outerWithGo_notStopped {sort : Sorter W (Tree K V)} {f : Tree.MutFn V V} : ∀ (fuel : Nat) (x : Tree K V) (y : Tree K V) (w : W), NotStopped (outerWithGo k sort f fuel x y w)
  | 0, x, y, w => by intro h; cases h
  | fuel + 1, x, y, w => by
    have ih : ∀ x y w, NotStopped (outerWithGo k sort f fuel x y w) := fun x y w => outerWithGo_notStopped fuel x y w
    rw [outerWithGo]
    refine body_notStopped fun n w => ?_
    unfold outerWithCases
    split
    · exact (val_notStopped outerVal_notStopped).andThen fun _ _ => kids_notStopped ih _ _ _
    split
    · exact withMat_notStopped fun _ _ => kids_notStopped ih _ _ _
    split
    · exact (NotStopped.step split_notStopped).andThen fun _ _ => (val_notStopped outerVal_notStopped).andThen fun _ _ => kids_notStopped ih _ _ _
    · exact (NotStopped.step split_notStopped).andThen fun _ _ => withMat_notStopped fun _ _ => pushSort_notStopped

theorem innerWithGo_notStopped {f : Tree.MutFn V X} : ∀ (fuel : Nat) (x : Tree K V) (y : Tree K X) (w : W), NotStopped (innerWithGo k f fuel x y w)
  | 0, x, y, w => by intro h; cases h
  | fuel + 1, x, y, w => by
    have ih : ∀ x y w, NotStopped (innerWithGo k f fuel x y w) := fun x y w => innerWithGo_notStopped fuel x y w
    rw [innerWithGo]
    refine body_notStopped fun n w => ?_
    unfold innerWithCases
    split
    · exact (val_notStopped innerVal_notStopped).andThen fun _ _ => kids_notStopped ih _ _ _
    split
    · exact withMat_notStopped fun _ _ => kids_notStopped ih _ _ _
    split
    · exact (NotStopped.step split_notStopped).andThen fun _ _ => kids_notStopped ih _ _ _
    · exact ret_notStopped

theorem leftWithGo_notStopped {f : Tree.MutFn V X} : ∀ (fuel : Nat) (x : Tree K V) (y : Tree K X) (w : W), NotStopped (leftWithGo k f fuel x y w)
  | 0, x, y, w => by intro h; cases h
  | fuel + 1, x, y, w => by
    have ih : ∀ x y w, NotStopped (leftWithGo k f fuel x y w) := fun x y w => leftWithGo_notStopped fuel x y w
    rw [leftWithGo]
    refine body_notStopped fun n w => ?_
    unfold leftWithCases
    split
    · exact (val_notStopped leftVal_notStopped).andThen fun _ _ => kids_notStopped ih _ _ _
    split
    · exact withMat_notStopped fun _ _ => kids_notStopped ih _ _ _
    split
    · exact (NotStopped.step split_notStopped).andThen fun _ _ => kids_notStopped ih _ _ _
    · exact ret_notStopped

theorem removePrefixGo_notStopped {f : X → Bool} : ∀ (fuel : Nat) (x : Tree K V) (y : Tree K X) (w : W), NotStopped (removePrefixGo k f fuel x y w)
  | 0, x, y, w => by intro h; cases h
  | fuel + 1, x, y, w => by
    have ih : ∀ x y w, NotStopped (removePrefixGo k f fuel x y w) := fun x y w => removePrefixGo_notStopped fuel x y w
    rw [removePrefixGo]
    refine body_notStopped fun n w => ?_
    unfold removePrefixCases
    split
    · split
      · exact ret_notStopped
      · exact kids_notStopped ih _ _ _
    split
    · split
      · exact ret_notStopped
      · exact (NotStopped.step split_notStopped).andThen fun _ _ => kids_notStopped ih _ _ _
    split
    · exact withMat_notStopped fun _ _ => kids_notStopped ih _ _ _
    · exact ret_notStopped

theorem retainPrefixGo_notStopped {f : X → Bool} : ∀ (fuel : Nat) (x : Tree K V) (y : Tree K X) (w : W), NotStopped (retainPrefixGo k f fuel x y w)
  | 0, x, y, w => by intro h; cases h
  | fuel + 1, x, y, w => by
    have ih : ∀ x y w, NotStopped (retainPrefixGo k f fuel x y w) := fun x y w => retainPrefixGo_notStopped fuel x y w
    rw [retainPrefixGo]
    refine body_notStopped fun n w => ?_
    unfold retainPrefixCases
    split
    · split
      · exact kids_notStopped ih _ _ _
      · exact ret_notStopped
    split
    · split
      · exact (NotStopped.step split_notStopped).andThen fun _ _ => kids_notStopped ih _ _ _
      · exact ret_notStopped
    split
    · exact withMat_notStopped fun _ _ => kids_notStopped ih _ _ _
    · exact ret_notStopped

end go

end Radix
end Hostile
end Verif
