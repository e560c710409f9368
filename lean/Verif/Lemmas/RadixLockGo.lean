import Verif.Lemmas.RadixLock
/-! The stateful in-place combinations against the plain ones on tagged trees. -/
namespace Verif
namespace Tree
open Std

section
variable {K V W S : Type _} [Ord K]

/-- what a recursive call emits, and the state it leaves -/
def recEmitE (r : (Tree K V × S) × Flow) : Emit (Tree K V) × S := (recEmit (r.1.1, r.2), r.1.2)

theorem inPlaceOpE_opE (takeA takeB : Bool) (conv : Tree K W → Call (Tree K V)) (rec : Tree K V → Tree K W → S → (Tree K V × S) × Flow) :
    OpE (inPlaceOpE takeA takeB conv rec) (fun s => s.tgt)
      (fun x => Emit.ret (if takeA then some x else none)) (fun y => if takeB then (conv y).emit else ([], .cont))
      (fun x y c => recEmitE (rec x y c)) where
  cmp := rfl
  fromA s n h1 hn := by
    have h := (inPlaceOp_implements takeA takeB conv fun x _ => (x, .cont)).fromA s.1 n trivial h1 hn
    exact ⟨h.flow, h.out, rfl, h.a, h.b⟩
  fromB s n h1 hn := by
    have h := (inPlaceOp_implements takeA takeB conv fun x _ => (x, .cont)).fromB s.1 n trivial h1 hn
    exact ⟨h.flow, h.out, rfl, h.a, h.b⟩
  collision s x as y bs ha hb := by
    obtain ⟨⟨tgt, src, b⟩, c⟩ := s
    simp only [MergeState.aSlice, MergeState.bSlice] at ha hb
    subst ha hb
    rcases h : rec x y c with ⟨⟨r, c'⟩, fl⟩
    simp only [inPlaceOpE, h, recEmitE, recEmit]
    cases fl with
    | stop => exact ⟨rfl, by simp [andThen], rfl, by simp [andThen], by simp [andThen]⟩
    | panic => exact ⟨rfl, by simp [andThen], rfl, by simp [andThen], by simp [andThen]⟩
    | cont =>
      cases he : r.isEmpty with
      | true =>
        refine ⟨rfl, ?_, rfl, ?_, ?_⟩ <;>
          simp [andThen, Verif.quiet, InPlaceMS.mut, InPlaceMS.consume, InPlaceMS.skipB, Emit.ret, nonEmpty, he, MergeState.aSlice, MergeState.bSlice]
      | false =>
        refine ⟨rfl, ?_, rfl, ?_, ?_⟩ <;>
          simp [andThen, Verif.quiet, InPlaceMS.mut, InPlaceMS.consume, InPlaceMS.skipB, Emit.ret, nonEmpty, he, MergeState.aSlice, MergeState.bSlice]

variable {O : Type _}

/-- a stateful run agrees with a plain run on tagged trees -/
structure Lock (F : V → O → S → Option V × Bool × S) (L : List (List K × V × O)) (q : List K) (c : S) (r : (Tree K V × S) × Flow)
    (r' : Tree K (List K × V) × Flow) : Prop where
  ran : Ran F L c r.1.2 r.2
  eq : r' = (tag q r.1.1, r.2)

variable [TransOrd K] [LawfulEqOrd K] [DecidableEq K]

theorem childrenWithE_lock {F : V → O → S → Option V × Bool × S} {o : Obs K W (Option O)} (hno : o.no = none) {takeA takeB : Bool}
    {conv : Tree K W → Call (Tree K V)} {conv' : Tree K (List K × W) → Call (Tree K (List K × V))}
    {rec : Tree K V → Tree K W → S → (Tree K V × S) × Flow} {rec' : Tree K (List K × V) → Tree K (List K × W) → Tree K (List K × V) × Flow}
    {q : List K} {st : List K → S} (t : Tree K V) (c : S) {rhs : List (Tree K W)} (ka : Kids t.kids) (kb : Kids rhs)
    (hconv : takeB = true → ∀ y, Valid y → y.pre ≠ [] → ∃ z, conv y = .ret z ∧ conv' (tag (q ++ t.pre) y) = .ret (tag (q ++ t.pre) z))
    (hrec : ∀ x ∈ t.kids, ∀ y ∈ rhs, hd x = hd y → ∀ c, Follows F st (asks o x y) c →
      Lock F (asks o x y) (q ++ t.pre) c (rec x y c) (rec' (tag (q ++ t.pre) x) (tag (q ++ t.pre) y)))
    (hf : Follows F st (asksL o t.kids rhs) c) :
    Lock F (asksL o t.kids rhs) q c (childrenWithE (inPlaceOpE takeA takeB conv rec) (t, c) rhs)
      (childrenWith (inPlaceOp takeA takeB conv' rec') (tag q t) (rhs.map (tag (q ++ t.pre)))) := by
  have M := merge_lock (ex := true) (F := F) (st := st) (q := q ++ t.pre) (inPlaceOpE_opE takeA takeB conv rec) hno
    (fa' := fun x => Emit.ret (if takeA then some x else none)) (fb' := fun y => if takeB then (conv' y).emit else ([], .cont))
    (fc' := fun x y => recEmit (rec' x y))
    (by intro x _ _; cases takeA <;> rfl)
    (by
      intro y hy hp
      cases takeB with
      | false => rfl
      | true =>
        obtain ⟨z, h1, h2⟩ := hconv rfl y hy hp
        simp only [↓reduceIte, h1, h2, Call.emit, mapE, List.map_cons, List.map_nil])
    (by
      intro l hl
      clear hl
      induction l with
      | nil => rfl
      | cons x l ih =>
        rw [collect]
        cases takeA <;> simpa [Emit.ret, Emit.seq] using ih)
    (by
      intro l hl
      cases takeB with
      | false =>
        clear hl
        induction l with
        | nil => rfl
        | cons x l ih => rw [collect]; simpa [Emit.seq] using ih
      | true =>
        induction l with
        | nil => rfl
        | cons x l ih =>
          have ih := ih (hl.sublist (List.sublist_cons_self ..))
          obtain ⟨z, h1, _⟩ := hconv rfl x (hl.valid x (by simp)) (hl.ne x (by simp))
          rw [collect]
          simpa [Emit.seq, h1, Call.emit] using ih)
    (s := (({ tgt := [], src := t.kids, b := rhs } : InPlaceMS _ _), c)) ka kb
    (by
      intro x hx y hy he c hf
      obtain ⟨h1, h2⟩ := hrec x hx y hy he c hf
      refine ⟨?_, fun _ => ?_⟩
      · have : (recEmitE (rec x y c)).1.2 = (rec x y c).2 := by
          simp only [recEmitE, recEmit]
          cases (rec x y c).2 <;> rfl
        rw [this]
        exact h1
      · rw [h2]
        simp only [recEmitE, recEmit]
        cases (rec x y c).2 with
        | stop => rfl
        | panic => rfl
        | cont =>
          simp only [Emit.ret, nonEmpty, tag_isEmpty, mapE]
          cases (rec x y c).1.1.isEmpty <;> rfl)
    hf
  have P := mergeAll_spec (inPlaceOp_implements takeA takeB conv' rec') (ka := hd) (kb := hd) headCmp_eq
    ({ tgt := [], src := t.kids.map (tag (q ++ t.pre)), b := rhs.map (tag (q ++ t.pre)) } : InPlaceMS _ _) trivial (tag_kids_ok ka).asc
    (tag_kids_ok kb).asc
  obtain ⟨M1, M2⟩ := M
  have M2 := M2 (.inl rfl)
  have P1 := P.flow
  have P2 := P.out
  simp only [MergeState.aSlice, MergeState.bSlice, List.map_nil, List.nil_append] at M1 M2 P1 P2
  have e1 : childrenWithE (inPlaceOpE takeA takeB conv rec) (t, c) rhs =
      (({ t with kids := (mergeAll (inPlaceOpE takeA takeB conv rec) ({ tgt := [], src := t.kids, b := rhs }, c)).1.1.tgt },
        (mergeAll (inPlaceOpE takeA takeB conv rec) ({ tgt := [], src := t.kids, b := rhs }, c)).1.2),
        (mergeAll (inPlaceOpE takeA takeB conv rec) ({ tgt := [], src := t.kids, b := rhs }, c)).2) := by
    unfold childrenWithE
    simp only [ka.headed, kb.headed, Bool.and_self, ↓reduceIte, InPlaceMS.mergeE]
  rw [e1]
  refine ⟨M1, ?_⟩
  unfold childrenWith
  rw [tag_kids, tag_headed, tag_headed, ka.headed, kb.headed]
  simp only [Bool.and_self, ↓reduceIte, InPlaceMS.merge]
  have M3 := congrArg Prod.fst M2
  have M4 := congrArg Prod.snd M2
  simp only at M3 M4
  rw [show (inPlaceOp takeA takeB conv' rec').cmp = headCmp from rfl] at P1 P2
  rw [P1, P2, ← M3, ← M4, tag_eq q t, tag_eq q ⟨t.pre, t.val, _⟩]

omit [TransOrd K] [LawfulEqOrd K] [DecidableEq K] [Ord K] in
theorem Lock.andThen {F : V → O → S → Option V × Bool × S} {L1 L2 : List (List K × V × O)} {q : List K} {c : S} {r : (Tree K V × S) × Flow}
    {r' : Tree K (List K × V) × Flow} {k : Tree K V × S → (Tree K V × S) × Flow} {k' : Tree K (List K × V) → Tree K (List K × V) × Flow}
    (h : Lock F L1 q c r r') (hk : r.2 = .cont → Lock F L2 q r.1.2 (k r.1) (k' (tag q r.1.1))) :
    Lock F (L1 ++ L2) q c (Verif.andThen r k) (Verif.andThen r' k') := by
  obtain ⟨⟨t, c1⟩, fl⟩ := r
  obtain ⟨h1, h2⟩ := h
  subst h2
  simp only at h1 hk ⊢
  cases fl with
  | cont =>
    have hk := hk rfl
    exact ⟨h1.append hk.ran, hk.eq⟩
  | stop => exact ⟨h1.stop (by simp), rfl⟩
  | panic => exact ⟨h1.stop (by simp), rfl⟩

omit [TransOrd K] [LawfulEqOrd K] [DecidableEq K] [Ord K] in
theorem Lock.finish {F : V → O → S → Option V × Bool × S} {L : List (List K × V × O)} {q : List K} {c : S} {r : (Tree K V × S) × Flow}
    {r' : Tree K (List K × V) × Flow} (h : Lock F L q c r r') : Lock F L q c (finishE r) (Tree.finish r') := by
  have := h.andThen (L2 := []) (k := fun t => ((t.1.unsplit, t.2), .cont)) (k' := fun t => (t.unsplit, .cont)) fun _ =>
    ⟨Ran.nil, by rw [tag_unsplit]⟩
  rwa [List.append_nil] at this

omit [TransOrd K] [LawfulEqOrd K] [DecidableEq K] [Ord K] in
theorem Lock.pfx {F : V → O → S → Option V × Bool × S} {L : List (List K × V × O)} {q : List K} {c : S} {r : (Tree K V × S) × Flow}
    {r' : Tree K (List K × V) × Flow} (p : List K) (h : Lock F L q c r r') : Lock F (L.map (pfx p)) q c r r' := ⟨h.ran.pfx, h.eq⟩

/-- the stateful closure as a slot filler -/
abbrev slot (f : MutFnE S V W) (v : V) (w : W) (c : S) : Option V × Bool × S := keptSlot (f v w c)

/-- the closure that looks up its state -/
def oracle (f : MutFnE S V W) (σ : List K → S) : MutFn (List K × V) (List K × W) := fun a b =>
  ((a.1, (f a.2 b.2 (σ a.1)).1), (f a.2 b.2 (σ a.1)).2.1)

omit [TransOrd K] [LawfulEqOrd K] [DecidableEq K] [Ord K] in
theorem applyMutE_eq (f : MutFnE S V W) (v : V) (w : W) (c : S) :
    applyMutE f v w c = (((slot f v w c).1, (slot f v w c).2.2), flowOf (slot f v w c).2.1) := by
  unfold applyMutE slot
  obtain ⟨v', cl, c', h⟩ : ∃ v' cl c', f v w c = (v', cl, c') := ⟨_, _, _, rfl⟩
  rw [h]
  cases cl with
  | panic => rfl
  | ret b => cases b <;> rfl

omit [TransOrd K] [LawfulEqOrd K] [DecidableEq K] [Ord K] in
theorem applyMut_oracle (f : MutFnE S V W) (σ : List K → S) (k k' : List K) (v : V) (w : W) :
    applyMut (oracle f σ) (k, v) (k', w) = ((slot f v w (σ k)).1.map (fun v => (k, v)), flowOf (slot f v w (σ k)).2.1) := by
  unfold applyMut slot oracle
  obtain ⟨v', cl, c', h⟩ : ∃ v' cl c', f v w (σ k) = (v', cl, c') := ⟨_, _, _, rfl⟩
  simp only [h]
  cases cl with
  | panic => rfl
  | ret b => cases b <;> rfl

/-- the value part of a combination: calls the closure when both sides have a value -/
structure ValOk (f : MutFnE S V W) (σ : List K → S) (valE : Option V → Option W → S → (Option V × S) × Flow)
    (val' : Option (List K × V) → Option (List K × W) → Option (List K × V) × Flow) : Prop where
  both : ∀ v w c, valE (some v) (some w) c = applyMutE f v w c
  both' : ∀ v w, val' (some v) (some w) = applyMut (oracle f σ) v w
  one : ∀ v w c k, v = none ∨ w = none → ∃ o, valE v w c = ((o, c), .cont) ∧
    val' (v.map fun v => (k, v)) (w.map fun w => (k, w)) = (o.map (fun v => (k, v)), .cont)

omit [TransOrd K] [LawfulEqOrd K] [DecidableEq K] [Ord K] in
theorem outerVal_ok (f : MutFnE S V V) (σ : List K → S) : ValOk f σ (outerValE f) (outerVal (oracle f σ)) where
  both _ _ _ := rfl
  both' _ _ := rfl
  one v w c k h := by
    rcases h with rfl | rfl
    · cases w <;> exact ⟨_, rfl, rfl⟩
    · cases v <;> exact ⟨_, rfl, rfl⟩

omit [TransOrd K] [LawfulEqOrd K] [DecidableEq K] [Ord K] in
theorem innerVal_ok (f : MutFnE S V W) (σ : List K → S) : ValOk f σ (innerValE f) (innerVal (oracle f σ)) where
  both _ _ _ := rfl
  both' _ _ := rfl
  one v w c k h := by
    rcases h with rfl | rfl
    · cases w <;> exact ⟨_, rfl, rfl⟩
    · cases v <;> exact ⟨_, rfl, rfl⟩

omit [TransOrd K] [LawfulEqOrd K] [DecidableEq K] [Ord K] in
theorem leftVal_ok (f : MutFnE S V W) (σ : List K → S) : ValOk f σ (leftValE f) (leftVal (oracle f σ)) where
  both _ _ _ := rfl
  both' _ _ := rfl
  one v w c k h := by
    rcases h with rfl | rfl
    · cases w <;> exact ⟨_, rfl, rfl⟩
    · cases v <;> exact ⟨_, rfl, rfl⟩

omit [TransOrd K] [LawfulEqOrd K] [DecidableEq K] [Ord K] in
/-- the value of a node -/
theorem withValE_lock {f : MutFnE S V W} {σ : List K → S} {valE : Option V → Option W → S → (Option V × S) × Flow}
    {val' : Option (List K × V) → Option (List K × W) → Option (List K × V) × Flow} (ok : ValOk f σ valE val') {q : List K} {c : S}
    (t : Tree K V) (w : Option W) (hf : Follows (slot f) (fun k => σ (q ++ k)) (rootAsk t.pre t.val w) c) :
    Lock (slot f) (rootAsk t.pre t.val w) q c (t.withValE (valE t.val w c))
      ((tag q t).withVal (val' (tag q t).val (w.map fun w => (q ++ t.pre, w)))) := by
  obtain ⟨p, v, ks⟩ := t
  simp only at hf ⊢
  rw [tag_val]
  simp only
  by_cases h : v = none ∨ w = none
  · have e : rootAsk p v w = [] := by
      rcases h with rfl | rfl
      · rfl
      · cases v <;> rfl
    obtain ⟨o, h1, h2⟩ := ok.one v w c (q ++ p) h
    rw [e, h1, h2]
    refine ⟨Ran.nil, ?_⟩
    simp [withVal, withValE, tag_eq]
  · cases v with
    | none => exact absurd (.inl rfl) h
    | some v =>
      cases w with
      | none => exact absurd (.inr rfl) h
      | some w =>
        have hc := hf.1
        simp only at hc
        simp only [Option.map_some, rootAsk]
        rw [ok.both, ok.both', applyMutE_eq, applyMut_oracle, hc]
        refine ⟨⟨?_, ?_⟩, ?_⟩
        · simp only [withValE, runQ, fillEach]
          obtain ⟨x, y, z, h⟩ : ∃ x y z, slot f v w c = (x, y, z) := ⟨_, _, _, rfl⟩
          rw [h]
          cases y <;> rfl
        · simp only [withValE, runQ, fillEach]
          obtain ⟨x, y, z, h⟩ : ∃ x y z, slot f v w c = (x, y, z) := ⟨_, _, _, rfl⟩
          rw [h]
          cases y <;> rfl
        · simp [withVal, withValE, tag_eq]

/-- the recursive calls agree, for smaller trees -/
def RecLock (f : MutFnE S V W) (σ : List K → S) (rec : Tree K V → Tree K W → S → (Tree K V × S) × Flow)
    (rec' : Tree K (List K × V) → Tree K (List K × W) → Tree K (List K × V) × Flow) (n : Nat) : Prop :=
  ∀ x y, Valid x → Valid y → x.size + y.size < n → ∀ q c, Follows (slot f) (fun k => σ (q ++ k)) (asks denObs x y) c →
    Lock (slot f) (asks denObs x y) q c (rec x y c) (rec' (tag q x) (tag q y))

/-- converting agrees -/
def ConvOk (takeB : Bool) (conv : Tree K W → Call (Tree K V)) (conv' : Tree K (List K × W) → Call (Tree K (List K × V))) : Prop :=
  takeB = true → ∀ q y, Valid y → y.pre ≠ [] → ∃ z, conv y = .ret z ∧ conv' (tag q y) = .ret (tag q z)

section cases
variable {f : MutFnE S V W} {σ : List K → S} {rec : Tree K V → Tree K W → S → (Tree K V × S) × Flow}
  {rec' : Tree K (List K × V) → Tree K (List K × W) → Tree K (List K × V) × Flow} {takeA takeB : Bool}
  {conv : Tree K W → Call (Tree K V)} {conv' : Tree K (List K × W) → Call (Tree K (List K × V))} {q : List K} {c : S}
  {a : Tree K V} {b : Tree K W}

theorem kids_lock (hconv : ConvOk takeB conv conv') {N : Nat} (hrec : RecLock f σ rec rec' N) (t : Tree K V) {rhs : List (Tree K W)}
    (ka : Kids t.kids) (kb : Kids rhs) (hs : ∀ x ∈ t.kids, ∀ y ∈ rhs, x.size + y.size < N)
    (hf : Follows (slot f) (fun k => σ (q ++ k)) ((asksL denObs t.kids rhs).map (pfx t.pre)) c) :
    Lock (slot f) ((asksL denObs t.kids rhs).map (pfx t.pre)) q c (childrenWithE (inPlaceOpE takeA takeB conv rec) (t, c) rhs)
      (childrenWith (inPlaceOp takeA takeB conv' rec') (tag q t) (rhs.map (tag (q ++ t.pre)))) := by
  rw [follows_pfx] at hf
  refine Lock.pfx _ (childrenWithE_lock (st := fun k => σ (q ++ (t.pre ++ k))) rfl t c ka kb (fun h y => hconv h _ y) ?_ hf)
  intro x hx y hy _ c hf
  refine hrec x y (ka.valid x hx) (kb.valid y hy) (hs x hx y hy) (q ++ t.pre) c ?_
  simpa only [List.append_assoc] using hf

theorem same_lock {valE : Option V → Option W → S → (Option V × S) × Flow}
    {val' : Option (List K × V) → Option (List K × W) → Option (List K × V) × Flow} (ok : ValOk f σ valE val') (hconv : ConvOk takeB conv conv')
    (hrec : RecLock f σ rec rec' (a.size + b.size)) (ha : Valid a) (hb : Valid b) (h : a.pre = b.pre)
    (hf : Follows (slot f) (fun k => σ (q ++ k)) (asks denObs a b) c) :
    Lock (slot f) (asks denObs a b) q c
      (Verif.andThen (a.withValE (valE a.val b.val c)) fun t => childrenWithE (inPlaceOpE takeA takeB conv rec) t b.kids)
      (Verif.andThen ((tag q a).withVal (val' (tag q a).val (tag q b).val)) fun t =>
        childrenWith (inPlaceOp takeA takeB conv' rec') t (tag q b).kids) := by
  rw [asks_same denObs_laws ha hb h] at hf ⊢
  have e : (denObs : Obs K W (Option W)).here b.val = b.val := rfl
  rw [e] at hf ⊢
  have hv := withValE_lock ok a b.val hf.left
  rw [tag_val q b, ← h]
  refine hv.andThen ?_
  intro hc
  have hr := hv.ran
  rw [hc] at hr
  have hf2 := hf.right hr
  rw [tag_kids, ← h]
  exact kids_lock hconv hrec (a.withValE (valE a.val b.val c)).1.1 ha.kids hb.kids
    (fun x hx y hy => by have := kid_size (t := a) hx; have := kid_size hy; omega) hf2

theorem above_lock (hconv : ConvOk takeB conv conv') (hrec : RecLock f σ rec rec' (a.size + b.size)) (ha : Valid a) (hb : Valid b) {n : Nat}
    (hn : n < b.pre.length) (h : a.pre = b.pre.take n) (v : Option V)
    (hf : Follows (slot f) (fun k => σ (q ++ k)) (asks denObs a b) c) :
    Lock (slot f) (asks denObs a b) q c (childrenWithE (inPlaceOpE takeA takeB conv rec) ({ a with val := v }, c) [b.shorten n])
      (childrenWith (inPlaceOp takeA takeB conv' rec') { tag q a with val := v.map fun v => (q ++ a.pre, v) } [(tag q b).shorten n]) := by
  rw [asks_above denObs_laws rfl ha hb hn h] at hf ⊢
  have e : ({ tag q a with val := v.map fun v => (q ++ a.pre, v) } : Tree K (List K × V)) = tag q { a with val := v } := by
    rw [tag_eq, tag_eq]
  rw [e, tag_shorten, ← h]
  exact kids_lock hconv hrec { a with val := v } ha.kids (Kids.single (hb.shorten n) (shorten_ne hn))
    (fun x hx y hy => by
      simp at hy; subst hy
      have := kid_size (t := a) hx; have := size_shorten b n (by omega); omega) hf

theorem below_lock (hconv : ConvOk takeB conv conv') (hrec : RecLock f σ rec rec' (a.size + b.size)) (ha : Valid a) (hb : Valid b) {n : Nat}
    (hn : n < a.pre.length) (h : a.pre.take n = b.pre) (v : Option V)
    (hf : Follows (slot f) (fun k => σ (q ++ k)) (asks denObs a b) c) :
    Lock (slot f) (asks denObs a b) q c (childrenWithE (inPlaceOpE takeA takeB conv rec) (⟨a.pre.take n, v, [a.shorten n]⟩, c) b.kids)
      (childrenWith (inPlaceOp takeA takeB conv' rec') ⟨a.pre.take n, v.map fun v => (q ++ a.pre.take n, v), [(tag q a).shorten n]⟩
        (tag q b).kids) := by
  rw [asks_below denObs_laws ha hb hn h] at hf ⊢
  have e : (⟨a.pre.take n, v.map fun v => (q ++ a.pre.take n, v), [(tag q a).shorten n]⟩ : Tree K (List K × V)) =
      tag q ⟨a.pre.take n, v, [a.shorten n]⟩ := by
    rw [tag_eq q ⟨a.pre.take n, v, [a.shorten n]⟩, tag_shorten]
    rfl
  rw [e, tag_kids, ← h]
  exact kids_lock hconv hrec ⟨a.pre.take n, v, [a.shorten n]⟩ (Kids.single (ha.shorten n) (shorten_ne hn)) hb.kids
    (fun x hx y hy => by
      simp at hx; subst hx
      have := kid_size hy; have := size_shorten a n (by omega); omega) hf

end cases

theorem convOk_materialize : ConvOk true (materialize : Tree K V → Call (Tree K V)) materialize := by
  intro _ q y hy hp
  exact ⟨y, materialize_eq hy hp, materialize_eq (tag_valid hy) (by rwa [tag_pre])⟩

omit [TransOrd K] [LawfulEqOrd K] [DecidableEq K] in
theorem convOk_false {conv : Tree K W → Call (Tree K V)} {conv' : Tree K (List K × W) → Call (Tree K (List K × V))} : ConvOk false conv conv' := by
  intro h; cases h

theorem outerWithCasesE_lock {f : MutFnE S V V} {σ : List K → S} {rec : Tree K V → Tree K V → S → (Tree K V × S) × Flow}
    {rec' : Tree K (List K × V) → Tree K (List K × V) → Tree K (List K × V) × Flow} {a b : Tree K V} {q : List K} {c : S}
    (ha : Valid a) (hb : Valid b) (hrec : RecLock f σ rec rec' (a.size + b.size))
    (hf : Follows (slot f) (fun k => σ (q ++ k)) (asks denObs a b) c) :
    Lock (slot f) (asks denObs a b) q c (outerWithCasesE (outerWithOpE rec) f (commonPrefix a.pre b.pre) a b c)
      (outerWithCases (outerWithOp rec') (oracle f σ) (commonPrefix (tag q a).pre (tag q b).pre) (tag q a) (tag q b)) := by
  rw [tag_pre, tag_pre]
  have hla := commonPrefix_le_left a.pre b.pre
  have hlb := commonPrefix_le_right a.pre b.pre
  have hdf := commonPrefix_differ a.pre b.pre
  have hpe := pre_eq_of_common (p := a.pre) (q := b.pre)
  have htk := commonPrefix_take a.pre b.pre
  revert hla hlb hdf hpe htk
  generalize commonPrefix a.pre b.pre = n
  intro hla hlb hdf hpe htk
  unfold outerWithCasesE outerWithCases outerWithOpE outerWithOp
  rw [tag_pre, tag_pre]
  by_cases h1 : n = a.pre.length ∧ n = b.pre.length
  · rw [if_pos h1, if_pos h1]
    exact same_lock (outerVal_ok f σ) convOk_materialize hrec ha hb (hpe h1.1 h1.2) hf
  rw [if_neg h1, if_neg h1]
  by_cases h3 : n = a.pre.length
  · have hnb : n < b.pre.length := by omega
    rw [if_pos h3, if_pos h3, materializeShortened_eq hb hnb, materializeShortened_eq (tag_valid hb) (by rwa [tag_pre])]
    simp only [withMat, withMatE]
    have e : a.pre = b.pre.take n := by rw [← htk, List.take_of_length_le (by omega)]
    have := above_lock (takeA := true) convOk_materialize hrec ha hb hnb e a.val hf
    rw [← tag_val] at this
    simp only [← tree_eta] at this
    exact this
  rw [if_neg h3, if_neg h3]
  have hna : n < a.pre.length := by omega
  rw [split_eq hna, split_eq (t := tag q a) (by rwa [tag_pre]), tag_pre]
  by_cases h2 : n = b.pre.length
  · rw [if_pos h2, if_pos h2]
    have e : a.pre.take n = b.pre := by rw [htk, List.take_of_length_le (by omega)]
    have := below_lock (takeA := true) convOk_materialize hrec ha hb hna e b.val hf
    rw [tag_val, ← e]
    simp only [Verif.andThen, withVal, withValE]
    cases hv : b.val with
    | none => rw [hv] at this; exact this
    | some w => rw [hv] at this; exact this
  · have hnb : n < b.pre.length := by omega
    rw [if_neg h2, if_neg h2, materializeShortened_eq hb hnb, materializeShortened_eq (tag_valid hb) (by rwa [tag_pre])]
    simp only [Verif.andThen, withMat, withMatE, List.singleton_append]
    have hh : headed [a.shorten n, b.shorten n] = true := by
      simp [headed, shorten_ne hna, shorten_ne hnb]
    have hh' : headed [(tag q a).shorten n, (tag q b).shorten n] = true := by
      rw [tag_shorten, tag_shorten, ← htk]
      have := tag_headed (q ++ a.pre.take n) [a.shorten n, b.shorten n]
      rw [hh] at this
      exact this
    rw [if_pos hh, if_pos hh', asks_differ denObs_laws rfl hna hnb (hdf hna hnb)]
    refine ⟨Ran.nil, ?_⟩
    rw [tag_shorten, tag_shorten, ← htk, tag_sort_two (hdf hna hnb), tag_eq q ⟨a.pre.take n, none, _⟩]
    rfl

theorem innerWithCasesE_lock {f : MutFnE S V W} {σ : List K → S} {rec : Tree K V → Tree K W → S → (Tree K V × S) × Flow}
    {rec' : Tree K (List K × V) → Tree K (List K × W) → Tree K (List K × V) × Flow} {a : Tree K V} {b : Tree K W} {q : List K} {c : S}
    (ha : Valid a) (hb : Valid b) (hrec : RecLock f σ rec rec' (a.size + b.size))
    (hf : Follows (slot f) (fun k => σ (q ++ k)) (asks denObs a b) c) :
    Lock (slot f) (asks denObs a b) q c (innerWithCasesE (innerWithOpE rec) f (commonPrefix a.pre b.pre) a b c)
      (innerWithCases (innerWithOp rec') (oracle f σ) (commonPrefix (tag q a).pre (tag q b).pre) (tag q a) (tag q b)) := by
  rw [tag_pre, tag_pre]
  have hla := commonPrefix_le_left a.pre b.pre
  have hlb := commonPrefix_le_right a.pre b.pre
  have hdf := commonPrefix_differ a.pre b.pre
  have hpe := pre_eq_of_common (p := a.pre) (q := b.pre)
  have htk := commonPrefix_take a.pre b.pre
  revert hla hlb hdf hpe htk
  generalize commonPrefix a.pre b.pre = n
  intro hla hlb hdf hpe htk
  unfold innerWithCasesE innerWithCases innerWithOpE innerWithOp
  rw [tag_pre, tag_pre]
  by_cases h1 : n = a.pre.length ∧ n = b.pre.length
  · rw [if_pos h1, if_pos h1]
    exact same_lock (innerVal_ok f σ) convOk_false hrec ha hb (hpe h1.1 h1.2) hf
  rw [if_neg h1, if_neg h1]
  by_cases h3 : n = a.pre.length
  · have hnb : n < b.pre.length := by omega
    rw [if_pos h3, if_pos h3, materializeShortened_eq hb hnb, materializeShortened_eq (tag_valid hb) (by rwa [tag_pre])]
    simp only [withMat, withMatE]
    have e : a.pre = b.pre.take n := by rw [← htk, List.take_of_length_le (by omega)]
    have := above_lock (takeA := false) (conv := noConverter) (conv' := noConverter) convOk_false hrec ha hb hnb e none hf
    simp only [tag_pre, Option.map_none] at this
    exact this
  rw [if_neg h3, if_neg h3]
  have hna : n < a.pre.length := by omega
  by_cases h2 : n = b.pre.length
  · rw [if_pos h2, if_pos h2, split_eq hna, split_eq (t := tag q a) (by rwa [tag_pre]), tag_pre]
    have e : a.pre.take n = b.pre := by rw [htk, List.take_of_length_le (by omega)]
    exact below_lock convOk_false hrec ha hb hna e none hf
  · rw [if_neg h2, if_neg h2, asks_differ denObs_laws rfl hna (by omega) (hdf hna (by omega))]
    refine ⟨Ran.nil, ?_⟩
    simp [tag_eq]

theorem leftWithCasesE_lock {f : MutFnE S V W} {σ : List K → S} {rec : Tree K V → Tree K W → S → (Tree K V × S) × Flow}
    {rec' : Tree K (List K × V) → Tree K (List K × W) → Tree K (List K × V) × Flow} {a : Tree K V} {b : Tree K W} {q : List K} {c : S}
    (ha : Valid a) (hb : Valid b) (hrec : RecLock f σ rec rec' (a.size + b.size))
    (hf : Follows (slot f) (fun k => σ (q ++ k)) (asks denObs a b) c) :
    Lock (slot f) (asks denObs a b) q c (leftWithCasesE (leftWithOpE rec) f (commonPrefix a.pre b.pre) a b c)
      (leftWithCases (leftWithOp rec') (oracle f σ) (commonPrefix (tag q a).pre (tag q b).pre) (tag q a) (tag q b)) := by
  rw [tag_pre, tag_pre]
  have hla := commonPrefix_le_left a.pre b.pre
  have hlb := commonPrefix_le_right a.pre b.pre
  have hdf := commonPrefix_differ a.pre b.pre
  have hpe := pre_eq_of_common (p := a.pre) (q := b.pre)
  have htk := commonPrefix_take a.pre b.pre
  revert hla hlb hdf hpe htk
  generalize commonPrefix a.pre b.pre = n
  intro hla hlb hdf hpe htk
  unfold leftWithCasesE leftWithCases leftWithOpE leftWithOp
  rw [tag_pre, tag_pre]
  by_cases h1 : n = a.pre.length ∧ n = b.pre.length
  · rw [if_pos h1, if_pos h1]
    exact same_lock (leftVal_ok f σ) convOk_false hrec ha hb (hpe h1.1 h1.2) hf
  rw [if_neg h1, if_neg h1]
  by_cases h3 : n = a.pre.length
  · have hnb : n < b.pre.length := by omega
    rw [if_pos h3, if_pos h3, materializeShortened_eq hb hnb, materializeShortened_eq (tag_valid hb) (by rwa [tag_pre])]
    simp only [withMat, withMatE]
    have e : a.pre = b.pre.take n := by rw [← htk, List.take_of_length_le (by omega)]
    have := above_lock (takeA := true) (conv := noConverter) (conv' := noConverter) convOk_false hrec ha hb hnb e a.val hf
    rw [← tag_val] at this
    simp only [← tree_eta] at this
    exact this
  rw [if_neg h3, if_neg h3]
  have hna : n < a.pre.length := by omega
  by_cases h2 : n = b.pre.length
  · rw [if_pos h2, if_pos h2, split_eq hna, split_eq (t := tag q a) (by rwa [tag_pre]), tag_pre]
    have e : a.pre.take n = b.pre := by rw [htk, List.take_of_length_le (by omega)]
    exact below_lock convOk_false hrec ha hb hna e none hf
  · rw [if_neg h2, if_neg h2, asks_differ denObs_laws rfl hna (by omega) (hdf hna (by omega))]
    refine ⟨Ran.nil, ?_⟩
    rfl


theorem outerWithGoE_lock (f : MutFnE S V V) (σ : List K → S) : ∀ (fuel : Nat) (a b : Tree K V), Valid a → Valid b → a.size + b.size < fuel →
    ∀ q c, Follows (slot f) (fun k => σ (q ++ k)) (asks denObs a b) c →
      Lock (slot f) (asks denObs a b) q c (outerWithGoE f fuel a b c) (outerWithGo (oracle f σ) fuel (tag q a) (tag q b)) := by
  intro fuel
  induction fuel with
  | zero => intro a b _ _ h; omega
  | succ fuel ih =>
    intro a b ha hb hs q c hf
    exact (outerWithCasesE_lock ha hb (fun x y hx hy h => ih x y hx hy (by omega)) hf).finish

theorem innerWithGoE_lock (f : MutFnE S V W) (σ : List K → S) : ∀ (fuel : Nat) (a : Tree K V) (b : Tree K W), Valid a → Valid b →
    a.size + b.size < fuel → ∀ q c, Follows (slot f) (fun k => σ (q ++ k)) (asks denObs a b) c →
      Lock (slot f) (asks denObs a b) q c (innerWithGoE f fuel a b c) (innerWithGo (oracle f σ) fuel (tag q a) (tag q b)) := by
  intro fuel
  induction fuel with
  | zero => intro a b _ _ h; omega
  | succ fuel ih =>
    intro a b ha hb hs q c hf
    exact (innerWithCasesE_lock ha hb (fun x y hx hy h => ih x y hx hy (by omega)) hf).finish

theorem leftWithGoE_lock (f : MutFnE S V W) (σ : List K → S) : ∀ (fuel : Nat) (a : Tree K V) (b : Tree K W), Valid a → Valid b →
    a.size + b.size < fuel → ∀ q c, Follows (slot f) (fun k => σ (q ++ k)) (asks denObs a b) c →
      Lock (slot f) (asks denObs a b) q c (leftWithGoE f fuel a b c) (leftWithGo (oracle f σ) fuel (tag q a) (tag q b)) := by
  intro fuel
  induction fuel with
  | zero => intro a b _ _ h; omega
  | succ fuel ih =>
    intro a b ha hb hs q c hf
    exact (leftWithCasesE_lock ha hb (fun x y hx hy h => ih x y hx hy (by omega)) hf).finish

end
end Tree
end Verif
