import Verif.Lemmas.RadixLockGo
/-! The stateful combinations into a new tree against the plain ones on tagged trees. -/
namespace Verif
namespace Tree
open Std

section
variable {K V W O S : Type _}

/-- the flow of a call -/
def callFlow {α : Type _} : Call α → Flow
  | .ret _ => .cont
  | .panic => .panic

/-- a stateful run agrees with a plain run, unless it panics -/
structure LockG {α β : Type _} (F : V → O → S → Option V × Bool × S) (L : List (List K × V × O)) (c : S) (r : Call α × S) (r' : Call β)
    (T : α → β) : Prop where
  ran : Ran F L c r.2 (callFlow r.1)
  eq : ∀ x, r.1 = .ret x → r' = .ret (T x)

variable {F : V → O → S → Option V × Bool × S} {σ : List K → S} {q : List K}

theorem LockG.bind {α β α' β' : Type _} {L1 L2 : List (List K × V × O)} {c : S} {r : Call α × S} {r' : Call β} {T : α → β}
    {T' : α' → β'} {k : α → S → Call α' × S} {k' : β → Call β'} (h : LockG F L1 c r r' T)
    (hk : ∀ x, r.1 = .ret x → LockG F L2 r.2 (k x r.2) (k' (T x)) T') : LockG F (L1 ++ L2) c (bindE r k) (bindC r' k') T' := by
  obtain ⟨o, c1⟩ := r
  obtain ⟨h1, h2⟩ := h
  cases o with
  | panic => exact ⟨h1.stop (by simp [callFlow]), by intro x hx; simp [bindE] at hx⟩
  | ret x =>
    have hk := hk x rfl
    rw [h2 x rfl]
    exact ⟨Ran.append h1 hk.ran, hk.eq⟩

theorem LockG.pure {α β : Type _} {c : S} {x : α} {T : α → β} : LockG F ([] : List (List K × V × O)) c (.ret x, c) (.ret (T x)) T :=
  ⟨Ran.nil, by rintro y hy; simp at hy; rw [hy]⟩

theorem LockG.pfx {α β : Type _} {L : List (List K × V × O)} {c : S} {r : Call α × S} {r' : Call β} {T : α → β} (p : List K)
    (h : LockG F L c r r' T) : LockG F (L.map (pfx p)) c r r' T := ⟨h.ran.pfx, h.eq⟩

variable [Ord K]

theorem pureOpE_opE (takeA takeB : Bool) (convA : Tree K V → Call (Tree K V)) (convB : Tree K W → Call (Tree K V))
    (rec : Tree K V → Tree K W → S → Call (Tree K V) × S) :
    OpE (pureOpE takeA takeB convA convB rec) (fun s => s.r)
      (fun x => if takeA then (convA x).emit else ([], .cont)) (fun y => if takeB then (convB y).emit else ([], .cont))
      (fun x y c => (callEmit (rec x y c).1, (rec x y c).2)) where
  cmp := rfl
  fromA s n h1 hn := by
    have h := (pureOp_implements takeA takeB convA convB fun x _ => .ret x).fromA s.1 n trivial h1 hn
    exact ⟨h.flow, h.out, rfl, h.a, h.b⟩
  fromB s n h1 hn := by
    have h := (pureOp_implements takeA takeB convA convB fun x _ => .ret x).fromB s.1 n trivial h1 hn
    exact ⟨h.flow, h.out, rfl, h.a, h.b⟩
  collision s x as y bs ha hb := by
    obtain ⟨⟨a, b, rr⟩, c⟩ := s
    simp only [MergeState.aSlice, MergeState.bSlice] at ha hb
    subst ha hb
    rcases h : rec x y c with ⟨o, c'⟩
    simp only [pureOpE, h]
    cases o with
    | panic => exact ⟨rfl, by simp [callEmit], rfl, by simp, by simp⟩
    | ret r =>
      cases he : r.isEmpty with
      | true => refine ⟨rfl, ?_, rfl, ?_, ?_⟩ <;> simp [callEmit, Emit.ret, nonEmpty, he, MergeState.aSlice, MergeState.bSlice]
      | false => refine ⟨rfl, ?_, rfl, ?_, ?_⟩ <;> simp [callEmit, Emit.ret, nonEmpty, he, MergeState.aSlice, MergeState.bSlice]

variable [TransOrd K] [LawfulEqOrd K] [DecidableEq K]

/-- converting and collecting -/
theorem conv_emit {take : Bool} {conv : Tree K W → Call (Tree K V)} {conv' : Tree K (List K × W) → Call (Tree K (List K × V))}
    (hc : ConvOk take conv conv') (q : List K) :
    (∀ y, Valid y → y.pre ≠ [] →
      (if take then (conv' (tag q y)).emit else ([], .cont)) = mapE (tag q) (if take then (conv y).emit else ([], .cont))) ∧
    ∀ l : List (Tree K W), Kids l → (collect (fun y => if take then (conv y).emit else ([], .cont)) l).2 = .cont := by
  cases take with
  | false =>
    refine ⟨fun _ _ _ => rfl, fun l hl => ?_⟩
    clear hl
    induction l with
    | nil => rfl
    | cons x l ih => rw [collect]; simpa [Emit.seq] using ih
  | true =>
    refine ⟨fun y hy hp => ?_, fun l hl => ?_⟩
    · obtain ⟨z, h1, h2⟩ := hc rfl q y hy hp
      simp only [↓reduceIte, h1, h2, Call.emit, mapE, List.map_cons, List.map_nil]
    · induction l with
      | nil => rfl
      | cons x l ih =>
        have ih := ih (hl.sublist (List.sublist_cons_self ..))
        obtain ⟨z, h1, _⟩ := hc rfl q x (hl.valid x (by simp)) (hl.ne x (by simp))
        rw [collect]
        simpa [Emit.seq, h1, Call.emit] using ih

theorem mergeChildrenE_lock {o : Obs K W (Option O)} (hno : o.no = none) {takeA takeB : Bool}
    {convA : Tree K V → Call (Tree K V)} {convA' : Tree K (List K × V) → Call (Tree K (List K × V))} (hA : ConvOk takeA convA convA')
    {convB : Tree K W → Call (Tree K V)} {convB' : Tree K (List K × W) → Call (Tree K (List K × V))} (hB : ConvOk takeB convB convB')
    {rec : Tree K V → Tree K W → S → Call (Tree K V) × S} {rec' : Tree K (List K × V) → Tree K (List K × W) → Call (Tree K (List K × V))}
    {st : List K → S} {as : List (Tree K V)} {bs : List (Tree K W)} {c : S} (ka : Kids as) (kb : Kids bs)
    (hrec : ∀ x ∈ as, ∀ y ∈ bs, hd x = hd y → ∀ c, Follows F st (asks o x y) c →
      LockG F (asks o x y) c (rec x y c) (rec' (tag q x) (tag q y)) (tag q))
    (hf : Follows F st (asksL o as bs) c) :
    LockG F (asksL o as bs) c (mergeChildrenE (pureOpE takeA takeB convA convB rec) as bs c)
      (mergeChildren (pureOp takeA takeB convA' convB' rec') (as.map (tag q)) (bs.map (tag q))) (fun ks => ks.map (tag q)) := by
  have M := merge_lock (ex := false) (F := F) (st := st) (q := q) (pureOpE_opE takeA takeB convA convB rec) hno
    (fa' := fun x => if takeA then (convA' x).emit else ([], .cont)) (fb' := fun y => if takeB then (convB' y).emit else ([], .cont))
    (fc' := fun x y => callEmit (rec' x y))
    (conv_emit hA q).1 (conv_emit hB q).1 (conv_emit hA q).2 (conv_emit hB q).2
    (s := (({ a := as, b := bs, r := [] } : SliceMS _ _ _), c)) ka kb
    (by
      intro x hx y hy he c hf
      obtain ⟨h1, h2⟩ := hrec x hx y hy he c hf
      refine ⟨?_, ?_⟩
      · cases hr : (rec x y c).1 <;> rw [hr] at h1 <;> exact h1
      · cases hr : (rec x y c).1 with
        | panic => simp [callEmit]
        | ret t =>
          intro _
          rw [h2 t hr]
          simp only [callEmit, Emit.ret, nonEmpty, tag_isEmpty, mapE]
          cases t.isEmpty <;> rfl)
    hf
  have P := mergeAll_spec (pureOp_implements takeA takeB convA' convB' rec') (ka := hd) (kb := hd) headCmp_eq
    ({ a := as.map (tag q), b := bs.map (tag q), r := [] } : SliceMS _ _ _) trivial (tag_kids_ok ka).asc (tag_kids_ok kb).asc
  obtain ⟨M1, M2⟩ := M
  have P1 := P.flow
  have P2 := P.out
  rw [show (pureOp takeA takeB convA' convB' rec').cmp = headCmp from rfl] at P1 P2
  simp only [MergeState.aSlice, MergeState.bSlice, List.map_nil, List.nil_append] at M1 M2 P1 P2
  unfold mergeChildrenE mergeChildren
  rw [tag_headed, tag_headed, ka.headed, kb.headed]
  simp only [Bool.and_self, ↓reduceIte, SliceMS.mergeE, SliceMS.merge]
  rw [P1, P2]
  obtain ⟨⟨m, c1⟩, fl, hm⟩ : ∃ mc fl, mergeAll (pureOpE takeA takeB convA convB rec) ({ a := as, b := bs, r := [] }, c) = (mc, fl) := ⟨_, _, rfl⟩
  rw [hm] at M1 M2
  simp only [hm]
  cases fl with
  | panic => exact ⟨M1, by intro x hx; simp at hx⟩
  | stop =>
    have := M1.fl
    unfold flowOf at this
    split at this <;> cases this
  | cont =>
    refine ⟨M1, ?_⟩
    intro ks hks
    simp only [Call.ret.injEq] at hks
    subst hks
    have e := M2 (.inr rfl)
    rw [← (Prod.mk.inj e).1, ← (Prod.mk.inj e).2]

/-- the recursive calls agree, for smaller trees -/
def RecLockP (F : V → O → S → Option V × Bool × S) (o : Obs K W (Option O)) (σ : List K → S)
    (rec : Tree K V → Tree K W → S → Call (Tree K V) × S)
    (rec' : Tree K (List K × V) → Tree K (List K × W) → Call (Tree K (List K × V))) (n : Nat) : Prop :=
  ∀ x y, Valid x → Valid y → x.size + y.size < n → ∀ q c, Follows F (fun k => σ (q ++ k)) (asks o x y) c →
    LockG F (asks o x y) c (rec x y c) (rec' (tag q x) (tag q y)) (tag q)

/-- the value part agrees -/
def ValOkP (F : V → O → S → Option V × Bool × S) (o : Obs K W (Option O)) (σ : List K → S)
    (valE : Option V → Option W → S → Call (Option V) × S)
    (val' : Option (List K × V) → Option (List K × W) → Option (List K × V)) : Prop :=
  ∀ v w c p q, Follows F (fun k => σ (q ++ k)) (rootAsk p v (o.here w)) c →
    LockG F (rootAsk p v (o.here w)) c (valE v w c)
      (.ret (val' (v.map fun v => (q ++ p, v)) (w.map fun w => (q ++ p, w)))) (Option.map fun v => (q ++ p, v))

section cases
variable {o : Obs K W (Option O)} {rec : Tree K V → Tree K W → S → Call (Tree K V) × S}
  {rec' : Tree K (List K × V) → Tree K (List K × W) → Call (Tree K (List K × V))} {takeA takeB : Bool}
  {convA : Tree K V → Call (Tree K V)} {convA' : Tree K (List K × V) → Call (Tree K (List K × V))}
  {convB : Tree K W → Call (Tree K V)} {convB' : Tree K (List K × W) → Call (Tree K (List K × V))} {c : S}
  {a : Tree K V} {b : Tree K W}

/-- merge the children and build the node -/
theorem node_lock (hno : o.no = none) (hA : ConvOk takeA convA convA') (hB : ConvOk takeB convB convB') {N : Nat}
    (hrec : RecLockP F o σ rec rec' N) {as : List (Tree K V)} {bs : List (Tree K W)} (ka : Kids as) (kb : Kids bs)
    (hs : ∀ x ∈ as, ∀ y ∈ bs, x.size + y.size < N) (p : List K) (v : Option V)
    (hf : Follows F (fun k => σ (q ++ k)) ((asksL o as bs).map (pfx p)) c) :
    LockG F ((asksL o as bs).map (pfx p)) c
      (bindE (mergeChildrenE (pureOpE takeA takeB convA convB rec) as bs c) fun ks c => (mkNode p v ks, c))
      (bindC (mergeChildren (pureOp takeA takeB convA' convB' rec') (as.map (tag (q ++ p))) (bs.map (tag (q ++ p))))
        fun ks => mkNode p (v.map fun v => (q ++ p, v)) ks) (tag q) := by
  rw [follows_pfx] at hf
  have h := mergeChildrenE_lock (F := F) (st := fun k => σ (q ++ (p ++ k))) (q := q ++ p) hno hA hB (rec := rec) (rec' := rec') ka kb (c := c)
    (by
      intro x hx y hy _ c hf
      refine hrec x y (ka.valid x hx) (kb.valid y hy) (hs x hx y hy) (q ++ p) c ?_
      simpa only [List.append_assoc] using hf) hf
  have := (h.bind (L2 := []) (T' := tag q) (k := fun ks c => (mkNode p v ks, c)) (k' := fun ks => mkNode p (v.map fun v => (q ++ p, v)) ks)
    (by
      intro ks _
      refine ⟨Ran.nil, ?_⟩
      intro x hx
      unfold mkNode at hx ⊢
      simp only [Call.ret.injEq] at hx
      rw [← hx, ← tag_unsplit, tag_eq q ⟨p, v, ks⟩])).pfx p
  rwa [List.append_nil] at this

theorem same_lockP (L : ObsLaws o (fun _ => false)) (hno : o.no = none) {valE : Option V → Option W → S → Call (Option V) × S}
    {val' : Option (List K × V) → Option (List K × W) → Option (List K × V)} (ok : ValOkP F o σ valE val')
    (hA : ConvOk takeA convA convA') (hB : ConvOk takeB convB convB')
    (hrec : RecLockP F o σ rec rec' (a.size + b.size)) (ha : Valid a) (hb : Valid b) (h : a.pre = b.pre)
    (hf : Follows F (fun k => σ (q ++ k)) (asks o a b) c) :
    LockG F (asks o a b) c
      (bindE (valE a.val b.val c) fun v c =>
        bindE (mergeChildrenE (pureOpE takeA takeB convA convB rec) a.kids b.kids c) fun ks c => (mkNode a.pre v ks, c))
      (bindC (mergeChildren (pureOp takeA takeB convA' convB' rec') (tag q a).kids (tag q b).kids)
        fun ks => mkNode a.pre (val' (tag q a).val (tag q b).val) ks) (tag q) := by
  rw [asks_same L ha hb h] at hf ⊢
  have hv := ok a.val b.val c a.pre q hf.left
  have := hv.bind (T' := tag q) (L2 := (asksL o a.kids b.kids).map (pfx a.pre))
    (k := fun v c => bindE (mergeChildrenE (pureOpE takeA takeB convA convB rec) a.kids b.kids c) fun ks c => (mkNode a.pre v ks, c))
    (k' := fun v => bindC (mergeChildren (pureOp takeA takeB convA' convB' rec') (a.kids.map (tag (q ++ a.pre))) (b.kids.map (tag (q ++ a.pre))))
      fun ks => mkNode a.pre v ks)
    (by
      intro x hx
      have hr := hv.ran
      rw [hx] at hr
      exact node_lock hno hA hB hrec ha.kids hb.kids (fun x hx y hy => by have := kid_size hx; have := kid_size hy; omega) a.pre x (hf.right hr))
  rw [tag_val, tag_val, tag_kids, tag_kids, ← h]
  exact this

theorem above_lockP (L : ObsLaws o (fun _ => false)) (hno : o.no = none) (hA : ConvOk takeA convA convA') (hB : ConvOk takeB convB convB')
    (hrec : RecLockP F o σ rec rec' (a.size + b.size)) (ha : Valid a) (hb : Valid b) {n : Nat}
    (hn : n < b.pre.length) (h : a.pre = b.pre.take n) (v : Option V)
    (hf : Follows F (fun k => σ (q ++ k)) (asks o a b) c) :
    LockG F (asks o a b) c
      (bindE (mergeChildrenE (pureOpE takeA takeB convA convB rec) a.kids [b.shorten n] c) fun ks c => (mkNode a.pre v ks, c))
      (bindC (mergeChildren (pureOp takeA takeB convA' convB' rec') (tag q a).kids [(tag q b).shorten n])
        fun ks => mkNode a.pre (v.map fun v => (q ++ a.pre, v)) ks) (tag q) := by
  rw [asks_above L hno ha hb hn h] at hf ⊢
  rw [tag_shorten, ← h, tag_kids]
  exact node_lock hno hA hB hrec ha.kids (Kids.single (hb.shorten n) (shorten_ne hn))
    (fun x hx y hy => by
      simp at hy; subst hy
      have := kid_size (t := a) hx; have := size_shorten b n (by omega); omega) a.pre v hf

theorem below_lockP (L : ObsLaws o (fun _ => false)) (hno : o.no = none) (hA : ConvOk takeA convA convA') (hB : ConvOk takeB convB convB')
    (hrec : RecLockP F o σ rec rec' (a.size + b.size)) (ha : Valid a) (hb : Valid b) {n : Nat}
    (hn : n < a.pre.length) (h : a.pre.take n = b.pre) (v : Option V)
    (hf : Follows F (fun k => σ (q ++ k)) (asks o a b) c) :
    LockG F (asks o a b) c
      (bindE (mergeChildrenE (pureOpE takeA takeB convA convB rec) [a.shorten n] b.kids c) fun ks c => (mkNode (a.pre.take n) v ks, c))
      (bindC (mergeChildren (pureOp takeA takeB convA' convB' rec') [(tag q a).shorten n] (tag q b).kids)
        fun ks => mkNode (a.pre.take n) (v.map fun v => (q ++ a.pre.take n, v)) ks) (tag q) := by
  rw [asks_below L ha hb hn h] at hf ⊢
  rw [tag_shorten, tag_kids, ← h]
  exact node_lock hno hA hB hrec (Kids.single (ha.shorten n) (shorten_ne hn)) hb.kids
    (fun x hx y hy => by
      simp at hx; subst hx
      have := kid_size hy; have := size_shorten a n (by omega); omega) _ v hf

end cases

/-- the stateful closure as a slot filler -/
abbrev pslot (f : PureFnE S V O) (v : V) (w : O) (c : S) : Option V × Bool × S := created (f v w c)

/-- the closure that looks up its state -/
def porc (f : PureFnE S V W) (σ : List K → S) : List K × V → List K × W → Option (List K × V) := fun a b =>
  (pslot f a.2 b.2 (σ a.1)).1.map fun v => (a.1, v)

/-- the same, for `left_combine` -/
def porcL (f : PureFnE S V (Option W)) (σ : List K → S) : List K × V → Option (List K × W) → Option (List K × V) := fun a b =>
  (pslot f a.2 (b.map Prod.snd) (σ a.1)).1.map fun v => (a.1, v)

omit [Ord K] [TransOrd K] [LawfulEqOrd K] [DecidableEq K] in
/-- one call -/
theorem call_lock {f : PureFnE S V O} {v : V} {w : O} {c : S} {p : List K} (q : List K)
    (hf : Follows (pslot f) (fun k => σ (q ++ k)) [(p, v, w)] c) :
    LockG (pslot f) [(p, v, w)] c (f v w c) (.ret ((pslot f v w (σ (q ++ p))).1.map fun v => (q ++ p, v))) (Option.map fun v => (q ++ p, v)) := by
  have hc := hf.1
  simp only at hc
  rw [hc]
  obtain ⟨o, c', h⟩ : ∃ o c', f v w c = (o, c') := ⟨_, _, rfl⟩
  rw [h]
  unfold pslot
  rw [h]
  cases o with
  | panic =>
    refine ⟨⟨?_, ?_⟩, by intro x hx; simp at hx⟩
    · simp [runQ, fillEach, h, created]
    · simp [runQ, fillEach, h, created, flowOf, callFlow]
  | ret x =>
    refine ⟨⟨?_, ?_⟩, ?_⟩
    · simp [runQ, fillEach, h, created]
    · simp [runQ, fillEach, h, created, flowOf, callFlow]
    · intro y hy
      simp only [Call.ret.injEq] at hy
      subst hy
      rfl

omit [TransOrd K] [LawfulEqOrd K] in
theorem outerPure_ok (f : PureFnE S V V) (σ : List K → S) : ValOkP (pslot f) denObs σ (outerPureValE f) (outerPureVal (porc f σ)) := by
  intro v w c p q hf
  cases v with
  | none => cases w <;> exact ⟨Ran.nil, by rintro x ⟨⟩; rfl⟩
  | some v =>
    cases w with
    | none => exact ⟨Ran.nil, by rintro x ⟨⟩; rfl⟩
    | some w => exact call_lock q hf

omit [TransOrd K] [LawfulEqOrd K] in
theorem innerPure_ok (f : PureFnE S V W) (σ : List K → S) : ValOkP (pslot f) denObs σ (innerPureValE f) (innerPureVal (porc f σ)) := by
  intro v w c p q hf
  cases v with
  | none => cases w <;> exact ⟨Ran.nil, by rintro x ⟨⟩; rfl⟩
  | some v =>
    cases w with
    | none => exact ⟨Ran.nil, by rintro x ⟨⟩; rfl⟩
    | some w => exact call_lock q hf

omit [TransOrd K] [LawfulEqOrd K] in
theorem leftPure_ok (f : PureFnE S V (Option W)) (σ : List K → S) :
    ValOkP (pslot f) nodeObs σ (leftPureValE f) (leftPureVal (porcL f σ)) := by
  intro v w c p q hf
  cases v with
  | none => exact ⟨Ran.nil, by rintro x ⟨⟩; rfl⟩
  | some v =>
    have := call_lock q (σ := σ) (f := f) (v := v) (w := w) (p := p) hf
    have e : (w.map fun w => (q ++ p, w)).map Prod.snd = w := by cases w <;> rfl
    simp only [Option.map_some, leftPureVal, porcL, e]
    exact this

section
variable {f : PureFnE S V V} {rec : Tree K V → Tree K V → S → Call (Tree K V) × S}
  {rec' : Tree K (List K × V) → Tree K (List K × V) → Call (Tree K (List K × V))} {a b : Tree K V} {c : S}

theorem outerCasesE_lock (ha : Valid a) (hb : Valid b) (hrec : RecLockP (pslot f) denObs σ rec rec' (a.size + b.size))
    (hf : Follows (pslot f) (fun k => σ (q ++ k)) (asks denObs a b) c) :
    LockG (pslot f) (asks denObs a b) c (outerCasesE (outerOpE rec) f (commonPrefix a.pre b.pre) a b c)
      (outerCases (outerOp rec') (porc f σ) (commonPrefix (tag q a).pre (tag q b).pre) (tag q a) (tag q b)) (tag q) := by
  rw [tag_pre, tag_pre]
  have hla := commonPrefix_le_left a.pre b.pre
  have hlb := commonPrefix_le_right a.pre b.pre
  have hdf := commonPrefix_differ a.pre b.pre
  have hpe := pre_eq_of_common (p := a.pre) (q := b.pre)
  have htk := commonPrefix_take a.pre b.pre
  revert hla hlb hdf hpe htk
  generalize commonPrefix a.pre b.pre = n
  intro hla hlb hdf hpe htk
  unfold outerCasesE outerCases outerOpE outerOp
  rw [tag_pre, tag_pre]
  by_cases h1 : n = a.pre.length ∧ n = b.pre.length
  · rw [if_pos h1, if_pos h1, List.take_of_length_le (by omega)]
    exact same_lockP denObs_laws rfl (outerPure_ok f σ) convOk_materialize convOk_materialize hrec ha hb (hpe h1.1 h1.2) hf
  rw [if_neg h1, if_neg h1]
  by_cases h3 : n = a.pre.length
  · have hnb : n < b.pre.length := by omega
    have e : a.pre = b.pre.take n := by rw [← htk, List.take_of_length_le (by omega)]
    rw [if_pos h3, if_pos h3, materializeShortened_eq hb hnb, materializeShortened_eq (tag_valid hb) (by rwa [tag_pre]),
      List.take_of_length_le (l := a.pre) (by omega), tag_val]
    exact above_lockP denObs_laws rfl convOk_materialize convOk_materialize hrec ha hb hnb e a.val hf
  rw [if_neg h3, if_neg h3]
  have hna : n < a.pre.length := by omega
  rw [materializeShortened_eq ha hna, materializeShortened_eq (tag_valid ha) (by rwa [tag_pre])]
  by_cases h2 : n = b.pre.length
  · rw [if_pos h2, if_pos h2]
    have e : a.pre.take n = b.pre := by rw [htk, List.take_of_length_le (by omega)]
    rw [tag_val, ← e]
    exact below_lockP denObs_laws rfl convOk_materialize convOk_materialize hrec ha hb hna e b.val hf
  · have hnb : n < b.pre.length := by omega
    rw [if_neg h2, if_neg h2, materializeShortened_eq hb hnb, materializeShortened_eq (tag_valid hb) (by rwa [tag_pre])]
    simp only [bindE, bindC]
    have hh : headed [a.shorten n, b.shorten n] = true := by
      simp [headed, shorten_ne hna, shorten_ne hnb]
    have hh' : headed [(tag q a).shorten n, (tag q b).shorten n] = true := by
      rw [tag_shorten, tag_shorten, ← htk]
      have := tag_headed (q ++ a.pre.take n) [a.shorten n, b.shorten n]
      rw [hh] at this
      exact this
    rw [if_pos hh, if_pos hh', asks_differ denObs_laws rfl hna hnb (hdf hna hnb)]
    refine ⟨Ran.nil, ?_⟩
    intro x hx
    unfold mkNode at hx ⊢
    simp only [Call.ret.injEq] at hx
    rw [← hx, ← tag_unsplit, tag_eq q ⟨a.pre.take n, none, _⟩, tag_shorten, tag_shorten, ← htk, tag_sort_two (hdf hna hnb)]
    rfl

end

theorem innerCasesE_lock {f : PureFnE S V W} {rec : Tree K V → Tree K W → S → Call (Tree K V) × S}
    {rec' : Tree K (List K × V) → Tree K (List K × W) → Call (Tree K (List K × V))} {a : Tree K V} {b : Tree K W} {c : S}
    (ha : Valid a) (hb : Valid b) (hrec : RecLockP (pslot f) denObs σ rec rec' (a.size + b.size))
    (hf : Follows (pslot f) (fun k => σ (q ++ k)) (asks denObs a b) c) :
    LockG (pslot f) (asks denObs a b) c (innerCasesE (innerOpE rec) f (commonPrefix a.pre b.pre) a b c)
      (innerCases (innerOp rec') (porc f σ) (commonPrefix (tag q a).pre (tag q b).pre) (tag q a) (tag q b)) (tag q) := by
  rw [tag_pre, tag_pre]
  have hla := commonPrefix_le_left a.pre b.pre
  have hlb := commonPrefix_le_right a.pre b.pre
  have hdf := commonPrefix_differ a.pre b.pre
  have hpe := pre_eq_of_common (p := a.pre) (q := b.pre)
  have htk := commonPrefix_take a.pre b.pre
  revert hla hlb hdf hpe htk
  generalize commonPrefix a.pre b.pre = n
  intro hla hlb hdf hpe htk
  unfold innerCasesE innerCases innerOpE innerOp
  rw [tag_pre, tag_pre]
  by_cases h1 : n = a.pre.length ∧ n = b.pre.length
  · rw [if_pos h1, if_pos h1, List.take_of_length_le (by omega)]
    exact same_lockP denObs_laws rfl (innerPure_ok f σ) convOk_false convOk_false hrec ha hb (hpe h1.1 h1.2) hf
  rw [if_neg h1, if_neg h1]
  by_cases h3 : n = a.pre.length
  · have hnb : n < b.pre.length := by omega
    have e : a.pre = b.pre.take n := by rw [← htk, List.take_of_length_le (by omega)]
    rw [if_pos h3, if_pos h3, materializeShortened_eq hb hnb, materializeShortened_eq (tag_valid hb) (by rwa [tag_pre]),
      List.take_of_length_le (l := a.pre) (by omega)]
    exact above_lockP denObs_laws rfl convOk_false convOk_false hrec ha hb hnb e none hf
  rw [if_neg h3, if_neg h3]
  have hna : n < a.pre.length := by omega
  by_cases h2 : n = b.pre.length
  · rw [if_pos h2, if_pos h2, materializeShortened_eq ha hna, materializeShortened_eq (tag_valid ha) (by rwa [tag_pre])]
    have e : a.pre.take n = b.pre := by rw [htk, List.take_of_length_le (by omega)]
    exact below_lockP denObs_laws rfl convOk_false convOk_false hrec ha hb hna e none hf
  · rw [if_neg h2, if_neg h2, asks_differ denObs_laws rfl hna (by omega) (hdf hna (by omega))]
    refine ⟨Ran.nil, ?_⟩
    intro x hx
    unfold mkNode at hx ⊢
    simp only [Call.ret.injEq] at hx
    rw [← hx, ← tag_unsplit, tag_eq q ⟨a.pre.take n, none, _⟩]
    rfl

theorem leftCasesE_lock {f : PureFnE S V (Option W)} {rec : Tree K V → Tree K W → S → Call (Tree K V) × S}
    {rec' : Tree K (List K × V) → Tree K (List K × W) → Call (Tree K (List K × V))} {a : Tree K V} {b : Tree K W} {c : S}
    (ha : Valid a) (hb : Valid b) (hrec : RecLockP (pslot f) nodeObs σ rec rec' (a.size + b.size))
    (hf : Follows (pslot f) (fun k => σ (q ++ k)) (asks nodeObs a b) c) :
    LockG (pslot f) (asks nodeObs a b) c (leftCasesE (leftOpE rec) f (commonPrefix a.pre b.pre) a b c)
      (leftCases (leftOp rec') (porcL f σ) (commonPrefix (tag q a).pre (tag q b).pre) (tag q a) (tag q b)) (tag q) := by
  rw [tag_pre, tag_pre]
  have hla := commonPrefix_le_left a.pre b.pre
  have hlb := commonPrefix_le_right a.pre b.pre
  have hdf := commonPrefix_differ a.pre b.pre
  have hpe := pre_eq_of_common (p := a.pre) (q := b.pre)
  have htk := commonPrefix_take a.pre b.pre
  revert hla hlb hdf hpe htk
  generalize commonPrefix a.pre b.pre = n
  intro hla hlb hdf hpe htk
  unfold leftCasesE leftCases leftOpE leftOp
  rw [tag_pre, tag_pre]
  by_cases h1 : n = a.pre.length ∧ n = b.pre.length
  · rw [if_pos h1, if_pos h1, List.take_of_length_le (by omega)]
    exact same_lockP nodeObs_laws rfl (leftPure_ok f σ) convOk_materialize convOk_false hrec ha hb (hpe h1.1 h1.2) hf
  rw [if_neg h1, if_neg h1]
  by_cases h3 : n = a.pre.length
  · have hnb : n < b.pre.length := by omega
    have e : a.pre = b.pre.take n := by rw [← htk, List.take_of_length_le (by omega)]
    rw [if_pos h3, if_pos h3, materializeShortened_eq hb hnb, materializeShortened_eq (tag_valid hb) (by rwa [tag_pre]),
      List.take_of_length_le (l := a.pre) (by omega), tag_val]
    exact above_lockP nodeObs_laws rfl convOk_materialize convOk_false hrec ha hb hnb e a.val hf
  rw [if_neg h3, if_neg h3]
  have hna : n < a.pre.length := by omega
  by_cases h2 : n = b.pre.length
  · rw [if_pos h2, if_pos h2, materializeShortened_eq ha hna, materializeShortened_eq (tag_valid ha) (by rwa [tag_pre])]
    have e : a.pre.take n = b.pre := by rw [htk, List.take_of_length_le (by omega)]
    exact below_lockP nodeObs_laws rfl convOk_materialize convOk_false hrec ha hb hna e none hf
  · rw [if_neg h2, if_neg h2, asks_differ nodeObs_laws rfl hna (by omega) (hdf hna (by omega)), materializeKids_eq ha.kids,
      tag_kids, materializeKids_eq (tag_kids_ok ha.kids)]
    refine ⟨Ran.nil, ?_⟩
    intro x hx
    unfold mkNode bindE at hx
    unfold mkNode bindC
    simp only [Call.ret.injEq] at hx ⊢
    rw [← hx, ← tag_unsplit, tag_eq q ⟨a.pre, a.val, a.kids⟩, tag_val]

theorem outerGoE_lock (f : PureFnE S V V) (σ : List K → S) : ∀ (fuel : Nat) (a b : Tree K V), Valid a → Valid b → a.size + b.size < fuel →
    ∀ q c, Follows (pslot f) (fun k => σ (q ++ k)) (asks denObs a b) c →
      LockG (pslot f) (asks denObs a b) c (outerGoE f fuel a b c) (outerGo (porc f σ) fuel (tag q a) (tag q b)) (tag q) := by
  intro fuel
  induction fuel with
  | zero => intro a b _ _ h; omega
  | succ fuel ih =>
    intro a b ha hb hs q c hf
    exact outerCasesE_lock ha hb (fun x y hx hy h => ih x y hx hy (by omega)) hf

theorem innerGoE_lock (f : PureFnE S V W) (σ : List K → S) : ∀ (fuel : Nat) (a : Tree K V) (b : Tree K W), Valid a → Valid b →
    a.size + b.size < fuel → ∀ q c, Follows (pslot f) (fun k => σ (q ++ k)) (asks denObs a b) c →
      LockG (pslot f) (asks denObs a b) c (innerGoE f fuel a b c) (innerGo (porc f σ) fuel (tag q a) (tag q b)) (tag q) := by
  intro fuel
  induction fuel with
  | zero => intro a b _ _ h; omega
  | succ fuel ih =>
    intro a b ha hb hs q c hf
    exact innerCasesE_lock ha hb (fun x y hx hy h => ih x y hx hy (by omega)) hf

theorem leftGoE_lock (f : PureFnE S V (Option W)) (σ : List K → S) : ∀ (fuel : Nat) (a : Tree K V) (b : Tree K W), Valid a → Valid b →
    a.size + b.size < fuel → ∀ q c, Follows (pslot f) (fun k => σ (q ++ k)) (asks nodeObs a b) c →
      LockG (pslot f) (asks nodeObs a b) c (leftGoE f fuel a b c) (leftGo (porcL f σ) fuel (tag q a) (tag q b)) (tag q) := by
  intro fuel
  induction fuel with
  | zero => intro a b _ _ h; omega
  | succ fuel ih =>
    intro a b ha hb hs q c hf
    exact leftCasesE_lock ha hb (fun x y hx hy h => ih x y hx hy (by omega)) hf

end
end Tree
end Verif
