import Verif.Model.RadixClone
import Verif.Lemmas.RadixLockGo
import Verif.Lemmas.RadixPanic
/-! What an in-place combination leaves behind, whatever `clone` and the closures do. -/
namespace Verif
namespace Tree
open Std

section ent
variable {K V W S : Type _}

/-- all entries satisfy `P` -/
def Ent (P : List K → V → Prop) (t : Tree K V) : Prop := ∀ k v, Entry t k v → P k v
/-- all entries of the siblings satisfy `P` -/
def EntL (P : List K → V → Prop) (ks : List (Tree K V)) : Prop := ∀ c ∈ ks, Ent P c
/-- `P` for keys below `p` -/
def under (p : List K) (P : List K → V → Prop) : List K → V → Prop := fun k v => P (p ++ k) v

theorem under_under (p q : List K) (P : List K → V → Prop) : under q (under p P) = under (p ++ q) P := by
  funext k v; simp [under]

theorem ent_iff {P : List K → V → Prop} {t : Tree K V} : Ent P t ↔ (∀ x, t.val = some x → P t.pre x) ∧ EntL (under t.pre P) t.kids := by
  obtain ⟨p, tv, ks⟩ := t
  constructor
  · intro h
    refine ⟨fun x hx => ?_, fun c hc k v he => ?_⟩
    · simp only at hx; subst hx; exact h _ _ .here
    · exact h _ _ (.there hc he)
  · rintro ⟨h1, h2⟩ k v he
    rcases entry_node_iff.1 he with ⟨rfl, e⟩ | ⟨c, hc, k1, rfl, e⟩
    · exact h1 _ e
    · exact h2 c hc _ _ e

theorem entL_nil {P : List K → V → Prop} : EntL P ([] : List (Tree K V)) := by intro c hc; simp at hc
theorem EntL.sub {P : List K → V → Prop} {ks ks' : List (Tree K V)} (h : EntL P ks) (s : ∀ c ∈ ks', c ∈ ks) : EntL P ks' :=
  fun c hc => h c (s c hc)
theorem EntL.append {P : List K → V → Prop} {ks ks' : List (Tree K V)} (h : EntL P ks) (h' : EntL P ks') : EntL P (ks ++ ks') := by
  intro c hc
  rcases List.mem_append.1 hc with hc | hc
  · exact h c hc
  · exact h' c hc
theorem entL_single {P : List K → V → Prop} {t : Tree K V} (h : Ent P t) : EntL P [t] := by
  intro c hc; rw [List.mem_singleton] at hc; subst hc; exact h

theorem ent_shorten {P : List K → V → Prop} {t : Tree K V} (h : Ent P t) (n : Nat) : Ent (under (t.pre.take n) P) (t.shorten n) := by
  rw [ent_iff] at h ⊢
  simp only [shorten]
  rw [under_under, List.take_append_drop]
  refine ⟨fun x hx => ?_, h.2⟩
  rw [under, List.take_append_drop]
  exact h.1 x hx
end ent

section clones
variable {K V W S : Type _} [Ord K]

theorem cloneOptC_ent {cl : V → S → Call V × S} {P P' : V → Prop} (hcl : ∀ v s v' s', P v → cl v s = (.ret v', s') → P' v') {v v' : Option V}
    {s s' : S} (hv : ∀ x, v = some x → P x) (h : cloneOptC cl v s = (.ret v', s')) : ∀ x, v' = some x → P' x := by
  cases v with
  | none => simp only [cloneOptC, Prod.mk.injEq, Call.ret.injEq] at h; rw [← h.1]; simp
  | some v =>
    rcases hc : cl v s with ⟨r, s1⟩
    cases r with
    | panic => simp [cloneOptC, hc] at h
    | ret u =>
      simp only [cloneOptC, hc, Prod.mk.injEq, Call.ret.injEq] at h
      rw [← h.1]
      rintro x ⟨⟩
      exact hcl v s _ s1 (hv v rfl) hc

/-- a materialized list of children: as the original, but with cloned values -/
theorem materializeKidsC_ent {cl : V → S → Call V × S} {ks : List (Tree K V)}
    (ih : ∀ c ∈ ks, ∀ (P P' : List K → V → Prop), (∀ k v s v' s', P k v → cl v s = (.ret v', s') → P' k v') → ∀ n s z s', Valid c → Ent P c →
      materializeShortenedC cl c n s = (.ret z, s') → n < c.pre.length ∧ Valid z ∧ Ent (under (c.pre.take n) P') z ∧ z.pre = c.pre.drop n)
    {P P' : List K → V → Prop} (hcl : ∀ k v s v' s', P k v → cl v s = (.ret v', s') → P' k v') {s s' : S} {zs : List (Tree K V)}
    (hv : ∀ c ∈ ks, Valid c) (he : EntL P ks) (h : materializeKidsC cl ks s = (.ret zs, s')) :
    (∀ c ∈ zs, Valid c) ∧ EntL P' zs ∧ zs.map (·.pre) = ks.map (·.pre) := by
  induction ks generalizing s s' zs with
  | nil =>
    simp only [materializeKidsC, Prod.mk.injEq, Call.ret.injEq] at h
    rw [← h.1]
    exact ⟨by simp, entL_nil, rfl⟩
  | cons c cs ihl =>
    rcases h1 : materializeShortenedC cl c 0 s with ⟨r1, s1⟩
    cases r1 with
    | panic => simp [materializeKidsC, h1] at h
    | ret z =>
      rcases h2 : materializeKidsC cl cs s1 with ⟨r2, s2⟩
      cases r2 with
      | panic => simp [materializeKidsC, h1, h2] at h
      | ret zs' =>
        simp only [materializeKidsC, h1, h2, Prod.mk.injEq, Call.ret.injEq] at h
        obtain ⟨_, i1, i2, i3⟩ := ih c (by simp) P P' hcl 0 s z s1 (hv c (by simp)) (he c (by simp)) h1
        obtain ⟨j1, j2, j3⟩ := ihl (fun c hc => ih c (by simp [hc])) (fun c hc => hv c (by simp [hc])) (he.sub (by simp +contextual)) h2
        rw [← h.1]
        refine ⟨by simp; exact ⟨i1, j1⟩, ?_, by simp [i3, j3]⟩
        intro d hd
        rcases List.mem_cons.1 hd with rfl | hd
        · exact i2
        · exact j2 d hd

theorem kids_of_pre {ks : List (Tree K W)} {zs : List (Tree K V)} (h : Kids ks) (hp : zs.map (·.pre) = ks.map (·.pre)) (hv : ∀ c ∈ zs, Valid c) : Kids zs := by
  refine ⟨?_, ?_, hv⟩
  · intro c hc
    have : c.pre ∈ ks.map (·.pre) := by rw [← hp]; exact List.mem_map_of_mem hc
    obtain ⟨d, hd, e⟩ := List.mem_map.1 this
    rw [← e]
    exact h.ne d hd
  · have := h.asc
    rw [AscendingBy, ← List.pairwise_map (f := fun x : Tree K W => x.pre) (R := fun p q : List K => compare p.head? q.head? = .lt)] at this
    rw [AscendingBy, ← List.pairwise_map (f := fun x : Tree K V => x.pre) (R := fun p q : List K => compare p.head? q.head? = .lt), hp]
    exact this

/-- a materialized tree: as the original, but with cloned values -/
theorem materializeC_ent {cl : V → S → Call V × S} (t : Tree K V) : ∀ (P P' : List K → V → Prop),
    (∀ k v s v' s', P k v → cl v s = (.ret v', s') → P' k v') → ∀ n s z s', Valid t → Ent P t →
      materializeShortenedC cl t n s = (.ret z, s') → n < t.pre.length ∧ Valid z ∧ Ent (under (t.pre.take n) P') z ∧ z.pre = t.pre.drop n := by
  refine induct (P := fun t => ∀ (P P' : List K → V → Prop),
    (∀ k v s v' s', P k v → cl v s = (.ret v', s') → P' k v') → ∀ n s z s', Valid t → Ent P t →
      materializeShortenedC cl t n s = (.ret z, s') → n < t.pre.length ∧ Valid z ∧ Ent (under (t.pre.take n) P') z ∧ z.pre = t.pre.drop n) ?_ t
  intro p v ks ih P P' hcl n s z s' hv he h
  rw [materializeShortenedC] at h
  split at h
  case isFalse => simp at h
  case isTrue hn =>
    rcases h1 : cloneOptC cl v s with ⟨r1, s1⟩
    cases r1 with
    | panic => simp [h1] at h
    | ret v' =>
      rcases h2 : materializeKidsC cl ks s1 with ⟨r2, s2⟩
      cases r2 with
      | panic => simp [h1, h2] at h
      | ret zs =>
        simp only [h1, h2, Prod.mk.injEq, Call.ret.injEq] at h
        rw [ent_iff] at he
        obtain ⟨j1, j2, j3⟩ := materializeKidsC_ent (P := under p P) (P' := under p P') ih (fun k v s v' s' => hcl _ v s v' s') hv.kids.valid he.2 h2
        rw [← h.1]
        refine ⟨hn, valid_iff.2 (kids_of_pre hv.kids j3 j1), ?_, rfl⟩
        rw [ent_iff]
        simp only
        rw [under_under, List.take_append_drop]
        refine ⟨fun x hx => ?_, j2⟩
        rw [under, List.take_append_drop]
        exact cloneOptC_ent (P := P p) (hcl p) he.1 h1 x hx

theorem cloneNodesC_ent {cl : V → S → Call V × S} {P : List K → V → Prop} (hcl : ∀ k v s v' s', P k v → cl v s = (.ret v', s') → P k v')
    {ks ks' : List (Tree K V)} {s s' : S} (hv : ∀ c ∈ ks, Valid c) (he : EntL P ks) (h : cloneNodesC cl ks s = (.ret ks', s')) :
    (∀ c ∈ ks', Valid c) ∧ EntL P ks' ∧ ks'.map (·.pre) = ks.map (·.pre) := by
  induction ks generalizing s s' ks' with
  | nil =>
    simp only [cloneNodesC, Prod.mk.injEq, Call.ret.injEq] at h
    rw [← h.1]
    exact ⟨by simp, entL_nil, rfl⟩
  | cons c cs ih =>
    rcases h1 : cloneOptC cl c.val s with ⟨r1, s1⟩
    cases r1 with
    | panic => simp [cloneNodesC, h1] at h
    | ret v =>
      rcases h2 : cloneNodesC cl cs s1 with ⟨r2, s2⟩
      cases r2 with
      | panic => simp [cloneNodesC, h1, h2] at h
      | ret zs =>
        simp only [cloneNodesC, h1, h2, Prod.mk.injEq, Call.ret.injEq] at h
        obtain ⟨j1, j2, j3⟩ := ih (fun c hc => hv c (by simp [hc])) (he.sub (by simp +contextual)) h2
        rw [← h.1]
        have hc := ent_iff.1 (he c (by simp))
        refine ⟨?_, ?_, by simp [j3]⟩
        · intro d hd
          rcases List.mem_cons.1 hd with rfl | hd
          · exact valid_iff.2 (hv c (by simp)).kids
          · exact j1 d hd
        · intro d hd
          rcases List.mem_cons.1 hd with rfl | hd
          · exact ent_iff.2 ⟨cloneOptC_ent (P := P c.pre) (hcl _) hc.1 h1, hc.2⟩
          · exact j2 d hd

/-- `r` is a valid tree with prefix `p` whose entries satisfy `P` -/
structure Ok (P : List K → V → Prop) (p : List K) (t : Tree K V) : Prop where
  valid : Valid t
  ent : Ent P t
  pre : t.pre = p

/-- cloning a value keeps `P` and `Q` -/
structure Closed (e : Clones S V W) (P : List K → V → Prop) (Q : List K → W → Prop) : Prop where
  own : ∀ k v s v' s', P k v → e.own v s = (.ret v', s') → P k v'
  other : ∀ k w s w' s', Q k w → e.other w s = (.ret w', s') → Q k w'

omit [Ord K] in
theorem Closed.under {e : Clones S V W} {P : List K → V → Prop} {Q : List K → W → Prop} (h : Closed e P Q) (p : List K) :
    Closed e (under p P) (under p Q) := ⟨fun k => h.own (p ++ k), fun k => h.other (p ++ k)⟩

variable {e : Clones S V W} {P : List K → V → Prop} {Q : List K → W → Prop}

theorem childrenMutC_ok (hcl : Closed e P Q) {p : List K} {t : Tree K V × S} (h : Ok P p t.1) : Ok P p (childrenMutC e t).1.1 := by
  obtain ⟨t, s⟩ := t
  unfold childrenMutC
  rcases hs : e.shared s with ⟨b, s1⟩
  cases b with
  | false => simpa [hs] using h
  | true =>
    rcases hc : cloneNodesC e.own t.kids s1 with ⟨r, s2⟩
    cases r with
    | panic => simpa [hs, hc] using h
    | ret ks =>
      simp only [hs, hc]
      have he := ent_iff.1 h.ent
      obtain ⟨j1, j2, j3⟩ := cloneNodesC_ent (P := Tree.under t.pre P) (fun k => hcl.own _) h.valid.kids.valid he.2 hc
      exact ⟨valid_iff.2 (kids_of_pre h.valid.kids j3 j1), ent_iff.2 ⟨he.1, j2⟩, h.pre⟩

omit [Ord K] in
theorem childrenMutC_val (t : Tree K V × S) : (childrenMutC e t).1.1.val = t.1.val := by
  obtain ⟨t, s⟩ := t
  unfold childrenMutC
  rcases hs : e.shared s with ⟨b, s1⟩
  cases b with
  | false => simp [hs]
  | true =>
    rcases hc : cloneNodesC e.own t.kids s1 with ⟨r, s2⟩
    cases r <;> simp [hs, hc]

end clones

section merge
variable {K V W S : Type _} [Ord K]

theorem Kids.append {l1 l2 : List (Tree K V)} (h1 : Kids l1) (h2 : Kids l2) (h : ∀ c ∈ l1, ∀ d ∈ l2, compare (hd c) (hd d) = .lt) :
    Kids (l1 ++ l2) := by
  refine ⟨?_, ?_, ?_⟩
  · intro c hc
    rcases List.mem_append.1 hc with hc | hc
    · exact h1.ne c hc
    · exact h2.ne c hc
  · exact List.pairwise_append.2 ⟨h1.asc, h2.asc, h⟩
  · intro c hc
    rcases List.mem_append.1 hc with hc | hc
    · exact h1.valid c hc
    · exact h2.valid c hc

variable {P : List K → V → Prop} {Q : List K → W → Prop} {conv : Tree K W → S → Call (Tree K V) × S}

/-- converted children -/
def ConvOkC (P : List K → V → Prop) (Q : List K → W → Prop) (conv : Tree K W → S → Call (Tree K V) × S) : Prop :=
  ∀ y s z s', Valid y → Ent Q y → conv y s = (.ret z, s') → Valid z ∧ Ent P z ∧ z.pre = y.pre

theorem extendFromIterC_spec (hconv : ConvOkC P Q conv) : ∀ (n : Nat) (m : InPlaceMS (Tree K V) (Tree K W) × S), n ≤ m.1.b.length →
    (∀ y ∈ m.1.b, Valid y) → EntL Q m.1.b → ∃ j zs, j ≤ n ∧ (extendFromIterC conv m n).1.1.tgt = m.1.tgt ++ zs ∧
      zs.map (·.pre) = (m.1.b.take j).map (·.pre) ∧ (∀ c ∈ zs, Valid c) ∧ EntL P zs ∧
      ((extendFromIterC conv m n).2 = .cont → (extendFromIterC conv m n).1.1.b = m.1.b.drop n ∧ (extendFromIterC conv m n).1.1.src = m.1.src)
  | 0, m, _, _, _ => ⟨0, [], by simp, by simp [extendFromIterC], by simp, by simp, entL_nil, by simp [extendFromIterC]⟩
  | n + 1, ⟨⟨tgt, src, b⟩, s⟩, hn, hv, he => by
    cases b with
    | nil => simp at hn
    | cons y ys =>
      rcases hc : conv y s with ⟨r, s1⟩
      cases r with
      | panic =>
        refine ⟨0, [], by simp, ?_, by simp, by simp, entL_nil, ?_⟩ <;> simp [extendFromIterC, hc]
      | ret z =>
        obtain ⟨c1, c2, c3⟩ := hconv y s z s1 (hv y (by simp)) (he y (by simp)) hc
        obtain ⟨j, zs, i1, i2, i3, i4, i5, i6⟩ := extendFromIterC_spec hconv n (⟨tgt ++ [z], src, ys⟩, s1) (by simpa using hn)
          (fun y hy => hv y (by simp [show y ∈ ys from hy])) (he.sub (by intro c hc; simp [show c ∈ ys from hc]))
        refine ⟨j + 1, z :: zs, by omega, ?_, by simp [c3, i3], ?_, ?_, ?_⟩
        · simp only [extendFromIterC, hc, i2]; simp
        · simp; exact ⟨c1, i4⟩
        · intro d hd
          rcases List.mem_cons.1 hd with rfl | hd
          · exact c2
          · exact i5 d hd
        · simp only [extendFromIterC, hc]
          simpa using i6

theorem skipB_spec {A B : Type _} : ∀ (n : Nat) (m : InPlaceMS A B), (m.skipB n).tgt = m.tgt ∧ (m.skipB n).src = m.src ∧ (m.skipB n).b = m.b.drop n
  | 0, m => by simp [InPlaceMS.skipB]
  | n + 1, m => by
    obtain ⟨i1, i2, i3⟩ := skipB_spec n { m with b := m.b.tail }
    refine ⟨i1, i2, ?_⟩
    rw [InPlaceMS.skipB, i3]
    simp [← List.drop_one]
    rw [Nat.add_comm]

theorem consume_spec {A B : Type _} (n : Nat) (m : InPlaceMS A B) (take : Bool) :
    (m.consume n take).tgt = m.tgt ++ (if take then m.src.take n else []) ∧ (m.consume n take).src = m.src.drop n ∧ (m.consume n take).b = m.b := by
  have h1 : m.src.take (min n m.src.length) = m.src.take n := by
    rw [List.take_eq_take_iff]; omega
  have h2 : m.src.drop (min n m.src.length) = m.src.drop n := by
    by_cases h : n ≤ m.src.length
    · rw [Nat.min_eq_left h]
    · rw [Nat.min_eq_right (by omega), List.drop_of_length_le (by omega), List.drop_of_length_le (by omega)]
  cases take <;> simp [InPlaceMS.consume, h1, h2]

/-- what a recursive call leaves of a pair of children -/
def RecOkC (P : List K → V → Prop) (Q : List K → W → Prop) (rec : Tree K V → Tree K W → S → (Tree K V × S) × Flow) : Prop :=
  ∀ x y s, Valid x → Valid y → x.pre ≠ [] → hd x = hd y → Ent P x → Ent Q y → (rec x y s).2 = .cont →
    Valid (rec x y s).1.1 ∧ Ent P (rec x y s).1.1 ∧ ((rec x y s).1.1.isEmpty = false → hd (rec x y s).1.1 = hd x)

variable {takeA : Bool} {oconv : Option (Tree K W → S → Call (Tree K V) × S)} {rec : Tree K V → Tree K W → S → (Tree K V × S) × Flow}

theorem collisionC_spec (m : InPlaceMS (Tree K V) (Tree K W) × S) {x : Tree K V} {as : List (Tree K V)} {y : Tree K W} {bs : List (Tree K W)}
    (ha : m.1.src = x :: as) (hb : m.1.b = y :: bs) :
    (((inPlaceOpC takeA oconv rec).collision m).2 = (rec x y m.2).2) ∧ (((inPlaceOpC takeA oconv rec).collision m).1.2 = (rec x y m.2).1.2) ∧
    ((rec x y m.2).2 ≠ .cont → ((inPlaceOpC takeA oconv rec).collision m).1.1.tgt = m.1.tgt) ∧
    ((rec x y m.2).2 = .cont → ((inPlaceOpC takeA oconv rec).collision m).1.1 =
      ⟨m.1.tgt ++ (if (rec x y m.2).1.1.isEmpty then [] else [(rec x y m.2).1.1]), as, bs⟩) := by
  obtain ⟨⟨tgt, src, b⟩, s⟩ := m
  simp only at ha hb
  subst ha hb
  rcases h : rec x y s with ⟨⟨r, s'⟩, fl⟩
  simp only [inPlaceOpC, h]
  cases fl with
  | stop => simp [andThen]
  | panic => simp [andThen]
  | cont =>
    cases he : r.isEmpty <;> simp [andThen, quiet, InPlaceMS.consume, InPlaceMS.skipB]

theorem inPlaceOpC_slices (hconv : ∀ conv, oconv = some conv → ConvOkC P Q conv) :
    SliceOk (inPlaceOpC takeA oconv rec) (fun m => (∀ y ∈ m.1.b, Valid y) ∧ EntL Q m.1.b) where
  fromA m n hi _ _ := by
    obtain ⟨c1, c2, c3⟩ := consume_spec n m.1 takeA
    exact ⟨fun _ => c2, fun _ => c3, fun _ => by simpa [inPlaceOpC, quiet, c3] using hi⟩
  fromB m n hi h1 hn := by
    cases oconv with
    | none =>
      obtain ⟨c1, c2, c3⟩ := skipB_spec n m.1
      refine ⟨fun _ => c2, fun _ => c3, fun _ => ?_⟩
      simp only [inPlaceOpC, quiet, c3]
      exact ⟨fun y hy => hi.1 y (List.mem_of_mem_drop hy), hi.2.sub fun y hy => List.mem_of_mem_drop hy⟩
    | some conv =>
      obtain ⟨j, zs, i1, i2, i3, i4, i5, i6⟩ := extendFromIterC_spec (hconv conv rfl) n m hn hi.1 hi.2
      refine ⟨fun h => (i6 h).2, fun h => (i6 h).1, fun h => ?_⟩
      simp only [inPlaceOpC] at h ⊢
      rw [(i6 h).1]
      exact ⟨fun y hy => hi.1 y (List.mem_of_mem_drop hy), hi.2.sub fun y hy => List.mem_of_mem_drop hy⟩
  collision m x as y bs hi ha hb := by
    obtain ⟨c1, c2, c3, c4⟩ := collisionC_spec (takeA := takeA) (oconv := oconv) (rec := rec) m ha hb
    rw [← c1] at c4
    have hb' : m.1.b = y :: bs := hb
    refine ⟨fun h => ?_, fun h => ?_, fun h => ?_⟩
    · show ((inPlaceOpC takeA oconv rec).collision m).1.1.src = _
      rw [c4 h]
    · show ((inPlaceOpC takeA oconv rec).collision m).1.1.b = _
      rw [c4 h]
    · rw [c4 h]
      rw [hb'] at hi
      exact ⟨fun y hy => hi.1 y (by simp [show y ∈ bs from hy]), hi.2.sub (by simp +contextual)⟩

variable [TransOrd K] [LawfulEqOrd K]

/-- the children built so far, and those still to come -/
structure Built (P : List K → V → Prop) (tgt as : List (Tree K V)) (bs : List (Tree K W)) : Prop where
  kids : Kids tgt
  ent : EntL P tgt
  a : ∀ c ∈ tgt, ∀ x ∈ as, compare (hd c) (hd x) = .lt
  b : ∀ c ∈ tgt, ∀ y ∈ bs, compare (hd c) (hd y) = .lt

theorem run_built (hconv : ∀ conv, oconv = some conv → ConvOkC P Q conv) (hrec : RecOkC P Q rec) {as : List (Tree K V)} {bs : List (Tree K W)}
    {evs : List Ev} (hl : Legal headCmp as bs evs) : ∀ (m : InPlaceMS (Tree K V) (Tree K W) × S) (as2 : List (Tree K V)) (bs2 : List (Tree K W)),
      Kids as → Kids bs → EntL P as → EntL Q bs → (∀ y ∈ bs2, Valid y) → EntL Q bs2 → m.1.src = as ++ as2 → m.1.b = bs ++ bs2 →
      Built P m.1.tgt as bs → Kids (runEvs (inPlaceOpC takeA oconv rec) m evs).1.1.tgt ∧ EntL P (runEvs (inPlaceOpC takeA oconv rec) m evs).1.1.tgt := by
  induction hl with
  | done => intro m _ _ _ _ _ _ _ _ _ _ h; exact ⟨h.kids, h.ent⟩
  | @a as bs evs n h1 hn hlt _ ih =>
    intro m as2 bs2 ka kb ea eb v2 e2 ha hb hB
    obtain ⟨c1, c2, c3⟩ := consume_spec n m.1 takeA
    have ka1 : Kids (as.take n) := ka.sublist (List.take_sublist n as)
    have hasc := ka.asc
    rw [← List.take_append_drop n as, AscendingBy, List.pairwise_append] at hasc
    rw [runEvs]
    show Kids (runEvs _ (m.1.consume n takeA, m.2) evs).1.1.tgt ∧ EntL P (runEvs _ (m.1.consume n takeA, m.2) evs).1.1.tgt
    refine ih (m.1.consume n takeA, m.2) as2 bs2 (ka.sublist (List.drop_sublist n as)) kb (ea.sub fun _ => List.mem_of_mem_drop) eb v2 e2
      (by rw [c2, ha, List.drop_append_of_le_length hn]) (by rw [c3, hb]) ?_
    simp only
    rw [c1, ha, List.take_append_of_le_length hn]
    cases takeA with
    | false =>
      simp only [Bool.false_eq_true, ↓reduceIte, List.append_nil]
      exact ⟨hB.kids, hB.ent, fun c hc x hx => hB.a c hc x (List.mem_of_mem_drop hx), hB.b⟩
    | true =>
      simp only [↓reduceIte]
      refine ⟨hB.kids.append ka1 fun c hc d hd => hB.a c hc d (List.mem_of_mem_take hd), hB.ent.append (ea.sub fun _ => List.mem_of_mem_take), ?_, ?_⟩
      · intro c hc x hx
        rcases List.mem_append.1 hc with hc | hc
        · exact hB.a c hc x (List.mem_of_mem_drop hx)
        · exact hasc.2.2 c hc x hx
      · intro c hc y hy
        rcases List.mem_append.1 hc with hc | hc
        · exact hB.b c hc y hy
        · exact hlt c hc y hy
  | @b as bs evs n h1 hn hlt _ ih =>
    intro m as2 bs2 ka kb ea eb v2 e2 ha hb hB
    have hasc := kb.asc
    rw [← List.take_append_drop n bs, AscendingBy, List.pairwise_append] at hasc
    rw [runEvs]
    cases oconv with
    | none =>
      obtain ⟨c1, c2, c3⟩ := skipB_spec n m.1
      show Kids (runEvs _ (m.1.skipB n, m.2) evs).1.1.tgt ∧ EntL P (runEvs _ (m.1.skipB n, m.2) evs).1.1.tgt
      refine ih (m.1.skipB n, m.2) as2 bs2 ka (kb.sublist (List.drop_sublist n bs)) ea (eb.sub fun _ => List.mem_of_mem_drop) v2 e2
        (by rw [c2, ha]) (by rw [c3, hb, List.drop_append_of_le_length hn]) ?_
      simp only
      rw [c1]
      exact ⟨hB.kids, hB.ent, hB.a, fun c hc y hy => hB.b c hc y (List.mem_of_mem_drop hy)⟩
    | some conv =>
      have hvb : ∀ y ∈ m.1.b, Valid y := by
        rw [hb]; intro y hy
        rcases List.mem_append.1 hy with hy | hy
        · exact kb.valid y hy
        · exact v2 y hy
      obtain ⟨j, zs, i1, i2, i3, i4, i5, i6⟩ := extendFromIterC_spec (hconv conv rfl) n m (by rw [hb]; simp; omega) hvb (by rw [hb]; exact eb.append e2)
      have hj : m.1.b.take j = bs.take j := by rw [hb, List.take_append_of_le_length (by omega)]
      rw [hj] at i3
      have kz : Kids zs := kids_of_pre (kb.sublist (List.take_sublist j bs)) i3 i4
      have hz : ∀ z ∈ zs, ∃ y ∈ bs.take n, hd z = hd y := by
        intro z hz
        have : z.pre ∈ (bs.take j).map (·.pre) := by rw [← i3]; exact List.mem_map_of_mem hz
        obtain ⟨y, hy, e⟩ := List.mem_map.1 this
        exact ⟨y, (List.take_subset_take_left bs i1) hy, by simp [hd, e]⟩
      have hout : Built P (extendFromIterC conv m n).1.1.tgt as (bs.drop n) := by
        rw [i2]
        refine ⟨hB.kids.append kz ?_, hB.ent.append i5, ?_, ?_⟩
        · intro c hc d hd
          obtain ⟨y, hy, e⟩ := hz d hd
          rw [e]; exact hB.b c hc y (List.mem_of_mem_take hy)
        · intro c hc x hx
          rcases List.mem_append.1 hc with hc | hc
          · exact hB.a c hc x hx
          · obtain ⟨y, hy, e⟩ := hz c hc
            rw [e]
            have := hlt y hy x hx
            rw [headCmp_eq, cmp_gt_iff] at this
            exact this
        · intro c hc x hx
          rcases List.mem_append.1 hc with hc | hc
          · exact hB.b c hc x (List.mem_of_mem_drop hx)
          · obtain ⟨y, hy, e⟩ := hz c hc
            rw [e]; exact hasc.2.2 y hy x hx
      show Kids (andThen (extendFromIterC conv m n) fun s => runEvs _ s evs).1.1.tgt ∧ EntL P (andThen (extendFromIterC conv m n) fun s => runEvs _ s evs).1.1.tgt
      by_cases hc : (extendFromIterC conv m n).2 = .cont
      · have e : ∀ k : InPlaceMS (Tree K V) (Tree K W) × S → (InPlaceMS (Tree K V) (Tree K W) × S) × Flow,
            andThen (extendFromIterC conv m n) k = k (extendFromIterC conv m n).1 := by intro k; simp [andThen, hc]
        rw [e]
        exact ih _ as2 bs2 ka (kb.sublist (List.drop_sublist n bs)) ea (eb.sub fun _ => List.mem_of_mem_drop) v2 e2 (by rw [(i6 hc).2, ha])
          (by rw [(i6 hc).1, hb, List.drop_append_of_le_length hn]) hout
      · have e : ∀ k : InPlaceMS (Tree K V) (Tree K W) × S → (InPlaceMS (Tree K V) (Tree K W) × S) × Flow,
            andThen (extendFromIterC conv m n) k = extendFromIterC conv m n := by
          intro k; unfold andThen; split
          · exact absurd ‹_› hc
          · rfl
        rw [e]
        exact ⟨hout.kids, hout.ent⟩
  | @c x y as bs evs he _ ih =>
    intro m as2 bs2 ka kb ea eb v2 e2 ha hb hB
    have he' : hd x = hd y := by rw [headCmp_eq] at he; exact cmp_eq_iff.1 he
    obtain ⟨c1, c2, c3, c4⟩ := collisionC_spec (takeA := takeA) (oconv := oconv) (rec := rec) m (x := x) (as := as ++ as2) (y := y) (bs := bs ++ bs2)
      (by simpa using ha) (by simpa using hb)
    have sa := ascendingBy_cons.1 ka.asc
    have sb := ascendingBy_cons.1 kb.asc
    rw [runEvs]
    by_cases hc : (rec x y m.2).2 = .cont
    · obtain ⟨r1, r2, r3⟩ := hrec x y m.2 (ka.valid x (by simp)) (kb.valid y (by simp)) (ka.ne x (by simp)) he' (ea x (by simp)) (eb y (by simp)) hc
      have e : ∀ k : InPlaceMS (Tree K V) (Tree K W) × S → (InPlaceMS (Tree K V) (Tree K W) × S) × Flow,
          andThen ((inPlaceOpC takeA oconv rec).collision m) k = k ((inPlaceOpC takeA oconv rec).collision m).1 := by
        intro k; rw [hc] at c1; simp [andThen, c1]
      rw [e]
      refine ih _ as2 bs2 (ka.sublist (List.sublist_cons_self ..)) (kb.sublist (List.sublist_cons_self ..)) (ea.sub (by simp +contextual))
        (eb.sub (by simp +contextual)) v2 e2 (by rw [c4 hc]) (by rw [c4 hc]) ?_
      rw [c4 hc]
      simp only
      cases hemp : (rec x y m.2).1.1.isEmpty with
      | true =>
        simp only [↓reduceIte, List.append_nil]
        exact ⟨hB.kids, hB.ent, fun c hc z hz => hB.a c hc z (by simp [hz]), fun c hc z hz => hB.b c hc z (by simp [hz])⟩
      | false =>
        simp only [Bool.false_eq_true, ↓reduceIte]
        have hh := r3 hemp
        have hne : (rec x y m.2).1.1.pre ≠ [] := by
          obtain ⟨c, r, hp⟩ := head?_some_of_ne (ka.ne x (by simp))
          intro h0
          simp [hd, h0, hp] at hh
        refine ⟨hB.kids.append (Kids.single r1 hne) ?_, hB.ent.append (entL_single r2), ?_, ?_⟩
        · intro c hc d hd
          rw [List.mem_singleton] at hd
          rw [hd, hh]
          exact hB.a c hc x (by simp)
        · intro c hc z hz
          rcases List.mem_append.1 hc with hc | hc
          · exact hB.a c hc z (by simp [hz])
          · rw [List.mem_singleton] at hc
            rw [hc, hh]; exact sa.1 z hz
        · intro c hc z hz
          rcases List.mem_append.1 hc with hc | hc
          · exact hB.b c hc z (by simp [hz])
          · rw [List.mem_singleton] at hc
            rw [hc, hh, he']; exact sb.1 z hz
    · have e : ∀ k : InPlaceMS (Tree K V) (Tree K W) × S → (InPlaceMS (Tree K V) (Tree K W) × S) × Flow,
          andThen ((inPlaceOpC takeA oconv rec).collision m) k = (inPlaceOpC takeA oconv rec).collision m := by
        intro k; unfold andThen; split
        · rename_i h; rw [c1] at h; exact absurd h hc
        · rfl
      rw [e, c3 hc]
      exact ⟨hB.kids, hB.ent⟩

/-- merging children, whatever happens: siblings again -/
theorem childrenWithE_ok (hconv : ∀ conv, oconv = some conv → ConvOkC (under p P) (under p Q) conv) (hrec : RecOkC (under p P) (under p Q) rec)
    {t : Tree K V × S} {rhs : List (Tree K W)} (h : Ok P p t.1) (kb : Kids rhs) (eb : EntL (under p Q) rhs) :
    Ok P p (childrenWithE (inPlaceOpC takeA oconv rec) t rhs).1.1 := by
  have ka := h.valid.kids
  have he := ent_iff.1 h.ent
  rw [h.pre] at he
  unfold childrenWithE
  simp only [ka.headed, kb.headed, Bool.and_self, ↓reduceIte, InPlaceMS.mergeE]
  obtain ⟨evs, h1, h2⟩ := mergeAll_eq_plan (inPlaceOpC_slices (takeA := takeA) (rec := rec) hconv) (ka := hd) (kb := hd) (by intro a b; rfl)
    (({ tgt := [], src := t.1.kids, b := rhs } : InPlaceMS _ _), t.2) ⟨kb.valid, eb⟩ ka.asc kb.asc
  rw [h2]
  obtain ⟨r1, r2⟩ := run_built hconv hrec h1 (({ tgt := [], src := t.1.kids, b := rhs } : InPlaceMS _ _), t.2) [] [] ka kb he.2 eb (by simp) entL_nil
    (List.append_nil _).symm (List.append_nil _).symm ⟨Kids.nil, entL_nil, by simp, by simp⟩
  exact ⟨valid_iff.2 r1, ent_iff.2 ⟨by simpa [h.pre] using he.1, by simpa [h.pre] using r2⟩, h.pre⟩

end merge
end Tree
end Verif
