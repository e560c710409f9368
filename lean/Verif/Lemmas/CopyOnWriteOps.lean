import Verif.Lemmas.CopyOnWrite
/-! Loads, copies and new vectors: the in-place operations. -/
namespace Verif.Cow
open Verif.Tree (Valid hd Par Sub Narrow Kids kidsRef refCases commonPrefix)
open Std

section
variable {K V W : Type}

theorem sumBy_components : ∀ (bs : List (Tree K W)), sumBy Tree.components bs = Tree.components.componentsL bs
  | [] => rfl
  | b :: bs => by rw [sumBy, sumBy_components bs]; rfl
theorem sumBy_mul {α : Type} (f : α → Nat) (k : Nat) : ∀ (l : List α), sumBy (fun x => f x * k) l = sumBy f l * k
  | [] => (Nat.zero_mul k).symm
  | x :: xs => by rw [sumBy, sumBy_mul f k xs, sumBy, Nat.add_mul]

/-- bound of the new vectors in a call for a pair of trees with common first component -/
def newBound (b : Tree K W) : Nat := (b.components + 1) * b.nodes

theorem sumBy_newBound : ∀ (bs : List (Tree K W)), sumBy newBound bs ≤ (Tree.components.componentsL bs + 1) * Tree.nodes.nodesL bs
  | [] => Nat.le_refl _
  | b :: bs => by
    have ih := sumBy_newBound bs
    rw [sumBy, newBound, Tree.components.componentsL, Tree.nodes.nodesL, Nat.mul_add]
    refine Nat.add_le_add (Nat.mul_le_mul_right _ (by omega)) (Nat.le_trans ih (Nat.mul_le_mul_right _ (by omega)))

theorem comps_def (b : Tree K W) : b.components = b.pre.length + Tree.components.componentsL b.kids := by cases b; rfl
theorem nods_def (b : Tree K W) : b.nodes = 1 + Tree.nodes.nodesL b.kids := by cases b; rfl
theorem components_shorten (b : Tree K W) {n : Nat} (h : n ≤ b.pre.length) : (b.shorten n).components + n = b.components := by
  rw [comps_def, comps_def b]
  simp only [Tree.shorten, List.length_drop]
  omega
theorem nodes_shorten (b : Tree K W) (n : Nat) : (b.shorten n).nodes = b.nodes := by rw [nods_def, nods_def b]; rfl
theorem nodes_pos (b : Tree K W) : 1 ≤ b.nodes := by rw [nods_def]; omega

variable [Ord K] [DecidableEq K]

/-- result and bounds of a call for a pair of trees with common first component -/
def KidOk (w : Nat) (t : Tree K V) (b : Tree K W) (x : Charged (CTree K V)) : Prop :=
  x.res.plain = t ∧ x.res.Settled ∧ Spent w b.components (b.components * (w + 1)) (newBound b) x.mem

/-- result and bounds of any call -/
def RootOk (w : Nat) (t : Tree K V) (b : Tree K W) (x : Charged (CTree K V)) : Prop :=
  x.res.plain = t ∧ x.res.Settled ∧ Spent w (b.components + 1) ((b.components + 1) * (w + 1)) ((b.components + 2) * b.nodes) x.mem

/-- the same of the cases, before `unsplit` -/
def CasesOk (w : Nat) (a : CTree K V) (b : Tree K W) (t : Tree K V) (x : Charged (CTree K V)) : Prop :=
  ∃ C F, CaseOk w t C (C * (w + 1)) F x ∧ C ≤ b.components ∧ F ≤ (b.components + 2) * b.nodes ∧
    (hd a.plain = hd b → a.pre ≠ [] → C + 1 ≤ b.components ∧ F ≤ newBound b)

theorem CasesOk.finish {w : Nat} {a : CTree K V} {b : Tree K W} {t : Tree K V} {x : Charged (CTree K V)} (h : CasesOk w a b t x) :
    RootOk w t.unsplit b (x >>= fun t => t.unsplit) ∧ (hd a.plain = hd b → a.pre ≠ [] → KidOk w t.unsplit b (x >>= fun t => t.unsplit)) := by
  obtain ⟨C, F, h1, h2, h3, h4⟩ := h
  obtain ⟨g1, g2, g3⟩ := h1.finish
  have e : 1 + C * (w + 1) + w = (C + 1) * (w + 1) := by rw [Nat.add_mul]; omega
  rw [e] at g3
  refine ⟨⟨g1, g2, g3.mono (by omega) (Nat.mul_le_mul_right _ (by omega)) h3⟩, fun hh hn => ?_⟩
  obtain ⟨k1, k2⟩ := h4 hh hn
  exact ⟨g1, g2, g3.mono (by omega) (Nat.mul_le_mul_right _ k1) k2⟩

variable [TransOrd K] [LawfulEqOrd K]

/-- the recursive calls behave -/
def Rec (w : Nat) (rec : CTree K V → Tree K W → Charged (CTree K V)) (r : Tree K V → Tree K W → Tree K V) (a : CTree K V) (b : Tree K W) : Prop :=
  ∀ x y, Sub a.plain b x.plain y → Narrow w x.plain → KidOk w (r x.plain y) y (rec x y)

theorem narrow_kids {w : Nat} {t : Tree K V} (h : Narrow w t) : t.kids.length ≤ w ∧ ∀ c ∈ t.kids, Narrow w c := by
  cases h; exact ⟨‹_›, ‹_›⟩
theorem narrow_shorten {w : Nat} {t : Tree K V} (h : Narrow w t) (n : Nat) : Narrow w (t.shorten n) := by
  cases h; exact .mk ‹_› ‹_›

omit [DecidableEq K] [TransOrd K] in
theorem heads_eq {x y : Option K} (h : x = y ∨ compare x y = .eq) : x = y := h.elim id fun h => by
  have := (LawfulEqCmp.compare_eq_iff_eq (cmp := (compare : Option K → Option K → Ordering))).1 h
  exact this

/-- the parameters fit the reference -/
structure Fits (P : Par K V W) (takeA : Bool) (conv : Option (Tree K W → Charged (CTree K V))) : Prop where
  ga : P.ga = if takeA then some else fun _ => none
  gb : ConvOk conv P.gb newBound

section shapes
variable {w : Nat} {P : Par K V W} {takeA : Bool} {conv : Option (Tree K W → Charged (CTree K V))} {rec : CTree K V → Tree K W → Charged (CTree K V)}
  {r : Tree K V → Tree K W → Tree K V} {a : CTree K V} {b : Tree K W} {n : Nat}

theorem head_len (hpos : hd a.plain = hd b → a.pre ≠ [] → 1 ≤ n) (hlb : n ≤ b.pre.length) (hh : hd a.plain = hd b) (hn : a.pre ≠ []) : 1 ≤ n ∧ 1 ≤ b.components := by
  have := hpos hh hn
  rw [comps_def]
  omega

/-- both prefixes are the same -/
theorem shape_both (hf : Fits P takeA conv) (hrec : Rec w rec r a b) (ha : Valid a.plain) (hb : Valid b) (hw : Narrow w a.plain)
    (hpos : hd a.plain = hd b → a.pre ≠ [] → 1 ≤ n) (hla : n ≤ a.pre.length) (hlb : n ≤ b.pre.length) (v : Option V) :
    CasesOk w a b ⟨a.pre, v, kidsRef P r a.plain.kids b.kids⟩ (CTree.mergeKids takeA conv rec { a with val := v } b.kids) := by
  obtain ⟨hw1, hw2⟩ := narrow_kids hw
  have hl : a.kids.length ≤ w := by simpa using hw1
  obtain ⟨h1, h2, h3, h4⟩ := mergeKids_ok (w := w) (rec := rec) (r := r) (C := Tree.components) (L := fun b => b.components * (w + 1)) hf.ga hf.gb
    (t := { a with val := v }) (bs := b.kids) hl (fun x hx y hy hh => by
      have hx : x.plain ∈ a.plain.kids := by simpa using hx
      refine hrec x y ?_ (hw2 _ hx)
      exact { left := ha.kids.valid _ hx, right := hb.kids.valid y hy, leftNe := ha.kids.ne _ hx, rightNe := hb.kids.ne y hy, heads := heads_eq hh
              size := by have := Tree.kid_size hx; have := Tree.kid_size hy; omega
              reach := ⟨n, by have := Tree.kid_reach hx; simp at this; omega, by have := Tree.kid_reach hy; omega, by simpa using hpos⟩ })
  rw [sumBy_mul, sumBy_components] at h4
  have hcomp := comps_def b
  have hnode := nods_def b
  refine ⟨Tree.components.componentsL b.kids, sumBy newBound b.kids, ⟨?_, .inl ⟨h2, Nat.le_trans h3 hl, h4.mono ?_ ?_ (Nat.le_refl _)⟩⟩, by omega, ?_, fun hh hn => ⟨?_, ?_⟩⟩
  · rw [h1]
    simp
  · split <;> omega
  · split <;> omega
  · refine Nat.le_trans (sumBy_newBound _) (Nat.mul_le_mul (by omega) (by omega))
  · have := (head_len hpos hlb hh hn).1
    omega
  · exact Nat.le_trans (sumBy_newBound _) (Nat.mul_le_mul (by omega) (by omega))

/-- the prefix of `self` is a proper prefix of that of `that` -/
theorem shape_left (hf : Fits P takeA conv) (hrec : Rec w rec r a b) (ha : Valid a.plain) (hb : Valid b) (hw : Narrow w a.plain)
    (hpos : hd a.plain = hd b → a.pre ≠ [] → 1 ≤ n) (hla : n ≤ a.pre.length) (hnb : n < b.pre.length) (v : Option V) :
    CasesOk w a b ⟨a.pre, v, kidsRef P r a.plain.kids [b.shorten n]⟩
      (do let _ ← copyOf n b; CTree.mergeKids takeA conv rec { a with val := v } [{ b with pre := b.pre.drop n }]) := by
  obtain ⟨hw1, hw2⟩ := narrow_kids hw
  have hl : a.kids.length ≤ w := by simpa using hw1
  obtain ⟨h1, h2, h3, h4⟩ := mergeKids_ok (w := w) (rec := rec) (r := r) (C := Tree.components) (L := fun b => b.components * (w + 1)) hf.ga hf.gb
    (t := { a with val := v }) (bs := [b.shorten n]) hl (fun x hx y hy hh => by
      have hx : x.plain ∈ a.plain.kids := by simpa using hx
      simp at hy
      subst hy
      have := Tree.size_shorten b n (by omega)
      have := Tree.reach_shorten b n (by omega)
      refine hrec x _ ?_ (hw2 _ hx)
      exact { left := ha.kids.valid _ hx, right := hb.shorten n, leftNe := ha.kids.ne _ hx, rightNe := Tree.shorten_ne hnb, heads := heads_eq hh
              size := by have := Tree.kid_size hx; omega
              reach := ⟨n, by have := Tree.kid_reach hx; simp at this; omega, by omega, by simpa using hpos⟩ })
  rw [sumBy_mul, sumBy_components] at h4
  have hcomp := components_shorten b (n := n) (by omega)
  have hnode := nodes_shorten b n
  have hlist : Tree.components.componentsL [b.shorten n] = (b.shorten n).components := Nat.add_zero _
  have hm : Spent w 0 0 b.nodes (copyOf n b).mem := by rw [(copyOf_eq b n).2.2]; exact ⟨Nat.le_refl _, by simp, Nat.le_refl _, Nat.le_refl _⟩
  have e : sumBy newBound [b.shorten n] = ((b.shorten n).components + 1) * b.nodes := by
    show newBound (b.shorten n) + 0 = _
    rw [newBound, nodes_shorten]; rfl
  have e2 : b.nodes + sumBy newBound [b.shorten n] = ((b.shorten n).components + 2) * b.nodes := by
    rw [e, Nat.add_mul, Nat.add_mul]
    omega
  refine ⟨(b.shorten n).components, b.nodes + sumBy newBound [b.shorten n], ⟨?_, .inl ⟨h2, Nat.le_trans h3 hl, ?_⟩⟩, by omega, ?_, fun hh hn => ⟨?_, ?_⟩⟩
  · simp only [bind_res]
    refine h1.trans ?_
    simp
  · rw [hlist] at h4
    have := hm.add h4
    refine this.mono ?_ ?_ (Nat.le_refl _)
    · split <;> omega
    · split <;> omega
  · rw [e2]
    exact Nat.mul_le_mul_right _ (by omega)
  · have := (head_len hpos (by omega) hh hn).1
    omega
  · have := (head_len hpos (by omega) hh hn).1
    rw [e2]
    exact Nat.mul_le_mul_right _ (by omega)

/-- the prefix of `that` is a proper prefix of that of `self` -/
theorem shape_split (h1w : 1 ≤ w) (hf : Fits P takeA conv) (hrec : Rec w rec r a b) (ha : Valid a.plain) (hb : Valid b) (hw : Narrow w a.plain)
    (hpos : hd a.plain = hd b → a.pre ≠ [] → 1 ≤ n) (hna : n < a.pre.length) (hn : n = b.pre.length) (v : Option V) :
    CasesOk w a b ⟨a.pre.take n, v, kidsRef P r [a.plain.shorten n] b.kids⟩
      (do let s ← a.split n; CTree.mergeKids takeA conv rec { s with val := v } b.kids) := by
  have hlb : n ≤ b.pre.length := by omega
  have ek : CTree.plain { a with pre := a.pre.drop n } = a.plain.shorten n := by rw [plain_eq, plain_eq a]; rfl
  obtain ⟨h1, h2, h3, h4⟩ := mergeKids_ok (w := w) (rec := rec) (r := r) (C := Tree.components) (L := fun b => b.components * (w + 1)) hf.ga hf.gb
    (t := { (a.split n).res with val := v }) (bs := b.kids) h1w (fun x hx y hy hh => by
      have hx : x.plain = a.plain.shorten n := by
        rw [← ek]
        simpa [CTree.split] using hx
      have := Tree.size_shorten a.plain n (by simp; omega)
      have := Tree.reach_shorten a.plain n (by simp; omega)
      refine hrec x y ?_ (by rw [hx]; exact narrow_shorten hw n)
      rw [hx] at hh ⊢
      exact { left := ha.shorten n, right := hb.kids.valid y hy, leftNe := Tree.shorten_ne (by simpa using hna), rightNe := hb.kids.ne y hy, heads := heads_eq hh
              size := by have := Tree.kid_size hy; omega
              reach := ⟨n, by omega, by have := Tree.kid_reach hy; omega, by simpa using hpos⟩ })
  rw [sumBy_mul, sumBy_components] at h4
  have hcomp := comps_def b
  have hnode := nods_def b
  have hs : Spent w 0 0 1 (a.split n).mem := ⟨Nat.le_refl _, Nat.zero_le _, Nat.le_refl _, Nat.le_refl _⟩
  have ho : (a.split n).res.held = .own := rfl
  simp only [ho, if_true] at h4
  have hF : 1 + sumBy newBound b.kids ≤ newBound b := by
    have := sumBy_newBound b.kids
    rw [newBound, hnode, Nat.mul_add]
    have : (Tree.components.componentsL b.kids + 1) * Tree.nodes.nodesL b.kids ≤ (b.components + 1) * Tree.nodes.nodesL b.kids := Nat.mul_le_mul_right _ (by omega)
    omega
  refine ⟨Tree.components.componentsL b.kids, 1 + sumBy newBound b.kids, ⟨?_, .inl ⟨h2, Nat.le_trans h3 h1w, ?_⟩⟩, by omega, ?_, fun hh hn => ⟨?_, hF⟩⟩
  · simp only [bind_res]
    refine h1.trans ?_
    simp only [plain_kids, CTree.split, List.map_cons, List.map_nil, ek]
  · have := hs.add h4
    exact this.mono (by omega) (by omega) (Nat.le_refl _)
  · exact Nat.le_trans hF (Nat.mul_le_mul_right _ (by omega))
  · have := (head_len hpos hlb hh hn).1
    omega

omit [Ord K] [DecidableEq K] [TransOrd K] [LawfulEqOrd K] in
theorem with_val (a : CTree K V) : CTree.mk a.pre a.val a.held a.kids = a := by cases a; rfl
theorem shape_left' (hf : Fits P takeA conv) (hrec : Rec w rec r a b) (ha : Valid a.plain) (hb : Valid b) (hw : Narrow w a.plain)
    (hpos : hd a.plain = hd b → a.pre ≠ [] → 1 ≤ n) (hla : n ≤ a.pre.length) (hnb : n < b.pre.length) :
    CasesOk w a b ⟨a.pre, a.val, kidsRef P r a.plain.kids [b.shorten n]⟩
      (do let _ ← copyOf n b; CTree.mergeKids takeA conv rec a [{ b with pre := b.pre.drop n }]) := by
  have := shape_left hf hrec ha hb hw hpos hla hnb a.val
  rwa [with_val] at this

theorem split_val (n : Nat) : CTree.mk (a.split n).res.pre none (a.split n).res.held (a.split n).res.kids = (a.split n).res := rfl

theorem shape_clear (hw : Narrow w a.plain) (hpos : hd a.plain = hd b → a.pre ≠ [] → 1 ≤ n) (hlb : n ≤ b.pre.length) : CasesOk w a b a.plain.clear a.clear := by
  refine ⟨0, 0, ?_, Nat.zero_le _, Nat.zero_le _, fun hh hn => ⟨(head_len hpos hlb hh hn).2, Nat.zero_le _⟩⟩
  rw [Nat.zero_mul]
  exact clear_ok (by simpa using (narrow_kids hw).1)

theorem shape_nothing (hw : Narrow w a.plain) (hpos : hd a.plain = hd b → a.pre ≠ [] → 1 ≤ n) (hlb : n ≤ b.pre.length) : CasesOk w a b a.plain (pure a) := by
  refine ⟨0, 0, ?_, Nat.zero_le _, Nat.zero_le _, fun hh hn => ⟨(head_len hpos hlb hh hn).2, Nat.zero_le _⟩⟩
  rw [Nat.zero_mul]
  exact nothing_ok (by simpa using (narrow_kids hw).1)
end shapes

/-! ### The cases of the five operations -/
open Verif.Tree (outerPar innerPar leftPar removePar retainPar pureOf NoPanic leftMutVal selected ref)

theorem fits_outer (f : V → V → Option V) : Fits (outerPar f) true (some (copyOf (K := K) 0)) where
  ga := rfl
  gb := fun b => ⟨b, rfl, by rw [(copyOf_eq b 0).1, List.drop_zero]; cases b; rfl, by unfold CTree.isRaw; rw [(copyOf_eq b 0).2.1]; rfl, b.nodes,
    Nat.le_mul_of_pos_left _ (Nat.succ_pos _), (copyOf_eq b 0).2.2⟩
theorem fits_inner (f : V → W → Option V) : Fits (K := K) (innerPar f) false none := ⟨rfl, rfl⟩
theorem fits_left (g : Option V → Option W → Option V) : Fits (K := K) (leftPar g) true none := ⟨rfl, rfl⟩
theorem fits_remove (f : W → Bool) : Fits (K := K) (removePar f : Par K V W) true none := ⟨rfl, rfl⟩
theorem fits_retain (f : W → Bool) : Fits (K := K) (retainPar f : Par K V W) false none := ⟨rfl, rfl⟩

section cases
variable {w : Nat} {a : CTree K V} {b : Tree K W}

theorem outer_ok (h1w : 1 ≤ w) {b : Tree K V} {f : Tree.MutFn V V} (hf : NoPanic f) {rec : CTree K V → Tree K V → Charged (CTree K V)} {r : Tree K V → Tree K V → Tree K V}
    (hrec : Rec w rec r a b) (ha : Valid a.plain) (hb : Valid b) (hw : Narrow w a.plain) :
    CasesOk w a b (refCases (outerPar (pureOf f)) r (commonPrefix a.pre b.pre) a.plain b) (outerCases rec f (commonPrefix a.pre b.pre) a b) := by
  have hla := Tree.commonPrefix_le_left a.pre b.pre
  have hlb := Tree.commonPrefix_le_right a.pre b.pre
  have hpos := Tree.heads_pos a.plain b
  have hdf := Tree.commonPrefix_differ a.pre b.pre
  have hF := fits_outer (K := K) (pureOf f)
  rw [plain_pre] at hpos
  revert hla hlb hpos hdf
  generalize commonPrefix a.pre b.pre = n
  intro hla hlb hpos hdf
  unfold outerCases refCases
  simp only [plain_pre, plain_val]
  by_cases h1 : n = a.pre.length ∧ n = b.pre.length
  · rw [if_pos h1, if_pos h1, Tree.outerVal_eq hf]
    exact shape_both hF hrec ha hb hw hpos hla hlb _
  rw [if_neg h1, if_neg h1]
  by_cases h3 : n = a.pre.length
  · rw [if_pos h3, if_neg (by omega), if_pos h3]
    exact shape_left' hF hrec ha hb hw hpos hla (by omega)
  simp only [if_neg h3]
  by_cases h2 : n = b.pre.length
  · rw [if_pos h2, if_pos h2]
    simp only [Tree.outerVal_eq hf]
    have := shape_split h1w hF hrec ha hb hw hpos (by omega) h2 (Tree.outerPureVal (pureOf f) none b.val)
    have e : Tree.outerPureVal (pureOf f) none b.val = b.val := by cases b.val <;> rfl
    refine cast (congrArg (fun v => CasesOk w a b ⟨a.pre.take n, v, _⟩ _) e) this
  · rw [if_neg h2, if_neg h2]
    have hna : n < a.pre.length := by omega
    have hnb : n < b.pre.length := by omega
    have ek : CTree.plain { a with pre := a.pre.drop n } = a.plain.shorten n := by rw [plain_eq, plain_eq a]; rfl
    have hcomp := components_shorten b (n := n) (by omega)
    have hpos1 : 1 ≤ (b.shorten n).components := by
      rw [comps_def]; simp only [Tree.shorten, List.length_drop]; omega
    obtain ⟨c1, c2, c3⟩ := copyOf_eq b n
    have hc1 : (copyOf n b).res.plain = b.shorten n := by rw [c1]; rfl
    have hc2 : (copyOf n b).res.isRaw = false := by unfold CTree.isRaw; rw [c2]; rfl
    have hd' : hd (a.plain.shorten n) ≠ hd (b.shorten n) := by
      have := hdf hna hnb
      simpa [hd, Tree.shorten] using this
    have hlist : (sortTwo { a with pre := a.pre.drop n } (copyOf n b).res).map CTree.plain = kidsRef (outerPar (pureOf f)) r [a.plain.shorten n] [b.shorten n] := by
      have hh : compare (a.pre.drop n).head? (copyOf n b).res.pre.head? = Tree.headCmp (a.plain.shorten n) (b.shorten n) := by
        unfold Tree.headCmp
        rw [← ek, ← hc1, plain_pre, plain_pre]
      unfold sortTwo kidsRef
      rw [joinList_cons]
      simp only [hh]
      cases hc : Tree.headCmp (a.plain.shorten n) (b.shorten n) with
      | lt => simp [joinList_nil_left, ek, hc1, outerPar]
      | gt => simp [joinList_nil_right, ek, hc1, outerPar]
      | eq => rw [Tree.headCmp_eq] at hc; exact absurd (cmp_eq_iff.1 hc) hd'
    refine ⟨0, 1 + b.nodes, ⟨?_, .inl ⟨rfl, ?_, ?_⟩⟩, Nat.zero_le _, ?_, fun hh hn => ⟨by omega, ?_⟩⟩
    · rw [plain_eq]
      simp only [outerPar, CTree.split, CTree.childrenMut, bind_res, pure_res, List.flatMap_cons, List.flatMap_nil, List.append_nil]
      rw [hlist]; rfl
    · simp only [CTree.split, CTree.childrenMut, bind_res, pure_res, List.flatMap_cons, List.flatMap_nil, List.append_nil]
      unfold sortTwo raws
      refine Nat.le_trans ?_ h1w
      split <;> simp only [List.countP_cons, List.countP_nil, hc2, Bool.false_eq_true, if_false] <;> split <;> omega
    · simp only [bind_mem, bind_res, pure_mem, add_zero, c3, CTree.split, CTree.childrenMut, Mem.add]
      exact ⟨Nat.zero_le _, Nat.zero_le _, Nat.zero_le _, Nat.le_refl _⟩
    · have := nodes_pos b
      rw [Nat.add_mul]
      omega
    · have := nodes_pos b
      have : 1 * b.nodes ≤ b.components * b.nodes := Nat.mul_le_mul_right _ (by omega)
      rw [newBound, Nat.add_mul]
      omega

theorem inner_ok (h1w : 1 ≤ w) {f : Tree.MutFn V W} (hf : NoPanic f) {rec : CTree K V → Tree K W → Charged (CTree K V)} {r : Tree K V → Tree K W → Tree K V}
    (hrec : Rec w rec r a b) (ha : Valid a.plain) (hb : Valid b) (hw : Narrow w a.plain) :
    CasesOk w a b (refCases (innerPar (pureOf f)) r (commonPrefix a.pre b.pre) a.plain b) (innerCases rec f (commonPrefix a.pre b.pre) a b) := by
  have hla := Tree.commonPrefix_le_left a.pre b.pre
  have hlb := Tree.commonPrefix_le_right a.pre b.pre
  have hpos := Tree.heads_pos a.plain b
  have hF := fits_inner (K := K) (pureOf f)
  rw [plain_pre] at hpos
  revert hla hlb hpos
  generalize commonPrefix a.pre b.pre = n
  intro hla hlb hpos
  unfold innerCases refCases
  simp only [plain_pre, plain_val]
  by_cases h1 : n = a.pre.length ∧ n = b.pre.length
  · rw [if_pos h1, if_pos h1, Tree.innerVal_eq hf]
    exact shape_both hF hrec ha hb hw hpos hla hlb _
  rw [if_neg h1, if_neg h1]
  by_cases h3 : n = a.pre.length
  · rw [if_pos h3, if_neg (by omega), if_pos h3]
    exact shape_left hF hrec ha hb hw hpos hla (by omega) _
  simp only [if_neg h3]
  by_cases h2 : n = b.pre.length
  · rw [if_pos h2, if_pos h2]
    exact shape_split h1w hF hrec ha hb hw hpos (by omega) h2 none
  · rw [if_neg h2, if_neg h2]
    exact shape_clear hw hpos hlb

theorem left_ok (h1w : 1 ≤ w) {f : Tree.MutFn V W} (hf : NoPanic f) {rec : CTree K V → Tree K W → Charged (CTree K V)} {r : Tree K V → Tree K W → Tree K V}
    (hrec : Rec w rec r a b) (ha : Valid a.plain) (hb : Valid b) (hw : Narrow w a.plain) :
    CasesOk w a b (refCases (leftPar (leftMutVal (pureOf f))) r (commonPrefix a.pre b.pre) a.plain b) (leftCases rec f (commonPrefix a.pre b.pre) a b) := by
  have hla := Tree.commonPrefix_le_left a.pre b.pre
  have hlb := Tree.commonPrefix_le_right a.pre b.pre
  have hpos := Tree.heads_pos a.plain b
  have hF := fits_left (K := K) (leftMutVal (pureOf f))
  rw [plain_pre] at hpos
  revert hla hlb hpos
  generalize commonPrefix a.pre b.pre = n
  intro hla hlb hpos
  unfold leftCases refCases
  simp only [plain_pre, plain_val]
  by_cases h1 : n = a.pre.length ∧ n = b.pre.length
  · rw [if_pos h1, if_pos h1, Tree.leftVal_eq hf]
    exact shape_both hF hrec ha hb hw hpos hla hlb _
  rw [if_neg h1, if_neg h1]
  by_cases h3 : n = a.pre.length
  · rw [if_pos h3, if_neg (by omega), if_pos h3]
    exact shape_left' hF hrec ha hb hw hpos hla (by omega)
  simp only [if_neg h3]
  by_cases h2 : n = b.pre.length
  · rw [if_pos h2, if_pos h2]
    exact shape_split h1w hF hrec ha hb hw hpos (by omega) h2 none
  · rw [if_neg h2, if_neg h2]
    exact shape_nothing hw hpos hlb

theorem remove_ok (h1w : 1 ≤ w) {f : W → Bool} {rec : CTree K V → Tree K W → Charged (CTree K V)} {r : Tree K V → Tree K W → Tree K V}
    (hrec : Rec w rec r a b) (ha : Valid a.plain) (hb : Valid b) (hw : Narrow w a.plain) :
    CasesOk w a b (refCases (removePar f) r (commonPrefix a.pre b.pre) a.plain b) (removeCases rec f (commonPrefix a.pre b.pre) a b) := by
  have hla := Tree.commonPrefix_le_left a.pre b.pre
  have hlb := Tree.commonPrefix_le_right a.pre b.pre
  have hpos := Tree.heads_pos a.plain b
  have hF := fits_remove (K := K) (V := V) f
  rw [plain_pre] at hpos
  revert hla hlb hpos
  generalize commonPrefix a.pre b.pre = n
  intro hla hlb hpos
  unfold removeCases refCases
  simp only [plain_pre, plain_val]
  have hstop : (removePar f : Par K V W).stop b.val = selected f b.val := rfl
  have hkeep : (removePar f : Par K V W).keep = false := rfl
  rw [hstop, hkeep]
  by_cases h1 : n = a.pre.length ∧ n = b.pre.length
  · rw [if_pos h1, if_pos h1]
    cases hs : selected f b.val with
    | true => exact shape_clear hw hpos hlb
    | false => have := shape_both hF hrec ha hb hw hpos hla hlb a.val; rwa [with_val] at this
  rw [if_neg h1, if_neg h1]
  by_cases h2 : n = b.pre.length
  · rw [if_pos h2, if_pos h2]
    cases hs : selected f b.val with
    | true => exact shape_clear hw hpos hlb
    | false => exact shape_split h1w hF hrec ha hb hw hpos (by omega) h2 none
  rw [if_neg h2, if_neg h2]
  by_cases h3 : n = a.pre.length
  · rw [if_pos h3, if_pos h3]
    exact shape_left' hF hrec ha hb hw hpos hla (by omega)
  · rw [if_neg h3, if_neg h3]
    exact shape_nothing hw hpos hlb

theorem retain_ok (h1w : 1 ≤ w) {f : W → Bool} {rec : CTree K V → Tree K W → Charged (CTree K V)} {r : Tree K V → Tree K W → Tree K V}
    (hrec : Rec w rec r a b) (ha : Valid a.plain) (hb : Valid b) (hw : Narrow w a.plain) :
    CasesOk w a b (refCases (retainPar f) r (commonPrefix a.pre b.pre) a.plain b) (retainCases rec f (commonPrefix a.pre b.pre) a b) := by
  have hla := Tree.commonPrefix_le_left a.pre b.pre
  have hlb := Tree.commonPrefix_le_right a.pre b.pre
  have hpos := Tree.heads_pos a.plain b
  have hF := fits_retain (K := K) (V := V) f
  rw [plain_pre] at hpos
  revert hla hlb hpos
  generalize commonPrefix a.pre b.pre = n
  intro hla hlb hpos
  unfold retainCases refCases
  simp only [plain_pre, plain_val]
  have hstop : (retainPar f : Par K V W).stop b.val = selected f b.val := rfl
  have hkeep : (retainPar f : Par K V W).keep = true := rfl
  rw [hstop, hkeep]
  by_cases h1 : n = a.pre.length ∧ n = b.pre.length
  · rw [if_pos h1, if_pos h1]
    cases hs : selected f b.val with
    | true => exact shape_nothing hw hpos hlb
    | false => exact shape_both hF hrec ha hb hw hpos hla hlb none
  rw [if_neg h1, if_neg h1]
  by_cases h2 : n = b.pre.length
  · rw [if_pos h2, if_pos h2]
    cases hs : selected f b.val with
    | true => exact shape_nothing hw hpos hlb
    | false => exact shape_split h1w hF hrec ha hb hw hpos (by omega) h2 none
  rw [if_neg h2, if_neg h2]
  by_cases h3 : n = a.pre.length
  · rw [if_pos h3, if_pos h3]
    exact shape_left hF hrec ha hb hw hpos hla (by omega) none
  · rw [if_neg h3, if_neg h3]
    exact shape_clear hw hpos hlb
end cases

/-! ### The five operations -/

theorem go_ok {P : Par K V W} {go : Nat → CTree K V → Tree K W → Charged (CTree K V)}
    {cases : (CTree K V → Tree K W → Charged (CTree K V)) → Nat → CTree K V → Tree K W → Charged (CTree K V)}
    (hgo : ∀ fuel a b, go (fuel + 1) a b = (cases (go fuel) (commonPrefix a.pre b.pre) a b >>= fun t => t.unsplit)) {w : Nat}
    (hc : ∀ {rec : CTree K V → Tree K W → Charged (CTree K V)} {r : Tree K V → Tree K W → Tree K V} {a : CTree K V} {b : Tree K W}, Rec w rec r a b → Valid a.plain → Valid b → Narrow w a.plain →
      CasesOk w a b (refCases P r (commonPrefix a.pre b.pre) a.plain b) (cases rec (commonPrefix a.pre b.pre) a b)) :
    ∀ fuel a b, Valid a.plain → Valid b → Narrow w a.plain → a.plain.size + b.size < fuel →
      RootOk w (ref P fuel a.plain b) b (go fuel a b) ∧ (hd a.plain = hd b → a.pre ≠ [] → KidOk w (ref P fuel a.plain b) b (go fuel a b)) := by
  intro fuel
  induction fuel with
  | zero => intro a b _ _ _ h; omega
  | succ fuel ih =>
    intro a b ha hb hw hs
    rw [hgo, Tree.ref, plain_pre]
    refine (hc (r := ref P fuel) ?_ ha hb hw).finish
    intro x y hxy hx
    exact (ih x y hxy.left hxy.right hx (by have := hxy.size; omega)).2 hxy.heads (by simpa using hxy.leftNe)

theorem outerGo_ok {w : Nat} (h1w : 1 ≤ w) {f : Tree.MutFn V V} (hf : NoPanic f) (fuel : Nat) (a : CTree K V) (b : Tree K V) (ha : Valid a.plain) (hb : Valid b) (hw : Narrow w a.plain)
    (hs : a.plain.size + b.size < fuel) : RootOk w (Tree.outerWithGo f fuel a.plain b).1 b (outerGo f fuel a b) := by
  rw [Tree.outerWithGo_eq hf fuel _ b ha hb hs]
  exact (go_ok (cases := fun rec => outerCases rec f) (fun _ _ _ => rfl) (outer_ok h1w hf) fuel a b ha hb hw hs).1
theorem innerGo_ok {w : Nat} (h1w : 1 ≤ w) {f : Tree.MutFn V W} (hf : NoPanic f) (fuel : Nat) (a : CTree K V) (b : Tree K W) (ha : Valid a.plain) (hb : Valid b) (hw : Narrow w a.plain)
    (hs : a.plain.size + b.size < fuel) : RootOk w (Tree.innerWithGo f fuel a.plain b).1 b (innerGo f fuel a b) := by
  rw [Tree.innerWithGo_eq hf fuel _ b ha hb hs]
  exact (go_ok (cases := fun rec => innerCases rec f) (fun _ _ _ => rfl) (inner_ok h1w hf) fuel a b ha hb hw hs).1
theorem leftGo_ok {w : Nat} (h1w : 1 ≤ w) {f : Tree.MutFn V W} (hf : NoPanic f) (fuel : Nat) (a : CTree K V) (b : Tree K W) (ha : Valid a.plain) (hb : Valid b) (hw : Narrow w a.plain)
    (hs : a.plain.size + b.size < fuel) : RootOk w (Tree.leftWithGo f fuel a.plain b).1 b (leftGo f fuel a b) := by
  rw [Tree.leftWithGo_eq hf fuel _ b ha hb hs]
  exact (go_ok (cases := fun rec => leftCases rec f) (fun _ _ _ => rfl) (left_ok h1w hf) fuel a b ha hb hw hs).1
theorem removeGo_ok {w : Nat} (h1w : 1 ≤ w) {f : W → Bool} (fuel : Nat) (a : CTree K V) (b : Tree K W) (ha : Valid a.plain) (hb : Valid b) (hw : Narrow w a.plain)
    (hs : a.plain.size + b.size < fuel) : RootOk w (Tree.removePrefixGo f fuel a.plain b).1 b (removeGo f fuel a b) := by
  rw [Tree.removePrefixGo_eq fuel _ b ha hb hs]
  exact (go_ok (cases := fun rec => removeCases rec f) (fun _ _ _ => rfl) (remove_ok h1w) fuel a b ha hb hw hs).1
theorem retainGo_ok {w : Nat} (h1w : 1 ≤ w) {f : W → Bool} (fuel : Nat) (a : CTree K V) (b : Tree K W) (ha : Valid a.plain) (hb : Valid b) (hw : Narrow w a.plain)
    (hs : a.plain.size + b.size < fuel) : RootOk w (Tree.retainPrefixGo f fuel a.plain b).1 b (retainGo f fuel a b) := by
  rw [Tree.retainPrefixGo_eq fuel _ b ha hb hs]
  exact (go_ok (cases := fun rec => retainCases rec f) (fun _ _ _ => rfl) (retain_ok h1w) fuel a b ha hb hw hs).1

end
end Verif.Cow
