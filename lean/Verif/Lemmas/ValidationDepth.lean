import Verif.Model.ValidationDepth
import Verif.Lemmas.ArcArchiveLoad
import Verif.Spec.RadixDepth
/-!
# Lemmas about the nesting of validation
-/
namespace Verif
namespace Archive
open Std Tree
section
variable {K V : Type _} [Ord K] {l : Layout} {b : Buf K V}

theorem checkAll_more {rec rec' : Nat → Range → Res Range} (hrec : ∀ a r, rec a r ≠ .deep → rec' a r = rec a r) :
    ∀ (cs : List Nat) (r : Range), checkAll rec cs r ≠ .deep → checkAll rec' cs r = checkAll rec cs r := by
  intro cs
  induction cs with
  | nil => intro r _; rfl
  | cons c cs ih =>
    intro r h
    rw [checkAll] at h ⊢
    rw [checkAll]
    cases hc : rec c r with
    | ok r1 =>
      rw [hc] at h
      rw [hrec c r (by rw [hc]; exact fun h => by cases h), hc]
      exact ih r1 h
    | err e => rw [hrec c r (by rw [hc]; exact fun h => by cases h), hc]
    | ub => rw [hrec c r (by rw [hc]; exact fun h => by cases h), hc]
    | deep => rw [hc] at h; exact absurd rfl h

theorem checkChildren_more {rec rec' : Nat → Range → Res Range} (hrec : ∀ a r, rec a r ≠ .deep → rec' a r = rec a r) (r : Range) (p : VecPtr)
    (h : checkChildren l b rec r p ≠ .deep) : checkChildren l b rec' r p = checkChildren l b rec r p := by
  rw [checkChildren] at h ⊢
  rw [checkChildren]
  split
  · rename_i hp
    rw [if_pos hp] at h
    rw [checkAll_more hrec _ _ (fun e => h (by rw [e]))]
  · rfl

theorem checkNode_more : ∀ (fuel a : Nat) (r : Range), checkNode l b fuel a r ≠ .deep → checkNode l b (fuel + 1) a r = checkNode l b fuel a r := by
  intro fuel
  induction fuel with
  | zero => intro a r h; exact absurd rfl h
  | succ fuel ih =>
    intro a r h
    rw [checkNode] at h ⊢
    rw [checkNode]
    split
    · rfl
    rename_i h1
    rw [if_neg h1] at h
    split
    · rfl
    rename_i h2
    rw [if_neg h2] at h
    split
    · rfl
    rename_i h3
    rw [if_neg h3] at h
    split
    · rfl
    rename_i h4
    rw [if_neg h4] at h
    cases hd : deref b l.nodeSize l.nodeAlign (b.node a).kids with
    | none => rfl
    | some cs =>
      rw [hd] at h
      simp only [] at h ⊢
      split
      · rfl
      rename_i h5
      rw [if_neg h5] at h
      cases ho : ordered l b cs with
      | err e => rfl
      | ub => rfl
      | deep => rfl
      | ok x =>
        rw [ho] at h
        cases x with
        | false => rfl
        | true => exact checkChildren_more ih _ _ h

theorem checkNode_same {n m a : Nat} {r : Range} (hnm : n ≤ m) (h : checkNode l b n a r ≠ .deep) : checkNode l b m a r = checkNode l b n a r := by
  induction m with
  | zero => rw [Nat.le_zero.1 hnm]
  | succ m ih =>
    by_cases he : n = m + 1
    · rw [he]
    · have := ih (by omega)
      rw [checkNode_more m a r (by rw [this]; exact h), this]

/-- what must have happened if the children have been reached -/
theorem checkNode_shallow [TransOrd K] (hl : 0 < l.nodeSize) : ∀ (fuel a : Nat) (r : Range), r.hi < fuel * l.nodeSize → checkNode l b fuel a r ≠ .deep := by
  intro fuel
  induction fuel with
  | zero => intro a r h; omega
  | succ fuel ih =>
    intro a r hr h
    rw [checkNode] at h
    split at h
    · cases h
    split at h
    · cases h
    split at h
    · cases h
    split at h
    · cases h
    split at h
    · cases h
    rename_i cs hd
    split at h
    · cases h
    cases ho : ordered l b cs with
    | err e => rw [ho] at h; cases h
    | ub => rw [ho] at h; cases h
    | deep => exact ordered_deep cs ho
    | ok x =>
      cases x with
      | false => rw [ho] at h; cases h
      | true =>
        rw [ho] at h
        simp only [] at h
        rw [checkChildren] at h
        split at h
        rotate_left
        · cases h
        rename_i h6
        rw [checkPtr_iff] at h6
        obtain ⟨h6, -, h6h⟩ := h6
        simp only [Range.pop] at h6h
        cases hk : checkAll (checkNode l b fuel) (slots l.nodeSize (b.node a).kids) ((r.pop l.keySize (b.node a).pre).push (b.node a).kids) with
        | ok r1 => rw [hk] at h; cases h
        | err e => rw [hk] at h; cases h
        | ub => rw [hk] at h; cases h
        | deep =>
          cases hn : (b.node a).kids.len with
          | zero =>
            have e : slots l.nodeSize (b.node a).kids = [] := by simp [slots, hn]
            rw [e] at hk
            cases hk
          | succ n =>
            rw [hn, Nat.succ_mul] at h6h
            rw [Nat.succ_mul] at hr
            refine checkAll_deep (fuel * l.nodeSize) ih (fun a r r' h => ?_) _ _ ?_ hk
            · obtain ⟨_, _, _, h, _⟩ := checkNode_sound fuel a r r' h
              exact h
            · simp only [Range.push, Range.pop]; omega

theorem checkAll_needed {rec : Nat → Range → Res Range} {n : Nat}
    (hrec : ∀ a r r' (t : Tree K V), rec a r = .ok r' → Stored l b a t → ∀ m, Chain t m → m ≤ n) :
    ∀ (cs : List Nat) (ts : List (Tree K V)) (r r' : Range), checkAll rec cs r = .ok r' → StoredList l b cs ts → ∀ t ∈ ts, ∀ m, Chain t m → m ≤ n := by
  intro cs
  induction cs with
  | nil =>
    intro ts r r' _ hs t ht
    cases ts with
    | nil => cases ht
    | cons _ _ => cases hs
  | cons c cs ih =>
    intro ts r r' h hs t ht m hm
    cases ts with
    | nil => cases ht
    | cons u us =>
      rw [checkAll] at h
      cases hc : rec c r with
      | ok r1 =>
        rw [hc] at h
        rcases List.mem_cons.1 ht with rfl | ht
        · exact hrec c r r1 t hc hs.1 m hm
        · exact ih us r1 r' h hs.2 t ht m hm
      | err e => rw [hc] at h; cases h
      | ub => rw [hc] at h; cases h
      | deep => rw [hc] at h; cases h

theorem checkNode_needed : ∀ (fuel a : Nat) (r r' : Range) (t : Tree K V), checkNode l b fuel a r = .ok r' → Stored l b a t → ∀ m, Chain t m → m ≤ fuel := by
  intro fuel
  induction fuel with
  | zero => intro a r r' t h; cases h
  | succ fuel ih =>
    intro a r r' t h hs m hm
    cases hm with
    | root => omega
    | @down p v ks c m hc hm =>
      rw [Stored] at hs
      obtain ⟨-, -, -, -, cs, hsl, hks⟩ := hs
      rw [checkNode] at h
      split at h
      · cases h
      split at h
      · cases h
      split at h
      · cases h
      split at h
      · cases h
      split at h
      · cases h
      rename_i cs' hd
      split at h
      · cases h
      cases ho : ordered l b cs' with
      | err e => rw [ho] at h; cases h
      | ub => rw [ho] at h; cases h
      | deep => rw [ho] at h; cases h
      | ok x =>
        cases x with
        | false => rw [ho] at h; cases h
        | true =>
          rw [ho] at h
          simp only [] at h
          rw [checkChildren] at h
          split at h
          rotate_left
          · cases h
          have e : cs' = slots l.nodeSize (b.node a).kids := by
            rw [deref] at hd
            split at hd
            · exact (Option.some.inj hd).symm
            · cases hd
          have e2 : cs = cs' := by
            rw [hsl.deref] at hd
            exact Option.some.inj hd
          rw [← e, ← e2] at h
          cases hk : checkAll (checkNode l b fuel) cs ((r.pop l.keySize (b.node a).pre).push (b.node a).kids) with
          | ok r1 =>
            have := checkAll_needed (fun a r r' t h1 h2 m hm => ih a r r' t h1 h2 m hm) cs ks _ r1 hk hks c hc m hm
            omega
          | err e => rw [hk] at h; cases h
          | ub => rw [hk] at h; cases h
          | deep => rw [hk] at h; cases h

theorem checkAll_enough {rec : Nat → Range → Res Range} {ts : List (Tree K V)} (hrec : ∀ t ∈ ts, ∀ a r, Stored l b a t → rec a r ≠ .deep) :
    ∀ (cs : List Nat) (r : Range), StoredList l b cs ts → checkAll rec cs r ≠ .deep := by
  induction ts with
  | nil =>
    intro cs r hs
    cases cs with
    | nil => intro h; cases h
    | cons _ _ => cases hs
  | cons t ts ih =>
    intro cs r hs h
    cases cs with
    | nil => cases hs
    | cons c cs =>
      rw [checkAll] at h
      cases hc : rec c r with
      | ok r1 =>
        rw [hc] at h
        exact ih (fun t ht => hrec t (List.mem_cons_of_mem _ ht)) cs r1 hs.2 h
      | err e => rw [hc] at h; cases h
      | ub => rw [hc] at h; cases h
      | deep => exact hrec t (List.mem_cons_self ..) c r hs.1 hc

theorem checkNode_enough : ∀ (fuel a : Nat) (r : Range) (t : Tree K V), Stored l b a t → (∀ m, Chain t m → m ≤ fuel) → checkNode l b fuel a r ≠ .deep := by
  intro fuel
  induction fuel with
  | zero => intro a r t _ hm; exact absurd (hm 1 .root) (by omega)
  | succ fuel ih =>
    rintro a r ⟨p, v, ks⟩ hs hm h
    rw [Stored] at hs
    obtain ⟨-, -, -, -, cs, hsl, hks⟩ := hs
    rw [checkNode] at h
    split at h
    · cases h
    split at h
    · cases h
    split at h
    · cases h
    split at h
    · cases h
    split at h
    · cases h
    split at h
    · cases h
    rename_i cs' hd h5
    cases ho : ordered l b cs' with
    | err e => rw [ho] at h; cases h
    | ub => rw [ho] at h; cases h
    | deep => exact ordered_deep cs' ho
    | ok x =>
      cases x with
      | false => rw [ho] at h; cases h
      | true =>
        rw [ho] at h
        simp only [] at h
        rw [checkChildren] at h
        split at h
        rotate_left
        · cases h
        rw [hsl.slots] at h
        cases hk : checkAll (checkNode l b fuel) cs ((r.pop l.keySize (b.node a).pre).push (b.node a).kids) with
        | ok r1 => rw [hk] at h; cases h
        | err e => rw [hk] at h; cases h
        | ub => rw [hk] at h; cases h
        | deep =>
          refine checkAll_enough (fun t ht a r h => ih a r t h fun m hc => ?_) cs _ hks hk
          have := hm (m + 1) (.down ht hc)
          omega

omit [Ord K] in
theorem load_chain (t : Tree K V) : ∀ (fuel a : Nat), (∀ m, Chain t m → m ≤ fuel) → Stored l b a t → load l b fuel a = some t := by
  refine Tree.induct (P := fun t => ∀ (fuel a : Nat), (∀ m, Chain t m → m ≤ fuel) → Stored l b a t → load l b fuel a = some t) ?_ t
  intro p v ts ih fuel a hf hs
  have hp := hs.prefix.1
  obtain ⟨-, -, -, s5, cs, s6, s7⟩ := hs
  cases fuel with
  | zero => exact absurd (hf 1 .root) (by omega)
  | succ fuel =>
    rw [load, hp, valueAt, s5, childrenAt, s6.deref]
    simp only []
    rw [load_list s7 (fun t ht a hs => ih t ht fuel a (fun m hm => by have := hf (m + 1) (.down ht hm); omega) hs)]

omit [Ord K] in
theorem load_list_needed {fuel n : Nat} {cs : List Nat} {us : List (Tree K V)} (hrec : ∀ a u, load l b fuel a = some u → ∀ m, Chain u m → m ≤ n)
    (h : cs.mapM (load l b fuel) = some us) : ∀ u ∈ us, ∀ m, Chain u m → m ≤ n := by
  induction cs generalizing us with
  | nil => simp only [List.mapM_nil] at h; cases h; intro u hu; cases hu
  | cons c cs ih =>
    rw [List.mapM_cons] at h
    cases hc : load l b fuel c with
    | none => rw [hc] at h; cases h
    | some u =>
      cases hm : cs.mapM (load l b fuel) with
      | none => rw [hc, hm] at h; cases h
      | some ws =>
        rw [hc, hm] at h
        cases h
        intro x hx
        rcases List.mem_cons.1 hx with rfl | hx
        · exact hrec c x hc
        · exact ih hm x hx

omit [Ord K] in
theorem load_list_more {rec rec' : Nat → Option (Tree K V)} (h : ∀ a t, rec a = some t → rec' a = some t) {cs : List Nat} {ts : List (Tree K V)}
    (hc : cs.mapM rec = some ts) : cs.mapM rec' = some ts := by
  induction cs generalizing ts with
  | nil => exact hc
  | cons c cs ih =>
    rw [List.mapM_cons] at hc ⊢
    cases h1 : rec c with
    | none => rw [h1] at hc; cases hc
    | some u =>
      cases h2 : cs.mapM rec with
      | none => rw [h1, h2] at hc; cases hc
      | some us =>
        rw [h1, h2] at hc
        rw [h c u h1, ih h2]
        exact hc

omit [Ord K] in
theorem load_succ : ∀ (fuel a : Nat) (t : Tree K V), load l b fuel a = some t → load l b (fuel + 1) a = some t := by
  intro fuel
  induction fuel with
  | zero => intro a t h; cases h
  | succ fuel ih =>
    intro a t h
    rw [load] at h ⊢
    split at h
    rotate_left
    · cases h
    rename_i p v cs e1 e2 e3
    split at h
    rotate_left
    · cases h
    rename_i ts hts
    rw [load_list_more ih hts]
    exact h

omit [Ord K] in
theorem load_more {fuel a : Nat} {t : Tree K V} (n : Nat) (h : load l b fuel a = some t) (hn : fuel ≤ n) : load l b n a = some t := by
  induction n with
  | zero => rw [Nat.le_zero.1 hn] at h; exact h
  | succ n ih =>
    by_cases he : fuel = n + 1
    · rw [← he]; exact h
    · exact load_succ n a t (ih (by omega))

omit [Ord K] in
theorem load_needed : ∀ (fuel a : Nat) (t : Tree K V), load l b fuel a = some t → ∀ m, Chain t m → m ≤ fuel := by
  intro fuel
  induction fuel with
  | zero => intro a t h; cases h
  | succ fuel ih =>
    intro a t h m hm
    rw [load] at h
    split at h
    rotate_left
    · cases h
    split at h
    rotate_left
    · cases h
    rename_i ts hts
    cases h
    cases hm with
    | root => omega
    | down hc hm =>
      have := load_list_needed (fun a u h => ih a u h) hts _ hc _ hm
      omega

end
end Archive

namespace ArcArchive
open Std Archive
section
variable {K V : Type _} [Ord K] {l : ALayout} {b : ABuf K V}

theorem checkEach_more {rec rec' : Nat → Ctx → Res Ctx} (hrec : ∀ a r, rec a r ≠ .deep → rec' a r = rec a r) :
    ∀ (cs : List Nat) (r : Ctx), checkEach rec cs r ≠ .deep → checkEach rec' cs r = checkEach rec cs r := by
  intro cs
  induction cs with
  | nil => intro r _; rfl
  | cons c cs ih =>
    intro r h
    rw [checkEach] at h ⊢
    rw [checkEach]
    cases hc : rec c r with
    | ok r1 =>
      rw [hc] at h
      rw [hrec c r (by rw [hc]; exact fun h => by cases h), hc]
      exact ih r1 h
    | err e => rw [hrec c r (by rw [hc]; exact fun h => by cases h), hc]
    | ub => rw [hrec c r (by rw [hc]; exact fun h => by cases h), hc]
    | deep => rw [hc] at h; exact absurd rfl h

theorem checkArc_more {rec rec' : Nat → Ctx → Res Ctx} (hrec : ∀ a r, rec a r ≠ .deep → rec' a r = rec a r) (c : Ctx) (t : Int)
    (h : checkArc l b rec c t ≠ .deep) : checkArc l b rec' c t = checkArc l b rec c t := by
  rw [checkArc] at h ⊢
  rw [checkArc]
  split
  · rfl
  rename_i h1
  rw [if_neg h1] at h
  split
  · rfl
  rename_i h2
  rw [if_neg h2] at h
  split
  · rfl
  rename_i h3
  rw [if_neg h3] at h
  split
  · rfl
  rename_i h4
  rw [if_neg h4] at h
  rw [checkEach_more hrec _ _ (fun e => h (by rw [e]))]

theorem checkNode_more : ∀ (fuel a : Nat) (r : Ctx), checkNode l b fuel a r ≠ .deep → checkNode l b (fuel + 1) a r = checkNode l b fuel a r := by
  intro fuel
  induction fuel with
  | zero => intro a r h; exact absurd rfl h
  | succ fuel ih =>
    intro a r h
    rw [checkNode] at h ⊢
    rw [checkNode]
    split
    · rfl
    rename_i h1
    rw [if_neg h1] at h
    split
    · rfl
    rename_i h2
    rw [if_neg h2] at h
    split
    · rfl
    rename_i h3
    rw [if_neg h3] at h
    split
    · rfl
    rename_i h4
    rw [if_neg h4] at h
    cases hd : derefArc l b (b.node a).kids with
    | none => rfl
    | some cs =>
      rw [hd] at h
      simp only [] at h ⊢
      split
      · rfl
      rename_i h5
      rw [if_neg h5] at h
      cases ho : ordered l.toLayout b.flat cs with
      | err e => rfl
      | ub => rfl
      | deep => rfl
      | ok x =>
        rw [ho] at h
        cases x with
        | false => rfl
        | true => exact checkArc_more ih _ _ h

theorem checkNode_same {n m a : Nat} {r : Ctx} (hnm : n ≤ m) (h : checkNode l b n a r ≠ .deep) : checkNode l b m a r = checkNode l b n a r := by
  induction m with
  | zero => rw [Nat.le_zero.1 hnm]
  | succ m ih =>
    by_cases he : n = m + 1
    · rw [he]
    · have := ih (by omega)
      rw [checkNode_more m a r (by rw [this]; exact h), this]

theorem checkNode_shallow (hl : 0 < l.nodeSize + l.vecSize) : ∀ (fuel a : Nat) (c : Ctx), c.rng.hi < fuel * (l.nodeSize + l.vecSize) →
    checkNode l b fuel a c ≠ .deep := by
  intro fuel
  induction fuel with
  | zero => intro a c h; omega
  | succ fuel ih =>
    intro a c hc h
    rw [checkNode] at h
    split at h
    · cases h
    split at h
    · cases h
    split at h
    · cases h
    split at h
    · cases h
    split at h
    · cases h
    split at h
    · cases h
    split at h
    rotate_left
    · cases h
    · cases h
    · cases h
    · rename_i ho
      exact ordered_deep _ ho
    rw [checkArc] at h
    split at h
    · cases h
    split at h
    · cases h
    split at h
    · cases h
    rename_i h3
    split at h
    · cases h
    rename_i h4
    simp only [Bool.not_eq_true, Bool.not_eq_eq_eq_not, Bool.not_not, Bool.not_false, Bool.not_true, Bool.and_eq_true, decide_eq_true_eq,
      Bool.not_eq_false, Range.pop] at h3 h4
    rw [checkPtr_iff] at h4
    simp only [] at h4
    split at h
    · cases h
    · cases h
    rename_i h5 h6
    cases hn : slots l.nodeSize (b.vec (b.node a).kids.toNat) with
    | nil =>
      rw [hn, checkEach] at h
      cases h
    | cons y ys =>
      have hlen : (b.vec (b.node a).kids.toNat).len ≠ 0 := by
        have := slots_length l.nodeSize (b.vec (b.node a).kids.toNat)
        rw [hn] at this
        simp only [List.length_cons] at this
        omega
      have : 1 * l.nodeSize ≤ (b.vec (b.node a).kids.toNat).len * l.nodeSize := Nat.mul_le_mul_right _ (by omega)
      rw [Nat.succ_mul] at hc
      refine checkEach_deep (fuel * (l.nodeSize + l.vecSize)) ih (fun a c c' h => (checkNode_grew _ _ _ _ h).1.hi) _ _ ?_ h
      simp only []
      have h3' := of_decide_eq_true h3.2
      omega

theorem checkNode_first : ∀ (fuel a : Nat) (c c' : Ctx) (t : Tree K V), checkNode l b fuel a c = .ok c' → Stored l b a t →
    (∀ q ∈ c.seen, ∀ cs us, VecAt l b q cs → StoredL l b cs us → Tree.nodes.nodesL t.kids < Tree.nodes.nodesL us) → ∀ m, Tree.FirstChain t m → m ≤ fuel := by
  intro fuel
  induction fuel with
  | zero => intro a c c' t h; cases h
  | succ fuel ih =>
    intro a c c' t h hs hseen m hm
    cases hm with
    | root => omega
    | @down p v ks u m hm =>
      obtain ⟨q, cs, h1, h2⟩ := hs
      have hd : derefArc l b (b.node a).kids = some cs := h1.children
      have hq : (b.node a).kids.toNat = q := by rw [h1.arc, Int.toNat_natCast]
      cases cs with
      | nil => cases h2
      | cons x xs =>
        rw [checkNode] at h
        split at h
        · cases h
        split at h
        · cases h
        split at h
        · cases h
        split at h
        · cases h
        rw [hd] at h
        simp only [] at h
        split at h
        · cases h
        cases ho : ordered l.toLayout b.flat (x :: xs) with
        | err e => rw [ho] at h; cases h
        | ub => rw [ho] at h; cases h
        | deep => rw [ho] at h; cases h
        | ok y =>
          rw [ho] at h
          cases y with
          | false => cases h
          | true =>
            simp only [] at h
            rw [checkArc, hq] at h
            split at h
            · cases h
            split at h
            · rename_i hc
              have := hseen q (by simpa using hc) _ _ h1.vec h2
              exact absurd this (Nat.lt_irrefl _)
            split at h
            · cases h
            split at h
            · cases h
            rw [h1.vec.slice.slots, checkEach] at h
            cases hx : checkNode l b fuel x ⟨⟨(c.rng.pop l.keySize (b.node a).pre).lo, (b.vec q).target.toNat⟩, q :: c.seen⟩ with
            | err e => rw [hx] at h; cases h
            | ub => rw [hx] at h; cases h
            | deep => rw [hx] at h; cases h
            | ok c1 =>
              have hu : Tree.nodes.nodesL u.kids < u.nodes := by
                obtain ⟨p, v, us⟩ := u
                rw [Tree.nodes]
                simp only [Tree.kids]
                omega
              have hk : u.nodes ≤ Tree.nodes.nodesL (u :: ks) := nodes_le_nodesL (List.mem_cons_self ..)
              have := ih x _ c1 u hx h2.1 (fun r hr ds ws g1 g2 => by
                rcases List.mem_cons.1 hr with rfl | hr
                · cases g1.unique h1.vec
                  rw [g2.unique h2]
                  omega
                · have := hseen r hr ds ws g1 g2
                  simp only [Tree.kids] at this
                  omega) m hm
              omega

end
end ArcArchive
end Verif
