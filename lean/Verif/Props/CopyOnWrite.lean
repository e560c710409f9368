import Verif.Lemmas.CopyOnWriteOnce
import Verif.Lemmas.RadixCost
import Verif.Props.Radix
/-!
# Copy on write and lazy loading: C94

A `CTree` is a tree whose nodes say whether their vector of children is not loaded yet, shared with other trees, or their own; `plain` forgets that. Every
operation returns how many vectors it loaded, copied (and the children cloned in doing so) and created. `Narrow w t`: no node has more than `w` children.
-/
namespace Verif.Cow
open Verif.Tree (Valid Narrow closure closure_noPanic)
open Std

section
variable {K : Type} [Ord K] [TransOrd K] [LawfulEqOrd K] [DecidableEq K] {V W : Type}

/-- **C94.** The in-place operations leave the tree that they leave without any sharing or laziness, and copy at most one vector of children per key component
of the other tree, plus one; they load at most `w + 1` times as many; the size of the tree itself does not matter. -/
theorem C94_in_place (a : CTree K V) (b : Tree K V) (c : Tree K W) (w : Nat) (h1 : 1 ≤ w) (ha : Valid a.plain) (hw : Narrow w a.plain) (hb : Valid b) (hc : Valid c)
    (m : V → V → V × Bool) (m' : V → W → V × Bool) (s : W → Bool) :
    ((a.outerCombineWith b (closure m)).res.plain = (a.plain.outerCombineWith b (closure m)).1 ∧
      Within w (b.components + 1) ((b.components + 1) * (w + 1)) ((b.components + 2) * b.nodes) (a.outerCombineWith b (closure m)).mem) ∧
    ((a.innerCombineWith c (closure m')).res.plain = (a.plain.innerCombineWith c (closure m')).1 ∧
      Within w (c.components + 1) ((c.components + 1) * (w + 1)) ((c.components + 2) * c.nodes) (a.innerCombineWith c (closure m')).mem) ∧
    ((a.leftCombineWith c (closure m')).res.plain = (a.plain.leftCombineWith c (closure m')).1 ∧
      Within w (c.components + 1) ((c.components + 1) * (w + 1)) ((c.components + 2) * c.nodes) (a.leftCombineWith c (closure m')).mem) ∧
    ((a.removePrefixWith c s).res.plain = (a.plain.removePrefixWith c s).1 ∧
      Within w (c.components + 1) ((c.components + 1) * (w + 1)) ((c.components + 2) * c.nodes) (a.removePrefixWith c s).mem) ∧
    ((a.retainPrefixWith c s).res.plain = (a.plain.retainPrefixWith c s).1 ∧
      Within w (c.components + 1) ((c.components + 1) * (w + 1)) ((c.components + 2) * c.nodes) (a.retainPrefixWith c s).mem) := by
  have g1 := outerGo_ok h1 (closure_noPanic m) _ a b ha hb hw (Nat.lt_succ_self _)
  have g2 := innerGo_ok h1 (closure_noPanic m') _ a c ha hc hw (Nat.lt_succ_self _)
  have g3 := leftGo_ok h1 (closure_noPanic m') _ a c ha hc hw (Nat.lt_succ_self _)
  have g4 := removeGo_ok h1 (f := s) _ a c ha hc hw (Nat.lt_succ_self _)
  have g5 := retainGo_ok h1 (f := s) _ a c ha hc hw (Nat.lt_succ_self _)
  exact ⟨⟨g1.1, g1.2.2⟩, ⟨g2.1, g2.2.2⟩, ⟨g3.1, g3.2.2⟩, ⟨g4.1, g4.2.2⟩, ⟨g5.1, g5.2.2⟩⟩

omit [Ord K] [TransOrd K] [LawfulEqOrd K] [DecidableEq K] in
theorem single_size {X : Type} (k : List K) (x : X) : (Tree.single k x).components = k.length ∧ (Tree.single k x).nodes = 1 := ⟨rfl, rfl⟩

/-- **C94.** Inserting or removing one key copies at most one vector per component of that key, plus one, whatever is in the tree and however much of it is shared. -/
theorem C94_one_key (t : CTree K V) (w : Nat) (h1 : 1 ≤ w) (ht : Valid t.plain) (hw : Narrow w t.plain) (k : List K) (v : V) :
    ((t.insert k v).res.plain = (t.plain.insert k v).1 ∧
      Within w (k.length + 1) ((k.length + 1) * (w + 1)) (k.length + 2) (t.insert k v).mem) ∧
    ((t.remove k).res.plain = (t.plain.differenceWith (Tree.single k ())).1 ∧
      Within w (k.length + 1) ((k.length + 1) * (w + 1)) (k.length + 2) (t.remove k).mem) := by
  have g1 := outerGo_ok h1 (closure_noPanic fun _ b => (b, true)) _ t (Tree.single k v) ht (Tree.canonical_single k v).1 hw (Nat.lt_succ_self _)
  have g2 := leftGo_ok h1 (closure_noPanic fun (a : V) _ => (a, false)) _ t (Tree.single k ()) ht (Tree.canonical_single k ()).1 hw (Nat.lt_succ_self _)
  have b1 := g1.2.2
  have b2 := g2.2.2
  rw [(single_size k v).1, (single_size k v).2, Nat.mul_one] at b1
  rw [(single_size k ()).1, (single_size k ()).2, Nat.mul_one] at b2
  exact ⟨⟨g1.1, b1⟩, ⟨g2.1, b2⟩⟩

theorem find_plain {act : CTree K V → CTree K V} (hact : ∀ t, (act t).plain = t.plain) (t : CTree K V) (ht : Valid t.plain) (p : List K) :
    Like (findGo act (t.plain.size + 1) t p).res.1 (t.plain.find p) ∧ (findGo act (t.plain.size + 1) t p).res.2.plain = t.plain ∧
    Reads p.length (findGo act (t.plain.size + 1) t p).mem := by
  obtain ⟨h1, h2, h3, _⟩ := findGo_ok hact (t.plain.size + 1) t p ht (Nat.lt_succ_self _)
  exact ⟨h1, h2, h3⟩

/-- **C94.** A lookup finds what is in the tree, changes nothing in it, copies nothing and creates nothing, and loads at most as many vectors as the key has
components. Looking up the same key again loads nothing and finds the same. -/
theorem C94_lookup (t : CTree K V) (ht : Valid t.plain) (k : List K) :
    t.plain.get k = .ret (t.get k).res.1 ∧ (t.get k).res.2.plain = t.plain ∧ Within 0 0 k.length 0 (t.get k).mem ∧
    ((t.get k).res.2.get k) = pure (t.get k).res := by
  obtain ⟨h1, h2, h3⟩ := find_plain (act := id) (fun _ => rfl) t ht k
  have again := findGo_again (t.plain.size + 1) t k
  obtain ⟨r, hr, _⟩ := Tree.find_eq ht k
  have e : (t.get k).res.2 = (findGo id (t.plain.size + 1) t k).res.2 := by
    unfold CTree.get
    simp only [bind_res]
    split <;> rfl
  have em : (t.get k).mem = (findGo id (t.plain.size + 1) t k).mem := by
    unfold CTree.get
    simp only [bind_mem]
    split <;> exact add_zero _
  refine ⟨?_, e ▸ h2, ?_, ?_⟩
  · unfold Tree.get CTree.get
    rw [hr] at h1 ⊢
    revert h1
    simp only [bind_res]
    cases (findGo id (t.plain.size + 1) t k).res.1 with
    | found c =>
      cases r with
      | found t' => intro h; simp only [Like] at h; simp [← h]
      | _ => exact False.elim
    | «prefix» c n =>
      cases r with
      | «prefix» t' n' => intro _; rfl
      | _ => exact False.elim
    | notFound =>
      cases r with
      | notFound t' a b => intro _; rfl
      | _ => exact False.elim
  · rw [em]
    obtain ⟨a1, a2, a3, a4⟩ := h3
    exact ⟨Nat.le_of_eq a1, by simp [a2], a4, Nat.le_of_eq a3⟩
  · have es : (t.get k).res.2.plain.size = t.plain.size := by rw [e, h2]
    have ge : ∀ u : CTree K V, u.get k = (findGo id (u.plain.size + 1) u k >>= fun r => match r.1 with
      | .found x => pure (x.val, r.2)
      | _ => pure (none, r.2)) := fun _ => rfl
    rw [ge (t.get k).res.2, es, e, again, pure_bind', ge t]
    simp only [bind_res]
    split <;> rfl

/-- **C94.** The part of a tree below a prefix is taken without copying or creating a vector, loading at most one vector more than the prefix has components;
the tree itself stays the same. -/
theorem C94_filter_prefix (t : CTree K V) (ht : Valid t.plain) (p : List K) :
    t.plain.filterPrefix p = .ret (t.filterPrefix p).res.1.plain ∧ (t.filterPrefix p).res.2.plain = t.plain ∧
    Within 0 0 (p.length + 1) 0 (t.filterPrefix p).mem := by
  obtain ⟨h1, h2, h3⟩ := find_plain (act := CTree.share) share_plain t ht p
  obtain ⟨r, hr, _⟩ := Tree.find_eq ht p
  have toW : ∀ {l m}, Reads l m → Within 0 0 l 0 m := fun h => ⟨Nat.le_of_eq h.1, by simp [h.2.1], h.2.2.2, Nat.le_of_eq h.2.2.1⟩
  unfold Tree.filterPrefix CTree.filterPrefix
  rw [hr] at h1 ⊢
  revert h1 h2 h3
  simp only [bind_res, bind_mem]
  generalize findGo CTree.share (t.plain.size + 1) t p = x
  obtain ⟨m, f, u⟩ := x
  intro h2 h3 h1
  cases f with
  | found c =>
    cases r with
    | found t' =>
      simp only [Like] at h1
      refine ⟨?_, h2, toW ((h3.add (Reads.zero (l := 1))))⟩
      have := share_plain c
      rw [plain_eq, plain_eq c] at this
      injection this with e1 e2 e3
      simp only [pure_res, plain_eq]
      rw [← h1, e2, e3, plain_val, plain_kids]
    | _ => exact h1.elim
  | «prefix» c n =>
    cases r with
    | «prefix» t' n' =>
      obtain ⟨rfl, rfl⟩ := h1
      have e : CTree.plain { c.share with pre := c.share.pre.drop (c.share.pre.length - n) } = { c.plain with pre := c.plain.pre.drop (c.plain.pre.length - n) } := by
        have := share_plain c
        rw [plain_eq, plain_eq c] at this
        injection this with e1 e2 e3
        rw [plain_eq, plain_eq c]
        simp only [e1, e2, e3]
      have hp : c.share.pre = c.pre := by have := congrArg Tree.pre (share_plain c); simpa using this
      rw [hp] at e
      simp only [bind_res, bind_mem, pure_res, pure_mem, add_zero]
      generalize hx : CTree.mk (c.pre.drop (c.pre.length - n)) c.share.val c.share.held c.share.kids = x at *
      have hpre : (x.prepend p).res.plain = x.plain.prepend p ∧ Reads 1 (x.prepend p).mem := by
        unfold CTree.prepend Tree.prepend
        cases hpe : p.isEmpty with
        | true => simp [Reads.zero]
        | false =>
          simp only [Bool.false_eq_true, if_false, bind_mem, bind_res, pure_mem, pure_res, checkEmpty_flag, add_zero]
          have hl : Reads 1 x.checkEmpty.mem := by
            unfold CTree.checkEmpty
            split
            · exact .zero
            · simp only [bind_mem, pure_mem, add_zero]; exact load_reads x
          refine ⟨?_, hl⟩
          have hq := checkEmpty_plain x
          cases he : x.plain.isEmpty with
          | true => simp [hq]
          | false =>
            rw [plain_eq, plain_eq x] at hq
            injection hq with q1 q2 q3
            rw [plain_eq]
            simp [q1, q2, q3, plain_eq]
      refine ⟨?_, h2, toW (h3.add hpre.2)⟩
      rw [hpre.1, e]
    | _ => exact h1.elim
  | notFound =>
    cases r with
    | notFound t' a b => exact ⟨rfl, h2, toW (h3.add (Reads.zero (l := 1)))⟩
    | _ => exact h1.elim

omit [TransOrd K] [LawfulEqOrd K] in
/-- **C94.** However many in-place operations and lookups are carried out on a tree (without cloning it in between), every vector of it is copied at most once and
loaded at most once: what belongs to the tree alone is never copied, and what is loaded stays loaded. No condition on the trees; closures may panic. -/
theorem C94_once (t : CTree K V) (us : List (Update K V)) :
    (runAll t us).mem.copies ≤ foreign t ∧ (runAll t us).mem.loads ≤ unloaded t ∧ foreign t ≤ t.plain.nodes ∧ unloaded t ≤ t.plain.nodes := by
  have one : ∀ (t : CTree K V) (u : Update K V), (u.run t).mem.copies + foreign (u.run t).res ≤ foreign t ∧ (u.run t).mem.loads + unloaded (u.run t).res ≤ unloaded t := by
    intro t u
    cases u with
    | outer b f => exact ⟨outerGo_paid copyPurse f (t.plain.size + b.size + 1) t b, outerGo_paid loadPurse f (t.plain.size + b.size + 1) t b⟩
    | inner b f => exact ⟨innerGo_paid copyPurse f (t.plain.size + b.size + 1) t b, innerGo_paid loadPurse f (t.plain.size + b.size + 1) t b⟩
    | left b f => exact ⟨leftGo_paid copyPurse f (t.plain.size + b.size + 1) t b, leftGo_paid loadPurse f (t.plain.size + b.size + 1) t b⟩
    | removePrefix b f => exact ⟨removeGo_paid copyPurse f (t.plain.size + b.size + 1) t b, removeGo_paid loadPurse f (t.plain.size + b.size + 1) t b⟩
    | retainPrefix b f => exact ⟨retainGo_paid copyPurse f (t.plain.size + b.size + 1) t b, retainGo_paid loadPurse f (t.plain.size + b.size + 1) t b⟩
    | insert k v => exact ⟨outerGo_paid copyPurse (fun _ b => (b, .ret true)) (t.plain.size + (Tree.single k v).size + 1) t (Tree.single k v), outerGo_paid loadPurse (fun _ b => (b, .ret true)) (t.plain.size + (Tree.single k v).size + 1) t (Tree.single k v)⟩
    | remove k => exact ⟨leftGo_paid copyPurse (fun a _ => (a, .ret false)) (t.plain.size + (Tree.single k ()).size + 1) t (Tree.single k ()), leftGo_paid loadPurse (fun a _ => (a, .ret false)) (t.plain.size + (Tree.single k ()).size + 1) t (Tree.single k ())⟩
    | get k =>
      have e : (t.get k).mem = (findGo id (t.plain.size + 1) t k).mem ∧ (t.get k).res.2 = (findGo id (t.plain.size + 1) t k).res.2 := by
        unfold CTree.get
        simp only [bind_mem, bind_res]
        split <;> exact ⟨add_zero _, rfl⟩
      obtain ⟨h1, _, h3⟩ := findGo_foreign (t.plain.size + 1) t k
      simp only [Update.run]
      rw [e.1, e.2, h1]
      exact ⟨by omega, findGo_loads _ t k⟩
  refine ⟨?_, ?_, foreign_le t, unloaded_le t⟩
  · induction us generalizing t with
    | nil => exact Nat.zero_le _
    | cons u us ih =>
      have h1 := (one t u).1
      have h2 := ih (u.run t).res
      simp only [runAll, bind_mem, Mem.add]
      omega
  · induction us generalizing t with
    | nil => exact Nat.zero_le _
    | cons u us ih =>
      have h1 := (one t u).2
      have h2 := ih (u.run t).res
      simp only [runAll, bind_mem, Mem.add]
      omega

omit [Ord K] [TransOrd K] [LawfulEqOrd K] [DecidableEq K] in
theorem map_plain_set (ts : List (CTree K V)) (i : Nat) (x : CTree K V) {u : CTree K V} (h : ts[i]? = some u) (hx : x.plain = u.plain) :
    (ts.set i x).map CTree.plain = ts.map CTree.plain := by
  have hi : i < ts.length := (List.getElem?_eq_some_iff.1 h).1
  have hu : ts[i] = u := (List.getElem?_eq_some_iff.1 h).2
  rw [List.map_set, hx, ← hu]
  apply List.ext_getElem (by simp)
  intro j h1 h2
  rw [List.getElem_set]
  split
  · subst_vars; simp
  · rfl

theorem map_erase {α β : Type} (f : α → β) : ∀ (l : List α) (i : Nat), (l.eraseIdx i).map f = (l.map f).eraseIdx i
  | [], _ => rfl
  | _ :: _, 0 => rfl
  | x :: xs, i + 1 => by simp only [List.eraseIdx_cons_succ, List.map_cons, map_erase f xs i]

omit [Ord K] [TransOrd K] [LawfulEqOrd K] [DecidableEq K] in
theorem all_set {P : CTree K V → Prop} {ts : List (CTree K V)} {i : Nat} {x : CTree K V} (h : ∀ t ∈ ts, P t) (hx : P x) : ∀ t ∈ ts.set i x, P t :=
  fun t ht => (List.mem_or_eq_of_mem_set ht).elim (h t) fun e => e ▸ hx

/-- **C94.** In a program that clones trees, updates them by single keys, looks up keys, takes parts of them and drops them, in any order, the number of vectors
copied, loaded and created depends on the lengths of the keys only, never on the sizes of the trees; and every tree has the contents that it would have if cloning
copied everything. (`rank` numbers the key components in ascending order: there are at most `w`, 256 for bytes.) -/
theorem C94_program (w : Nat) (h1 : 1 ≤ w) (rank : K → Nat) (hr : ∀ x y, compare x y = .lt → rank x < rank y) (hb : ∀ x, rank x < w) (acts : List (Act K V))
    (ts : List (CTree K V)) (hv : ∀ t ∈ ts, Valid t.plain) :
    (runProgram ts acts).res.map CTree.plain = acts.foldl Act.plainly (ts.map CTree.plain) ∧
    Within w ((acts.map Act.keyLength).sum) ((acts.map Act.keyLength).sum * (w + 1)) (2 * (acts.map Act.keyLength).sum) (runProgram ts acts).mem := by
  have one : ∀ (ts : List (CTree K V)) (a : Act K V), (∀ t ∈ ts, Valid t.plain) → (a.run ts).res.map CTree.plain = a.plainly (ts.map CTree.plain) ∧
      Within w a.keyLength (a.keyLength * (w + 1)) (2 * a.keyLength) (a.run ts).mem ∧ ∀ t ∈ (a.run ts).res, Valid t.plain := by
    intro ts a hv
    have nothing : ∀ {c l f : Nat}, Within w c l f Mem.zero := Within.zero.mono (Nat.zero_le _) (Nat.zero_le _) (Nat.zero_le _)
    have grow : ∀ {l l' : Nat} {m : Mem}, Within 0 0 l 0 m → l ≤ l' → ∀ c f, Within w c l' f m := by
      intro l l' m h hl c f
      exact ⟨Nat.le_trans h.copies (Nat.zero_le _), Nat.le_trans h.cloned (by simp), Nat.le_trans h.loads hl, Nat.le_trans h.fresh (Nat.zero_le _)⟩
    cases a with
    | clone i =>
      simp only [Act.run, Act.plainly, List.getElem?_map]
      cases hi : ts[i]? with
      | none => exact ⟨rfl, nothing, hv⟩
      | some t =>
        have ht := hv t (List.mem_of_getElem? hi)
        refine ⟨?_, nothing, fun u hu => ?_⟩
        · simp only [pure_res, List.map_append, map_plain_set ts i t.share hi (share_plain t), List.map_cons, List.map_nil, share_plain, Option.map_some]
        · rcases List.mem_append.1 hu with hu | hu
          · exact all_set hv (by rw [share_plain]; exact ht) u hu
          · rw [List.mem_singleton.1 hu, share_plain]; exact ht
    | drop i =>
      refine ⟨?_, nothing, fun u hu => hv u (List.mem_of_mem_eraseIdx hu)⟩
      simp only [Act.run, Act.plainly, pure_res, map_erase]
    | insert i k v =>
      simp only [Act.run, Act.plainly, List.getElem?_map, Act.keyLength]
      cases hi : ts[i]? with
      | none => exact ⟨rfl, nothing, hv⟩
      | some t =>
        have ht := hv t (List.mem_of_getElem? hi)
        obtain ⟨⟨g1, g2⟩, _⟩ := C94_one_key t w h1 ht (ht.narrow rank hr hb) k v
        obtain ⟨r, q1, q2, _⟩ := Tree.insert_good ht k v
        simp only [bind_res, bind_mem, pure_res, pure_mem, add_zero, Option.map_some]
        refine ⟨?_, Within.mono g2 (Nat.le_refl _) (Nat.le_refl _) (by omega), all_set hv (by rw [g1, q1]; exact q2)⟩
        rw [List.map_set, g1]
    | remove i k =>
      simp only [Act.run, Act.plainly, List.getElem?_map, Act.keyLength]
      cases hi : ts[i]? with
      | none => exact ⟨rfl, nothing, hv⟩
      | some t =>
        have ht := hv t (List.mem_of_getElem? hi)
        obtain ⟨r, q1, _, q2, _⟩ := Tree.differenceWith_good ht (Tree.canonical_single k ()).1
        have g := leftGo_ok h1 (closure_noPanic fun (a : V) _ => (a, false)) _ t (Tree.single k ()) ht (Tree.canonical_single k ()).1 (ht.narrow rank hr hb) (Nat.lt_succ_self _)
        have g1 : (t.remove k).res.plain = (t.plain.differenceWith (Tree.single k ())).1 := g.1
        have g2 := g.2.2
        rw [(single_size k ()).1, (single_size k ()).2, Nat.mul_one] at g2
        simp only [bind_res, bind_mem, pure_res, pure_mem, add_zero, Option.map_some]
        refine ⟨?_, Within.mono g2 (Nat.le_refl _) (Nat.le_refl _) (by omega), all_set hv (by rw [g1, q1]; exact q2.valid)⟩
        rw [List.map_set, g1]
    | get i k =>
      simp only [Act.run, Act.plainly, Act.keyLength]
      cases hi : ts[i]? with
      | none => exact ⟨rfl, nothing, hv⟩
      | some t =>
        have ht := hv t (List.mem_of_getElem? hi)
        obtain ⟨_, g2, g3, _⟩ := C94_lookup t ht k
        simp only [bind_res, bind_mem, pure_res, pure_mem, add_zero]
        refine ⟨map_plain_set ts i _ hi g2, grow g3 (Nat.le_trans (Nat.le_succ _) (Nat.le_mul_of_pos_right _ (Nat.succ_pos w))) _ _, all_set hv (by rw [g2]; exact ht)⟩
    | filterPrefix i p =>
      simp only [Act.run, Act.plainly, List.getElem?_map, Act.keyLength]
      cases hi : ts[i]? with
      | none => exact ⟨rfl, nothing, hv⟩
      | some t =>
        have ht := hv t (List.mem_of_getElem? hi)
        obtain ⟨g1, g2, g3⟩ := C94_filter_prefix t ht p
        obtain ⟨r, q1, q2, _⟩ := Tree.filterPrefix_spec ht p
        rw [g1] at q1
        injection q1 with q1
        simp only [bind_res, bind_mem, pure_res, pure_mem, add_zero, Option.map_some, g1]
        refine ⟨?_, grow g3 (Nat.le_mul_of_pos_right _ (Nat.succ_pos w)) _ _, fun u hu => ?_⟩
        · rw [List.map_append, map_plain_set ts i _ hi g2]; rfl
        · rcases List.mem_append.1 hu with hu | hu
          · exact all_set hv (by rw [g2]; exact ht) u hu
          · rw [List.mem_singleton.1 hu, q1]; exact q2
  induction acts generalizing ts with
  | nil => exact ⟨rfl, Within.zero.mono (Nat.zero_le _) (Nat.zero_le _) (Nat.zero_le _)⟩
  | cons a as ih =>
    obtain ⟨o1, o2, o3⟩ := one ts a hv
    obtain ⟨i1, i2⟩ := ih (a.run ts).res o3
    refine ⟨?_, ?_⟩
    · simp only [runProgram, bind_res, List.foldl_cons, i1, o1]
    · simp only [runProgram, bind_mem, List.map_cons, List.sum_cons]
      exact Within.mono (Within.add o2 i2) (Nat.le_refl _) (by rw [Nat.add_mul]; exact Nat.le_refl _) (by omega)

end

/-! ### Cases of the theorems above -/

/-- `Tree.demoA` (Props/Radix.lean) whose root vector is shared and whose vector further down is not loaded -/
def demo : CTree Nat Char := ⟨[1], none, .shared, [⟨[2], some 'a', .raw, [⟨[5], some 'b', .raw, []⟩]⟩, ⟨[3], some 'c', .own, []⟩]⟩

theorem demo_plain : demo.plain = Tree.demoA := rfl

theorem demo_valid : Valid demo.plain ∧ Narrow 2 demo.plain := by
  rw [demo_plain]
  refine ⟨Tree.demoA_canonical.1, ?_⟩
  have leaf : ∀ p v, Narrow 2 (⟨p, v, []⟩ : Tree Nat Char) := fun p v => Tree.narrow_iff.2 ⟨by simp, by simp⟩
  refine Tree.narrow_iff.2 ⟨by decide, fun c hc => ?_⟩
  rcases List.mem_cons.1 hc with rfl | hc
  · refine Tree.narrow_iff.2 ⟨by decide, fun c hc => ?_⟩
    rw [List.mem_singleton.1 hc]; exact leaf _ _
  · rw [List.mem_singleton.1 hc]; exact leaf _ _

/-- the hypotheses of `C94_in_place` and `C94_one_key`; the insertion copies the root vector with its two elements, and loads two vectors -/
example : 1 ≤ 2 ∧ Valid demo.plain ∧ Narrow 2 demo.plain ∧ Valid Tree.demoB ∧
    (demo.insert [1, 2, 5, 7] 'd').mem.copies = 1 ∧ (demo.insert [1, 2, 5, 7] 'd').mem.cloned = 2 ∧ (demo.insert [1, 2, 5, 7] 'd').mem.loads = 2 :=
  ⟨by decide, demo_valid.1, demo_valid.2, Tree.demoB_canonical.1, by decide +kernel, by decide +kernel, by decide +kernel⟩
/-- A copied vector holds clones, so the vectors of its elements are shared from then on: the insertion below one of them copies that one too. -/
example : (demo.insert [1, 3, 9] 'd').mem.copies = 2 ∧
    ((⟨[], some 'x', .shared, [⟨[1], some 'y', .own, [⟨[2], some 'z', .own, []⟩]⟩]⟩ : CTree Nat Char).insert [1, 3] 'd').mem.copies = 2 := by decide +kernel
/-- a lookup, which loads one vector the first time (the root vector is loaded already, the found node's own children are not looked at) and none the second -/
example : Valid demo.plain ∧ (demo.get [1, 2, 5]).mem.loads = 1 ∧ (demo.get [1, 2, 5]).res.1 = some 'b' ∧ ((demo.get [1, 2, 5]).res.2.get [1, 2, 5]).mem.loads = 0 :=
  ⟨demo_valid.1, by decide +kernel, by decide +kernel, by decide +kernel⟩
/-- the part below `[1, 2]`: nothing is loaded, copied or created -/
example : Valid demo.plain ∧ (demo.filterPrefix [1, 2]).mem.loads = 0 ∧ ((demo.filterPrefix [1, 2]).res.1.get [1, 2, 5]).res.1 = some 'b' :=
  ⟨demo_valid.1, by decide +kernel, by decide +kernel⟩
/-- for `C94_once`: two insertions with the same key; four vectors are not the tree's own, one of which is copied, by the first insertion -/
example : foreign demo = 4 ∧ unloaded demo = 2 ∧ (runAll demo [.insert [1, 2, 5, 7] 'd', .insert [1, 2, 5, 7] 'e', .get [1, 3]]).mem.copies = 1 := by decide +kernel

/-- for `C94_program`: bytes; an empty tree is filled, cloned, and the clone is changed, which copies two vectors and does not change the original -/
example : (∀ x y : Fin 256, compare x y = .lt → x.val < y.val) ∧ (∀ x : Fin 256, x.val < 256) ∧
    (∀ t ∈ [(⟨[], none, .own, []⟩ : CTree (Fin 256) Char)], Valid t.plain) ∧
    (let r := runProgram [(⟨[], none, .own, []⟩ : CTree (Fin 256) Char)] [.insert 0 [1, 2] 'a', .insert 0 [1, 3] 'b', .insert 0 [1, 3, 4] 'c', .clone 0, .insert 1 [1, 3, 5] 'd', .get 0 [1, 3, 5]]
     r.mem.copies = 2 ∧ r.res.length = 2 ∧ (r.res.map fun t => (t.get [1, 3, 5]).res.1) = [none, some 'd']) := by
  refine ⟨fun x y h => ?_, fun x => x.isLt, ?_, by decide +kernel⟩
  · have h : compare x.val y.val = .lt := h
    exact Nat.compare_eq_lt.1 h
  · intro t ht; rw [List.mem_singleton.1 ht]; exact Tree.valid_empty

/-! ### The factor `w` cannot be avoided -/

section
variable {K V W : Type}

theorem retain_loads : ∀ (l : List (CTree K V)), (∀ c ∈ l, c.held = .raw ∧ c.val = none) → ∀ m, l.length ≤ (retain (l ++ m)).mem.loads
  | [], _, _ => Nat.zero_le _
  | c :: cs, h, m => by
    have ih := retain_loads cs (fun x hx => h x (List.mem_cons_of_mem _ hx)) m
    obtain ⟨h1, h2⟩ := h c (List.mem_cons_self ..)
    have hc : c.checkEmpty.mem.loads = 1 := by
      unfold CTree.checkEmpty CTree.load
      simp [h1, h2, Mem.add, Mem.zero]
    simp only [List.cons_append, retain, bind_mem, pure_mem, add_zero, Mem.add, List.length_cons]
    omega

theorem joinKids_before [Ord K] {f : Tree K W → Charged (CTree K V)} {rec : CTree K V → Tree K W → Charged (CTree K V)} {b : Tree K W} :
    ∀ (l : List (CTree K V)), (∀ a ∈ l, headCmp a b = .lt) → (joinKids true (some f) rec l [b]).res = l ++ [(f b).res]
  | [], _ => by rw [joinKids]; rfl
  | a :: as, h => by
    rw [joinKids, h a (List.mem_cons_self ..)]
    simp only [bind_res, pure_res, if_true]
    rw [joinKids_before as (fun x hx => h x (List.mem_cons_of_mem _ hx))]
    rfl

/-- a node without value, with two children -/
def tooth (i : Nat) : Tree Nat Unit := ⟨[i], none, [⟨[0], some (), []⟩, ⟨[1], some (), []⟩]⟩
/-- a node with `w` children, none of which has a value -/
def comb (w : Nat) : Tree Nat Unit := ⟨[], some (), (List.range w).map tooth⟩

theorem openeds_map : ∀ (l : List (Tree K V)), openeds l = l.map opened
  | [] => rfl
  | c :: cs => by rw [openeds, openeds_map cs]; rfl

/-- **C94.** One short key can cost as many loads as there are siblings: for every `w` there is a tree with `w` children of which, just opened, an insertion of a
key with a single component loads all (and the root), although the key belongs to none of them (mod.rs:146 asks every child whether it is empty). -/
theorem C94_siblings (w : Nat) : ∃ t : Tree Nat Unit, Tree.Canonical t ∧ t.kids.length = w ∧ w + 1 ≤ ((opened t).insert [w] ()).mem.loads := by
  refine ⟨comb w, ?_, by simp [comb], ?_⟩
  · have leaf : ∀ i, Tree.Valid (⟨[i], some (), []⟩ : Tree Nat Unit) ∧ Tree.Full (⟨[i], some (), []⟩ : Tree Nat Unit) := fun i =>
      ⟨Tree.valid_iff.2 Tree.Kids.nil, Tree.full_iff.2 ⟨nofun, nofun⟩⟩
    have tooth : ∀ i, Tree.Valid (tooth i) ∧ Tree.Full (tooth i) := fun i =>
      ⟨Tree.valid_iff.2 ⟨by simp [tooth], by simp only [tooth]; exact .cons (fun x hx => by rw [List.mem_singleton.1 hx]; rfl) (List.pairwise_singleton _ _),
        by simp only [tooth, List.mem_cons, List.not_mem_nil, or_false, forall_eq_or_imp, forall_eq]; exact ⟨(leaf 0).1, (leaf 1).1⟩⟩,
       Tree.full_iff.2 ⟨fun _ => Nat.le_refl 2, by simp only [tooth, List.mem_cons, List.not_mem_nil, or_false, forall_eq_or_imp, forall_eq]; exact ⟨(leaf 0).2, (leaf 1).2⟩⟩⟩
    refine ⟨Tree.valid_iff.2 ⟨?_, ?_, ?_⟩, .inr (Tree.full_iff.2 ⟨nofun, ?_⟩)⟩
    · simp [comb, Verif.Cow.tooth]
    · show List.Pairwise _ ((List.range w).map Verif.Cow.tooth)
      refine List.pairwise_map.2 (List.pairwise_lt_range.imp fun {i j} h => ?_)
      exact Nat.compare_eq_lt.2 h
    · intro c hc; obtain ⟨i, _, rfl⟩ := List.mem_map.1 hc; exact (tooth i).1
    · intro c hc; obtain ⟨i, _, rfl⟩ := List.mem_map.1 hc; exact (tooth i).2
  · unfold CTree.insert CTree.outerCombineWith
    generalize (opened (comb w)).plain.size + (Tree.single [w] ()).size = n
    have h1 : (opened (comb w)).pre = [] := rfl
    have h2 : (opened (comb w)).kids = (List.range w).map fun i => opened (tooth i) := by
      simp only [opened, comb, openeds_map, List.map_map]
      rfl
    have h3 : (opened (comb w)).held = .raw := rfl
    rw [outerGo]
    have e : outerCases (outerGo (fun _ b => (b, Call.ret true)) n) (fun _ b => (b, Call.ret true)) (Tree.commonPrefix (opened (comb w)).pre (Tree.single [w] ()).pre) (opened (comb w)) (Tree.single [w] ()) =
        (do let _ ← copyOf (V := Unit) 0 (Tree.single [w] ())
            (opened (comb w)).mergeKids true (some (copyOf 0)) (outerGo (fun _ b => (b, Call.ret true)) n) [Tree.single [w] ()]) := rfl
    rw [e]
    have hk : (CTree.mergeKids true (some (copyOf 0)) (outerGo (fun _ b => (b, Call.ret true)) n) (opened (comb w)) [Tree.single [w] ()]).res =
        { (opened (comb w)) with held := .own, kids := (opened (comb w)).kids ++ [(copyOf 0 (Tree.single [w] ())).res] } := by
      have hm : (opened (comb w)).childrenMut.res = { (opened (comb w)) with held := .own } := by unfold CTree.childrenMut; rw [h3]
      simp only [CTree.mergeKids, bind_res, pure_res, hm]
      rw [joinKids_before]
      intro a ha
      rw [h2] at ha
      obtain ⟨i, hi, rfl⟩ := List.mem_map.1 ha
      have hi := List.mem_range.1 hi
      show compare (some i) (some w) = .lt
      exact Nat.compare_eq_lt.2 hi
    have hl : 1 ≤ (CTree.mergeKids true (some (copyOf 0)) (outerGo (fun _ b => (b, Call.ret true)) n) (opened (comb w)) [Tree.single [w] ()]).mem.loads := by
      have hm : (opened (comb w)).childrenMut.mem.loads = 1 := by unfold CTree.childrenMut; rw [h3]
      simp only [CTree.mergeKids, bind_mem, Mem.add]
      omega
    simp only [bind_mem, bind_res, hk, Mem.add]
    have hr := retain_loads (opened (comb w)).kids (fun c hc => by
      rw [h2] at hc
      obtain ⟨i, _, rfl⟩ := List.mem_map.1 hc
      exact ⟨rfl, rfl⟩) [(copyOf 0 (Tree.single [w] ())).res]
    have hn : (opened (comb w)).kids.length = w := by rw [h2]; simp
    have hu : ∀ t : CTree Nat Unit, t.held = .own → (retain t.kids).mem.loads ≤ t.unsplit.mem.loads := by
      intro t ho
      simp only [CTree.unsplit, bind_mem, childrenMut_own ho, pure_mem, pure_res, bind_res, zero_add, Mem.add]
      omega
    have := hu { (opened (comb w)) with held := .own, kids := (opened (comb w)).kids ++ [(copyOf 0 (Tree.single [w] ())).res] } rfl
    simp only at this
    omega
end
end Verif.Cow
