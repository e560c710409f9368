import Verif.Lemmas.RadixSem
import Verif.Lemmas.RadixIter
import Verif.Lemmas.RadixPanic
import Verif.Lemmas.BTreeEffects
/-! For which keys a combination calls its closure, and in which order. -/
namespace Verif
namespace Tree
open Std

section
variable {K V W O : Type _}

/-- the items at which there is something to see -/
def asking (o : List K → Option O) (l : List (List K × V)) : List (List K × V × O) :=
  l.filterMap fun e => (o e.1).map fun w => (e.1, e.2, w)

/-- put `p` in front of the key -/
def pfx {X : Type _} (p : List K) (e : List K × X) : List K × X := (p ++ e.1, e.2)

theorem asking_append (o : List K → Option O) (l m : List (List K × V)) : asking o (l ++ m) = asking o l ++ asking o m := List.filterMap_append

theorem asking_pfx (o : List K → Option O) (p : List K) (l : List (List K × V)) :
    asking o (l.map (pfx p)) = (asking (fun k => o (p ++ k)) l).map (pfx p) := by
  induction l with
  | nil => rfl
  | cons e l ih =>
    simp only [asking, List.map_cons, List.filterMap_cons, pfx] at ih ⊢
    cases o (p ++ e.1) with
    | none => simpa using ih
    | some w => simpa [pfx] using ih

theorem asking_congr {o o' : List K → Option O} {l : List (List K × V)} (h : ∀ e ∈ l, o e.1 = o' e.1) : asking o l = asking o' l := by
  induction l with
  | nil => rfl
  | cons e l ih =>
    have := ih fun e he => h e (by simp [he])
    simp only [asking, List.filterMap_cons] at this ⊢
    rw [h e (by simp), this]

theorem asking_none {o : List K → Option O} {l : List (List K × V)} (h : ∀ e ∈ l, o e.1 = none) : asking o l = [] := by
  rw [asking_congr (o' := fun _ => none) h]
  simp [asking]

theorem mem_asking {o : List K → Option O} {l : List (List K × V)} {k : List K} {v : V} {w : O} :
    (k, v, w) ∈ asking o l ↔ (k, v) ∈ l ∧ o k = some w := by
  simp only [asking, List.mem_filterMap]
  constructor
  · rintro ⟨⟨k', v'⟩, h, he⟩
    cases ho : o k' with
    | none => rw [ho] at he; simp at he
    | some w' =>
      rw [ho] at he
      simp only [Option.map_some, Option.some.injEq, Prod.mk.injEq] at he
      obtain ⟨rfl, rfl, rfl⟩ := he
      exact ⟨h, ho⟩
  · rintro ⟨h, ho⟩
    exact ⟨_, h, by simp [ho]⟩

theorem items_shift (q r : List K) (t : Tree K V) : items (q ++ r) t = (items r t).map (pfx q) := by
  revert q r
  refine induct (P := fun t => ∀ q r, items (q ++ r) t = (items r t).map (pfx q)) ?_ t
  intro p v ks ih q r
  have key : ∀ ks : List (Tree K V), (∀ c ∈ ks, ∀ q r, items (q ++ r) c = (items r c).map (pfx q)) → ∀ q r, itemsL (q ++ r) ks = (itemsL r ks).map (pfx q) := by
    intro ks
    induction ks with
    | nil => intro _ q r; rfl
    | cons c ks ihk =>
      intro h q r
      rw [itemsL, itemsL, List.map_append, ← ihk (fun c hc => h c (by simp [hc])), ← h c (by simp), List.append_assoc]
  rw [items_eq, items_eq, List.map_append, key ks ih]
  cases v <;> simp [pfx]

theorem itemsL_shift (q : List K) (ks : List (Tree K V)) : itemsL q ks = (itemsL [] ks).map (pfx q) := by
  induction ks with
  | nil => rfl
  | cons c ks ih =>
    rw [itemsL, itemsL, List.map_append, ← ih, items_shift]
    rfl

theorem items_pre (q p : List K) (t : Tree K V) : items q { t with pre := p } = items q t := by
  rw [items_eq, items_eq]

/-- the items of a tree, by its own keys -/
theorem mem_items_self {t : Tree K V} {k : List K} {v : V} : (k, v) ∈ items t.pre t ↔ Entry t k v := by
  have := mem_items t.size t (Nat.le_refl _) [] k v
  simpa using this

theorem mem_itemsL_self {ks : List (Tree K V)} {k : List K} {v : V} : (k, v) ∈ itemsL [] ks ↔ ∃ c ∈ ks, Entry c k v := by
  rw [mem_itemsL]
  simp only [List.nil_append, mem_items_self]

end

section
variable {K V W O : Type _} [Ord K]

/-- what is seen of a list of siblings -/
def obsF (o : Obs K W (Option O)) (bs : List (Tree K W)) : List K → Option O
  | [] => none
  | c :: r => obsL o bs c r

/-- the questions a combination of `a` and `b` asks -/
def asks (o : Obs K W (Option O)) (a : Tree K V) (b : Tree K W) : List (List K × V × O) := asking (o.get b) (items a.pre a)

/-- the questions a merge of siblings asks -/
def asksL (o : Obs K W (Option O)) (as : List (Tree K V)) (bs : List (Tree K W)) : List (List K × V × O) := asking (obsF o bs) (itemsL [] as)

theorem asksL_nil (o : Obs K W (Option O)) (bs : List (Tree K W)) : asksL o ([] : List (Tree K V)) bs = [] := rfl

theorem asksL_cons (o : Obs K W (Option O)) (x : Tree K V) (as : List (Tree K V)) (bs : List (Tree K W)) :
    asksL o (x :: as) bs = asking (obsF o bs) (items x.pre x) ++ asksL o as bs := by
  rw [asksL, itemsL, asking_append]
  rfl

/-- the root's question -/
def rootAsk (p : List K) (v : Option V) (w : Option O) : List (List K × V × O) :=
  match v, w with
  | some v, some w => [(p, v, w)]
  | _, _ => []

theorem items_head {ks : List (Tree K V)} (hk : Kids ks) {c : Tree K V} (hc : c ∈ ks) {e : List K × V} (he : e ∈ items c.pre c) :
    ∃ x r, hd c = some x ∧ e.1 = x :: r := by
  obtain ⟨k, v⟩ := e
  exact entry_head hk hc (mem_items_self.1 he)

variable [TransOrd K] [LawfulEqOrd K] [DecidableEq K]

theorem asksL_skip_a {o : Obs K W (Option O)} (hno : o.no = none) {x : Tree K V} {as : List (Tree K V)} {bs : List (Tree K W)}
    (ha : x.pre ≠ []) (hv : Valid x) (h : ∀ y ∈ bs, hd x ≠ hd y) : asksL o (x :: as) bs = asksL o as bs := by
  rw [asksL_cons, asking_none, List.nil_append]
  intro e he
  obtain ⟨c, r, h1, h2⟩ := items_head (Kids.single hv ha) (List.mem_singleton.2 rfl) he
  rw [h2]
  simp only [obsF, obsL]
  cases hf : findBy hd bs (some c) with
  | none => simp [hno]
  | some y =>
    obtain ⟨h3, h4⟩ := findBy_hd_mem hf
    exact absurd (h1.trans h4.symm) (h y h3)

theorem asksL_skip_as {o : Obs K W (Option O)} (hno : o.no = none) (n : Nat) {as : List (Tree K V)} {bs : List (Tree K W)}
    (ha : Kids as) (h : ∀ x ∈ as.take n, ∀ y ∈ bs, hd x ≠ hd y) : asksL o as bs = asksL o (as.drop n) bs := by
  induction n generalizing as with
  | zero => rfl
  | succ n ih =>
    cases as with
    | nil => rfl
    | cons x as =>
      rw [asksL_skip_a hno (ha.ne x (by simp)) (ha.valid x (by simp)) (h x (by simp)),
        ih (ha.sublist (List.sublist_cons_self ..)) fun x hx => h x (by simp [hx])]
      rfl

theorem asksL_skip_b {o : Obs K W (Option O)} {as : List (Tree K V)} {y : Tree K W} {bs : List (Tree K W)} (ha : Kids as)
    (h : ∀ x ∈ as, hd x ≠ hd y) : asksL o as (y :: bs) = asksL o as bs := by
  unfold asksL
  apply asking_congr
  rintro ⟨k, v⟩ he
  obtain ⟨x, hx, he⟩ := mem_itemsL_self.1 he
  obtain ⟨c, r, h1, rfl⟩ := entry_head ha hx he
  simp only [obsF, obsL, findBy_cons]
  rw [if_neg]
  intro e
  exact h x hx (h1.trans (cmp_eq_iff.1 e).symm)

theorem asksL_skip_bs {o : Obs K W (Option O)} (n : Nat) {as : List (Tree K V)} {bs : List (Tree K W)} (ha : Kids as)
    (h : ∀ y ∈ bs.take n, ∀ x ∈ as, hd x ≠ hd y) : asksL o as bs = asksL o as (bs.drop n) := by
  induction n generalizing bs with
  | zero => rfl
  | succ n ih =>
    cases bs with
    | nil => rfl
    | cons y bs =>
      rw [asksL_skip_b ha fun x hx => h y (by simp) x hx, ih fun y hy => h y (by simp [hy])]
      rfl

theorem asksL_both {o : Obs K W (Option O)} {x : Tree K V} {y : Tree K W} {as : List (Tree K V)} {bs : List (Tree K W)}
    (ha : Kids (x :: as)) (h : hd x = hd y) : asksL o (x :: as) (y :: bs) = asks o x y ++ asksL o as bs := by
  rw [asksL_cons, asksL_skip_b (ha.sublist (List.sublist_cons_self ..))]
  · congr 1
    unfold asks
    apply asking_congr
    intro e he
    obtain ⟨c, r, h1, h2⟩ := items_head ha (List.mem_cons_self ..) he
    rw [h2]
    simp only [obsF, obsL, findBy_cons]
    rw [if_pos (by rw [← h, h1]; exact cmp_self _)]
    rfl
  · intro x' hx' e
    have := (ascendingBy_cons.1 ha.asc).1 x' hx'
    rw [e, h, cmp_self] at this
    cases this

theorem asks_split {o : Obs K W (Option O)} {a : Tree K V} {b : Tree K W} {p : List K} {v : Option V} {ks : List (Tree K V)} {bs : List (Tree K W)}
    (hk : Kids ks) (hi : items a.pre a = v.toList.map (fun v => (p, v)) ++ itemsL p ks)
    (hb : ∀ c r, o.get b (p ++ c :: r) = obsL o bs c r) :
    asks o a b = rootAsk p v (o.get b p) ++ (asksL o ks bs).map (pfx p) := by
  unfold asks asksL
  rw [hi, asking_append, itemsL_shift, asking_pfx]
  congr 1
  · cases v with
    | none => rfl
    | some v => cases h : o.get b p <;> simp [asking, rootAsk, h]
  · congr 1
    apply asking_congr
    rintro ⟨k, v⟩ he
    obtain ⟨x, hx, he⟩ := mem_itemsL_self.1 he
    obtain ⟨c, r, h1, rfl⟩ := entry_head hk hx he
    exact hb c r

/-- same prefixes -/
theorem asks_same {o : Obs K W (Option O)} (L : ObsLaws o (fun _ => false)) {a : Tree K V} {b : Tree K W} (ha : Valid a) (hb : Valid b)
    (h : a.pre = b.pre) : asks o a b = rootAsk a.pre a.val (o.here b.val) ++ (asksL o a.kids b.kids).map (pfx a.pre) := by
  rw [asks_split ha.kids (items_eq _ _) (bs := b.kids) (fun c r => by rw [h, L.below b hb rfl, obsL]), h, L.node]

/-- `a` is a proper prefix of `b` -/
theorem asks_above {o : Obs K W (Option O)} (L : ObsLaws o (fun _ => false)) (hno : o.no = none) {a : Tree K V} {b : Tree K W} (ha : Valid a)
    (hb : Valid b) {n : Nat} (hn : n < b.pre.length) (h : a.pre = b.pre.take n) :
    asks o a b = (asksL o a.kids [b.shorten n]).map (pfx a.pre) := by
  rw [asks_split ha.kids (items_eq _ _) (bs := [b.shorten n]) (fun c r => by rw [h, obsL_shorten L hb hn]), L.out, hno]
  · cases a.val <;> simp [rootAsk]
  · intro r e
    have := congrArg List.length e
    rw [h] at this
    simp at this
    omega

/-- `b` is a proper prefix of `a` -/
theorem asks_below {o : Obs K W (Option O)} (L : ObsLaws o (fun _ => false)) {a : Tree K V} {b : Tree K W} (ha : Valid a)
    (hb : Valid b) {n : Nat} (hn : n < a.pre.length) (h : a.pre.take n = b.pre) :
    asks o a b = (asksL o [a.shorten n] b.kids).map (pfx (a.pre.take n)) := by
  rw [asks_split (p := a.pre.take n) (v := none) (Kids.single (ha.shorten n) (shorten_ne hn)) (bs := b.kids) ?_
    (fun c r => by rw [h, L.below b hb rfl, obsL])]
  · rfl
  · simp only [Option.toList, List.map_nil, List.nil_append, itemsL, List.append_nil, shorten]
    rw [List.take_append_drop, items_pre]

/-- the prefixes differ -/
theorem asks_differ {o : Obs K W (Option O)} (L : ObsLaws o (fun _ => false)) (hno : o.no = none) {a : Tree K V} {b : Tree K W} {n : Nat}
    (hna : n < a.pre.length) (hnb : n < b.pre.length)
    (hdf : (a.pre.drop n).head? ≠ (b.pre.drop n).head?) : asks o a b = [] := by
  apply asking_none
  rintro ⟨k, v⟩ he
  obtain ⟨r, rfl⟩ := entry_pre (mem_items_self.1 he)
  rw [← hno]
  apply L.out
  intro s e
  apply hdf
  have := congrArg (fun l => l[n]?) e
  simpa [List.getElem?_append_left hna, List.getElem?_append_left hnb, List.head?_drop] using this

end
end Tree
end Verif
