import Verif.Lemmas.RadixAsks
/-! Trees whose values carry their own keys. -/
namespace Verif
namespace Tree
open Std

section
variable {K V W : Type _}

mutual
/-- attach its key to every value; `q` is the key of the parent -/
def tag (q : List K) : Tree K V → Tree K (List K × V)
  | ⟨p, v, ks⟩ => ⟨p, v.map (fun v => (q ++ p, v)), tagL (q ++ p) ks⟩
/-- the same for siblings -/
def tagL (q : List K) : List (Tree K V) → List (Tree K (List K × V))
  | [] => []
  | c :: cs => tag q c :: tagL q cs
end

theorem tagL_eq (q : List K) (ks : List (Tree K V)) : tagL q ks = ks.map (tag q) := by
  induction ks with
  | nil => rfl
  | cons c ks ih => rw [tagL, ih]; rfl

theorem tag_eq (q : List K) (t : Tree K V) : tag q t = ⟨t.pre, t.val.map (fun v => (q ++ t.pre, v)), t.kids.map (tag (q ++ t.pre))⟩ := by
  obtain ⟨p, v, ks⟩ := t
  rw [tag, tagL_eq]

theorem tag_pre (q : List K) (t : Tree K V) : (tag q t).pre = t.pre := by rw [tag_eq]
theorem tag_val (q : List K) (t : Tree K V) : (tag q t).val = t.val.map (fun v => (q ++ t.pre, v)) := by rw [tag_eq]
theorem tag_kids (q : List K) (t : Tree K V) : (tag q t).kids = t.kids.map (tag (q ++ t.pre)) := by rw [tag_eq]

theorem tag_isEmpty (q : List K) (t : Tree K V) : (tag q t).isEmpty = t.isEmpty := by
  rw [tag_eq, isEmpty, isEmpty]
  cases t.val <;> cases t.kids <;> rfl

theorem tag_size (q : List K) (t : Tree K V) : (tag q t).size = t.size := by
  revert q
  refine induct (P := fun t => ∀ q, (tag q t).size = t.size) ?_ t
  intro p v ks ih q
  rw [tag_eq, size_eq, size_eq]
  simp only
  have : ∀ (ks : List (Tree K V)), (∀ c ∈ ks, ∀ q, (tag q c).size = c.size) → size.sizeL (ks.map (tag (q ++ p))) = size.sizeL ks := by
    intro ks
    induction ks with
    | nil => intro _; rfl
    | cons c ks ihk =>
      intro h
      rw [List.map_cons, size.sizeL, size.sizeL, h c (by simp), ihk fun c hc => h c (by simp [hc])]
  rw [this ks ih]

theorem tag_shorten (q : List K) (t : Tree K V) (n : Nat) : (tag q t).shorten n = tag (q ++ t.pre.take n) (t.shorten n) := by
  rw [tag_eq, tag_eq, shorten, shorten]
  simp only [List.append_assoc, List.take_append_drop]

theorem tag_dropEmptyKids (q : List K) (t : Tree K V) : (tag q t).dropEmptyKids = tag q t.dropEmptyKids := by
  rw [tag_eq, tag_eq, dropEmptyKids, dropEmptyKids]
  simp only [List.filter_map]
  congr 2
  apply List.filter_congr
  intro x _
  simp [tag_isEmpty]

theorem tag_prepend (q p : List K) (t : Tree K V) (h : t.isEmpty = false) : (tag (q ++ p) t).prepend p = tag q (t.prepend p) := by
  rw [prepend, prepend, tag_isEmpty, h]
  cases p with
  | nil => simp
  | cons c p => simp [tag_eq]

theorem tag_mergeOnlyChild (q : List K) (t : Tree K V) (h : ∀ c ∈ t.kids, c.isEmpty = false) :
    (tag q t).mergeOnlyChild = tag q t.mergeOnlyChild := by
  obtain ⟨p, v, ks⟩ := t
  rw [tag_eq]
  simp only
  match ks, v with
  | [], _ => rw [mergeOnlyChild, mergeOnlyChild, tag_eq]; rfl
  | [c], none =>
    have := tag_prepend q p c (h c (by simp))
    simpa [mergeOnlyChild] using this
  | [c], some v => rw [mergeOnlyChild, mergeOnlyChild, tag_eq]; rfl
  | c :: d :: cs, v => rw [mergeOnlyChild, mergeOnlyChild, tag_eq]; rfl

theorem tag_clearEmptyPrefix (q : List K) (t : Tree K V) : (tag q t).clearEmptyPrefix = tag q t.clearEmptyPrefix := by
  rw [clearEmptyPrefix, clearEmptyPrefix, tag_isEmpty]
  cases h : t.isEmpty with
  | false => rfl
  | true =>
    obtain ⟨h1, h2⟩ := isEmpty_iff.1 h
    simp [tag_eq, h1, h2]

theorem tag_unsplit (q : List K) (t : Tree K V) : (tag q t).unsplit = tag q t.unsplit := by
  rw [unsplit, unsplit, tag_dropEmptyKids, tag_mergeOnlyChild, tag_clearEmptyPrefix]
  intro c hc
  exact mem_dropEmptyKids hc

theorem entry_tag {t : Tree K V} : ∀ {q k k' : List K} {v : V}, Entry (tag q t) k (k', v) ↔ k' = q ++ k ∧ Entry t k v := by
  refine induct (P := fun t : Tree K V => ∀ {q k k' : List K} {v : V}, Entry (tag q t) k (k', v) ↔ k' = q ++ k ∧ Entry t k v) ?_ t
  intro p tv ks ih q k k' v
  rw [tag_eq, entry_node_iff, entry_node_iff]
  simp only [Option.map_eq_some_iff, Prod.mk.injEq, List.mem_map]
  constructor
  · rintro (⟨rfl, v', h1, rfl, rfl⟩ | ⟨_, ⟨c, hc, rfl⟩, k1, rfl, h⟩)
    · exact ⟨rfl, .inl ⟨rfl, h1⟩⟩
    · obtain ⟨rfl, h2⟩ := (ih c hc).1 h
      exact ⟨by simp, .inr ⟨c, hc, k1, rfl, h2⟩⟩
  · rintro ⟨rfl, ⟨rfl, h⟩ | ⟨c, hc, k1, rfl, h⟩⟩
    · exact .inl ⟨rfl, v, h, rfl, rfl⟩
    · exact .inr ⟨_, ⟨c, hc, rfl⟩, k1, rfl, (ih c hc).2 ⟨by simp, h⟩⟩

variable [Ord K]

theorem tag_headed (q : List K) (ks : List (Tree K V)) : headed (ks.map (tag q)) = headed ks := by
  simp only [headed, List.all_map]
  congr 1
  funext x
  simp [tag_pre]

theorem tag_headCmp (q q' : List K) (a : Tree K V) (b : Tree K W) : headCmp (tag q a) (tag q' b) = headCmp a b := by
  rw [headCmp, headCmp, tag_pre, tag_pre]

theorem tag_valid {q : List K} {t : Tree K V} (h : Valid t) : Valid (tag q t) := by
  revert q h
  refine induct (P := fun t : Tree K V => ∀ {q : List K}, Valid t → Valid (tag q t)) ?_ t
  intro p v ks ih q h
  have hk := h.kids
  simp only at hk
  rw [tag_eq]
  refine .mk ?_ ?_ ?_
  · intro c hc
    obtain ⟨d, hd', rfl⟩ := List.mem_map.1 hc
    rw [tag_pre]; exact hk.ne d hd'
  · have := hk.asc
    rw [AscendingBy] at this ⊢
    rw [List.pairwise_map]
    simpa [tag_pre] using this
  · intro c hc
    obtain ⟨d, hd', rfl⟩ := List.mem_map.1 hc
    exact ih d hd' (hk.valid d hd')

theorem tag_kids_ok {q : List K} {ks : List (Tree K V)} (h : Kids ks) : Kids (ks.map (tag q)) := by
  have := (tag_valid (q := q) (valid_iff.2 h : Valid (⟨[], none, ks⟩ : Tree K V))).kids
  simpa [tag_kids] using this

theorem tag_sort_two [TransOrd K] [LawfulEqOrd K] [DecidableEq K] {q : List K} {a b : Tree K V} (h : hd a ≠ hd b) :
    sortKids [tag q a, tag q b] = (sortKids [a, b]).map (tag q) := by
  have h' : hd (tag q a) ≠ hd (tag q b) := by simpa [hd, tag_pre] using h
  rw [sort_two (g := fun _ _ => none) h, sort_two (g := fun _ _ => none) h']
  cases hc : headCmp a b <;> simp [joinList_cons, joinList_nil_left, joinList_nil_right, tag_headCmp, hc]

end
end Tree
end Verif
