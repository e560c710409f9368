import Verif.Lemmas.CostMerge
import Verif.Lemmas.CostDedup
import Verif.Props.VecSet
import Verif.Lemmas.VecMap
import Verif.Model.TotalVecMap
/-!
# How often the comparison function is called (C60–C62)

`tick2 compare` is `Ord::cmp` counting its calls; `c.result` is what the computation `c` returns, `c.work.cmps` the number of
counted comparisons, `c.work.sorts` the lengths of the slices handed to `slice::sort_by` (whose own comparisons are not counted).
Each theorem also says that the counted function returns what the function of the model returns.
-/
namespace Verif
open Std
variable {T K V W : Type} [Ord T] [Ord K]

/-! ## C60 -/

/-- **C60.** Looking up, inserting and removing an element of a set: at most `log2 n + 2` comparisons (none if the set is empty). This does not
even depend on the set being sorted. -/
theorem C60_set_lookup (s : VecSet T) (x : T) :
    ((s.containsM (tick2 compare) x).result = s.contains x ∧ (s.containsM (tick2 compare) x).work.cmps ≤ Nat.log2 s.len + 2 ∧
      (s.containsM (tick2 compare) x).work.sorts = [] ∧ (s.len = 0 → (s.containsM (tick2 compare) x).work.cmps = 0)) ∧
    ((s.insertM (tick2 compare) x).result = s.insert x ∧ (s.insertM (tick2 compare) x).work.cmps ≤ Nat.log2 s.len + 2 ∧
      (s.insertM (tick2 compare) x).work.sorts = []) ∧
    ((s.removeM (tick2 compare) x).result = s.remove x ∧ (s.removeM (tick2 compare) x).work.cmps ≤ Nat.log2 s.len + 2 ∧
      (s.removeM (tick2 compare) x).work.sorts = []) := by
  obtain ⟨k, r, h0, h1, h2⟩ := binarySearchBy_runs (fun e => compare e x) (fun e => tick2 compare e x) s.elems (fun e _ => Runs.tick _ _ _)
  obtain ⟨hk, hz⟩ := searchCost_log h0 h1 h2
  have c1 : Runs (s.containsM (tick2 compare) x) (s.contains x) (k + 0) [] := by
    refine Runs.bind (ss := []) (ss' := []) r ?_
    unfold VecSet.contains
    cases binarySearchBy (fun e => compare e x) s.elems <;> exact Runs.pure _
  have c2 : Runs (s.insertM (tick2 compare) x) (s.insert x) (k + 0) [] := by
    refine Runs.bind (ss := []) (ss' := []) r ?_
    unfold VecSet.insert
    cases binarySearchBy (fun e => compare e x) s.elems <;> exact Runs.pure _
  have c3 : Runs (s.removeM (tick2 compare) x) (s.remove x) (k + 0) [] := by
    refine Runs.bind (ss := []) (ss' := []) r ?_
    unfold VecSet.remove
    cases binarySearchBy (fun e => compare e x) s.elems <;> exact Runs.pure _
  rw [c1.work, c2.work, c3.work]
  exact ⟨⟨c1.result, hk, rfl, hz⟩, ⟨c2.result, hk, rfl⟩, c3.result, hk, rfl⟩

/-- **C60.** `get` and `insert` of a map; `TotalVecMap`'s index is `get` followed by `unwrap_or(&default)`. -/
theorem C60_map_lookup (m : VecMap K V) (key : K) (v d : V) :
    ((m.getM (tick2 compare) key).result = m.get key ∧ (m.getM (tick2 compare) key).work.cmps ≤ Nat.log2 m.len + 2 ∧
      (m.getM (tick2 compare) key).work.sorts = []) ∧
    ((m.insertM (tick2 compare) key v).result = m.insert key v ∧ (m.insertM (tick2 compare) key v).work.cmps ≤ Nat.log2 m.len + 2 ∧
      (m.insertM (tick2 compare) key v).work.sorts = []) ∧
    ((m.getM (tick2 compare) key).result.getD d = (⟨m, d⟩ : TotalVecMap K V).index key) := by
  obtain ⟨k, r, h0, h1, h2⟩ := binarySearchBy_runs (fun p : K × V => compare p.1 key) (fun p => tick2 compare p.1 key)
    m.entries (fun e _ => Runs.tick _ _ _)
  obtain ⟨hk, hz⟩ := searchCost_log h0 h1 h2
  have c1 : Runs (m.getM (tick2 compare) key) (m.get key) (k + 0) [] := by
    refine Runs.bind (ss := []) (ss' := []) r ?_
    unfold VecMap.get
    cases binarySearchBy (fun p : K × V => compare p.1 key) m.entries <;> exact Runs.pure _
  have c2 : Runs (m.insertM (tick2 compare) key v) (m.insert key v) (k + 0) [] := by
    refine Runs.bind (ss := []) (ss' := []) r ?_
    unfold VecMap.insert
    cases binarySearchBy (fun p : K × V => compare p.1 key) m.entries <;> exact Runs.pure _
  rw [c1.work, c2.work, c1.result, c2.result]
  exact ⟨⟨rfl, hk, rfl⟩, ⟨rfl, hk, rfl⟩, rfl⟩

/-- a set of 1000 elements: at most 11 comparisons per lookup -/
example (x : Nat) : ((⟨List.range 1000⟩ : VecSet Nat).containsM (tick2 compare) x).work.cmps ≤ 11 := by
  have := (C60_set_lookup (⟨List.range 1000⟩ : VecSet Nat) x).1.2.1
  have e : Nat.log2 (⟨List.range 1000⟩ : VecSet Nat).len = 9 := by
    simp only [VecSet.len, List.length_range]; decide
  omega

/-! ## C61 -/

/-- **C61.** Collecting `N` items (set: keep the first, map: keep the last): all slices handed to `sort_by` together have at most `3 N` elements,
none is longer than `N`, and there are at most `4 N` further comparisons. -/
theorem C61_collect_work (items : List T) (entries : List (K × V)) :
    ((sortDedupByM (tick2 compare) (tickSort compare) .first items).result = (VecSet.fromIter items).elems ∧
      (sortDedupByM (tick2 compare) (tickSort compare) .first items).work.cmps ≤ 4 * items.length ∧
      (sortDedupByM (tick2 compare) (tickSort compare) .first items).work.sorts.sum ≤ 3 * items.length ∧
      ∀ n ∈ (sortDedupByM (tick2 compare) (tickSort compare) .first items).work.sorts, n ≤ items.length) ∧
    ((sortDedupByM (tick2 (fun a b : K × V => compare a.1 b.1)) (tickSort fun a b => compare a.1 b.1) .last entries).result
        = (VecMap.fromIter entries).entries ∧
      (sortDedupByM (tick2 (fun a b : K × V => compare a.1 b.1)) (tickSort fun a b => compare a.1 b.1) .last entries).work.cmps
        ≤ 4 * entries.length ∧
      (sortDedupByM (tick2 (fun a b : K × V => compare a.1 b.1)) (tickSort fun a b => compare a.1 b.1) .last entries).work.sorts.sum
        ≤ 3 * entries.length ∧
      ∀ n ∈ (sortDedupByM (tick2 (fun a b : K × V => compare a.1 b.1)) (tickSort fun a b => compare a.1 b.1) .last entries).work.sorts,
        n ≤ entries.length) := by
  obtain ⟨k, ss, r, h1, h2, h3⟩ := sortDedupBy_runs (compare : T → T → Ordering) .first items
  obtain ⟨k', ss', r', h1', h2', h3'⟩ := sortDedupBy_runs (fun a b : K × V => compare a.1 b.1) .last entries
  rw [r.work, r'.work, r.result, r'.result]
  exact ⟨⟨rfl, h1, h2, h3⟩, rfl, h1', h2', h3'⟩

/-- **C61.** So if sorting `n` elements costs at most `n g(n)` comparisons with `g` monotone (e.g. `g n = c log n`), collecting `N` items costs at
most `4 N + 3 N g(N)` comparisons — better than the documented `N log² N`. -/
theorem C61_collect_total (sortCost g : Nat → Nat) (hc : ∀ n, sortCost n ≤ n * g n) (hg : ∀ a b, a ≤ b → g a ≤ g b) (items : List T) :
    (sortDedupByM (tick2 compare) (tickSort compare) .first items).work.cmps
      + ((sortDedupByM (tick2 compare) (tickSort compare) .first items).work.sorts.map sortCost).sum
      ≤ 4 * items.length + 3 * items.length * g items.length := by
  obtain ⟨_, h1, h2, h3⟩ := (C61_collect_work (K := T) (V := T) items []).1
  generalize (sortDedupByM (tick2 compare) (tickSort compare) .first items).work = w at h1 h2 h3
  have key : ∀ ss : List Nat, (∀ n ∈ ss, n ≤ items.length) → (ss.map sortCost).sum ≤ ss.sum * g items.length := by
    intro ss
    induction ss with
    | nil => simp
    | cons n ss ih =>
      intro h
      have e1 := ih (fun m hm => h m (by simp [hm]))
      have e2 := Nat.le_trans (hc n) (Nat.mul_le_mul_left n (hg _ _ (h n (by simp))))
      simp only [List.map_cons, List.sum_cons, Nat.add_mul]
      omega
  have := Nat.le_trans (key w.sorts h3) (Nat.mul_le_mul_right _ h2)
  omega

/-- **C61.** Items that arrive in order (duplicates allowed) are never sorted: exactly one comparison per item after the first. -/
theorem C61_collect_sorted_input (items : List T) (h : items.Pairwise (fun a b => compare a b ≠ .gt)) :
    (sortDedupByM (tick2 compare) (tickSort compare) .first items).work = ⟨items.length - 1, []⟩ ∧
    (sortDedupByM (tick2 compare) (tickSort compare) .last items).work = ⟨items.length - 1, []⟩ :=
  ⟨sortDedupBy_sorted compare .first items h, sortDedupBy_sorted compare .last items h⟩

/-- a sorted input with a duplicate -/
example : (sortDedupByM (tick2 (compare : Nat → Nat → Ordering)) (tickSort compare) .first [1, 2, 2, 5, 9]).work = ⟨4, []⟩ :=
  (C61_collect_sorted_input [1, 2, 2, 5, 9] (by decide)).1

/-! ## C62 -/

/-- **C62.** Every merge of the crate (whatever the merge state and the operation do, in place or not, boolean or not) of `n` with `m` elements: at
most `n (log2 m + 2)` comparisons, and none if `m = 0`. -/
theorem C62_merge_comparisons {σ A B : Type} [MergeState σ A B] (op : MergeOp σ A B) (s : σ) :
    (mergeAllM (tick2 op.cmp) op s).result = mergeAll op s ∧
    (mergeAllM (tick2 op.cmp) op s).work.cmps
      ≤ (MergeState.aSlice s : List A).length * (Nat.log2 (MergeState.bSlice s : List B).length + 2) ∧
    ((MergeState.bSlice s : List B).length = 0 → (mergeAllM (tick2 op.cmp) op s).work.cmps = 0) ∧
    (mergeAllM (tick2 op.cmp) op s).work.sorts = [] := by
  obtain ⟨k, r, h1, h2⟩ := binaryMerge_runs op (MergeState.aSlice s : List A).length (MergeState.bSlice s : List B).length s
  have r : Runs (mergeAllM (tick2 op.cmp) op s) (mergeAll op s) k [] := r
  rw [r.work]
  exact ⟨r.result, h1, h2, rfl⟩


theorem merge_separated {σ A B R κ : Type} [MergeState σ A B] [Ord κ] [TransOrd κ] {ka : A → κ} {kb : B → κ} {op : MergeOp σ A B}
    {out : σ → List R} {inv : σ → Prop} {fa : A → Emit R} {fb : B → Emit R} {fc : A → B → Emit R}
    (impl : Implements op out inv fa fb fc) (hcmp : ∀ a b, op.cmp a b = compare (ka a) (kb b)) {o : Ordering} (ho : o ≠ .eq) (s : σ)
    (hi : inv s) (ha : AscendingBy ka (MergeState.aSlice s : List A)) (hb : AscendingBy kb (MergeState.bSlice s : List B))
    (hsep : ∀ x ∈ (MergeState.aSlice s : List A), ∀ y ∈ (MergeState.bSlice s : List B), op.cmp x y = o) :
    (mergeAllM (tick2 op.cmp) op s).work.cmps
      ≤ (Nat.log2 (MergeState.aSlice s : List A).length + 1) * (Nat.log2 (MergeState.bSlice s : List B).length + 2) := by
  obtain ⟨k, r, h⟩ := binaryMerge_separated impl hcmp o ho _ _ [] [] s hi ha hb hsep (by simp) (by simp)
  have r : Runs (mergeAllM (tick2 op.cmp) op s) (mergeAll op s) k [] := r
  rw [r.work]
  refine Nat.le_trans h (Nat.mul_le_mul_right _ ?_)
  unfold pivots
  split <;> omega

/-- **C62.** Set operations on two sets that do not overlap — everything in `a` is below everything in `b`, or everything above — need a
number of comparisons logarithmic in both sizes: union, intersection, difference and symmetric difference by reference, the same in
place (taking the argument by value or by reference), and the tests for disjointness and inclusion. -/
theorem C62_separated_sets [TransOrd T] (a b : VecSet T) (ha : Built a) (hb : Built b) (o : Ordering) (ho : o ≠ .eq)
    (h : ∀ x ∈ a.asSlice, ∀ y ∈ b.asSlice, compare x y = o) :
    (∀ op ∈ [setUnionOp (SliceMS.mut cloneConverter cloneConverter), setIntersectionOp (SliceMS.mut cloneConverter cloneConverter),
        setDiffOp (SliceMS.mut cloneConverter cloneConverter), setXorOp (T := T) (SliceMS.mut (cloneConverter (A := T)) cloneConverter)],
      (mergeAllM (tick2 compare) op { a := a.elems, b := b.elems, r := [] }).work.cmps ≤ (Nat.log2 a.len + 1) * (Nat.log2 b.len + 2)) ∧
    (∀ op ∈ [setUnionOp (InPlaceMS.mut idConverter), setIntersectionOp (InPlaceMS.mut idConverter),
        setDiffOp (InPlaceMS.mut idConverter), setXorOp (T := T) (InPlaceMS.mut (idConverter (A := T)))],
      (mergeAllM (tick2 compare) op { tgt := [], src := a.elems, b := b.elems }).work.cmps ≤ (Nat.log2 a.len + 1) * (Nat.log2 b.len + 2)) ∧
    (∀ op ∈ [setIntersectionOp BoolMS.mut, setDiffOp (T := T) (BoolMS.mut (A := T) (B := T))],
      (mergeAllM (tick2 compare) op { a := a.elems, b := b.elems, r := false }).work.cmps ≤ (Nat.log2 a.len + 1) * (Nat.log2 b.len + 2)) := by
  have ha' : AscendingBy (fun x : T => x) a.elems := ha.ascending
  have hb' : AscendingBy (fun x : T => x) b.elems := hb.ascending
  refine ⟨fun op hop => ?_, fun op hop => ?_, fun op hop => ?_⟩
  · have A := SliceMS.advSpec (A := T) (B := T) (R := T) cloneConverter cloneConverter
    simp only [List.mem_cons, List.not_mem_nil, or_false] at hop
    rcases hop with rfl | rfl | rfl | rfl
    · exact merge_separated (setUnionOp_impl A) (fun _ _ => rfl) ho { a := a.elems, b := b.elems, r := [] } trivial ha' hb' h
    · exact merge_separated (setIntersectionOp_impl A) (fun _ _ => rfl) ho { a := a.elems, b := b.elems, r := [] } trivial ha' hb' h
    · exact merge_separated (setDiffOp_impl A) (fun _ _ => rfl) ho { a := a.elems, b := b.elems, r := [] } trivial ha' hb' h
    · exact merge_separated (setXorOp_impl A) (fun _ _ => rfl) ho { a := a.elems, b := b.elems, r := [] } trivial ha' hb' h
  · have A := InPlaceMS.advSpec (A := T) (B := T) idConverter
    simp only [List.mem_cons, List.not_mem_nil, or_false] at hop
    rcases hop with rfl | rfl | rfl | rfl
    · exact merge_separated (setUnionOp_impl A) (fun _ _ => rfl) ho { tgt := [], src := a.elems, b := b.elems } trivial ha' hb' h
    · exact merge_separated (setIntersectionOp_impl A) (fun _ _ => rfl) ho { tgt := [], src := a.elems, b := b.elems } trivial ha' hb' h
    · exact merge_separated (setDiffOp_impl A) (fun _ _ => rfl) ho { tgt := [], src := a.elems, b := b.elems } trivial ha' hb' h
    · exact merge_separated (setXorOp_impl A) (fun _ _ => rfl) ho { tgt := [], src := a.elems, b := b.elems } trivial ha' hb' h
  · have A := BoolMS.advSpec (A := T) (B := T)
    simp only [List.mem_cons, List.not_mem_nil, or_false] at hop
    rcases hop with rfl | rfl
    · exact merge_separated (setIntersectionOp_impl A) (fun _ _ => rfl) ho { a := a.elems, b := b.elems, r := false } rfl ha' hb' h
    · exact merge_separated (setDiffOp_impl A) (fun _ _ => rfl) ho { a := a.elems, b := b.elems, r := false } rfl ha' hb' h

/-- two sets of a thousand elements each, one after the other: at most 110 comparisons -/
example : (mergeAllM (tick2 (compare : Nat → Nat → Ordering)) (setUnionOp (SliceMS.mut cloneConverter cloneConverter))
    { a := List.range' 0 1000, b := List.range' 5000 1000, r := [] }).work.cmps ≤ 110 := by
  have asc : ∀ s, Ascending (List.range' s 1000) := fun s => by
    refine List.Pairwise.imp (R := (· < ·)) ?_ List.pairwise_lt_range'
    intro a b h
    exact Nat.compare_eq_lt.2 h
  have := (C62_separated_sets (⟨List.range' 0 1000⟩ : VecSet Nat) ⟨List.range' 5000 1000⟩ (.fromBTreeSet _ (asc 0)) (.fromBTreeSet _ (asc 5000)) .lt
    (by simp) (by
      intro x hx y hy
      have h1 : x ∈ List.range' 0 1000 := hx
      have h2 : y ∈ List.range' 5000 1000 := hy
      simp only [List.mem_range'_1] at h1 h2
      exact Nat.compare_eq_lt.2 (by omega))).1 _ (List.mem_cons_self ..)
  have e : (Nat.log2 (⟨List.range' 0 1000⟩ : VecSet Nat).len + 1) * (Nat.log2 (⟨List.range' 5000 1000⟩ : VecSet Nat).len + 2) = 110 := by
    simp only [VecSet.len, List.length_range']; decide
  rw [e] at this
  exact this

end Verif
