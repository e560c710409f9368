import Verif.Props.Capacity
import Verif.Spec.CapacityHistory
/-!
# C92: collecting, single elements, deserializing, and whole histories
-/
namespace Verif
open Std

section collect
variable {α κ : Type _} [Ord κ] [TransOrd κ] {key : α → κ} {keep : Keep}

/-- the buffer used by `collect` -/
theorem sortDedupCap_facts (N hint : Nat) (l : List α) :
    (min hint 16 ≤ N → l.length ≤ N ∨ (NonDescendingBy key l ∧ (sortDedupByKey keep key l).length ≤ N) ∨ max 16 (2 * (sortDedupByKey keep key l).length + 1) ≤ N →
      sortDedupCap (fun a b => compare (key a) (key b)) keep N hint l = N) ∧
    N ≤ sortDedupCap (fun a b => compare (key a) (key b)) keep N hint l ∧
    (sortDedupByKey keep key l).length ≤ sortDedupCap (fun a b => compare (key a) (key b)) keep N hint l ∧
    sortDedupCap (fun a b => compare (key a) (key b)) keep N hint l ≤ max N (max 32 (4 * (sortDedupByKey keep key l).length + 2)) := by
  have go : ∀ B, (∀ before x after, l = before ++ x :: after →
      ((before.foldl (SortAndDedup.push (fun a b => compare (key a) (key b)) keep) { data := [], sorted := 0 }).pushElem (fun a b => compare (key a) (key b)) keep x).data.length ≤ B) →
      B ≤ N → min hint 16 ≤ N → sortDedupCap (fun a b => compare (key a) (key b)) keep N hint l = N := by
    intro B hB hBN hh
    have h := sortDedupCap_spec N hint B l hB
    have e : withCap N (min hint 16) = N := if_pos hh
    rw [e] at h
    unfold sortDedupCap
    rw [e]
    rcases h.origin with h | ⟨m, h1, h2, _⟩
    · exact h
    · omega
  have hb := sortDedupCap_spec (cmp := fun a b => compare (key a) (key b)) (keep := keep) N hint (max 16 (2 * (sortDedupByKey keep key l).length + 1)) l
    (fun before x after e => by rw [e]; exact buffer_bound before after x)
  have hN : N ≤ withCap N (min hint 16) := by unfold withCap; split <;> omega
  refine ⟨?_, ?_, ?_, ?_⟩
  · rintro hh (h | ⟨h1, h2⟩ | h)
    · refine go l.length ?_ h hh
      rintro before x after rfl
      have h1 := fold_len_le (cmp := fun a b => compare (key a) (key b)) (keep := keep) before
      have h2 := pushElem_succ (cmp := fun a b => compare (key a) (key b)) (keep := keep)
        (before.foldl (SortAndDedup.push (fun a b => compare (key a) (key b)) keep) { data := [], sorted := 0 }) x
      simp only [List.length_append, List.length_cons]
      omega
    · refine go _ ?_ h2 hh
      rintro before x after rfl
      exact sorted_buffer_bound before after x h1
    · refine go _ ?_ h hh
      rintro before x after rfl
      exact buffer_bound before after x
  · exact Nat.le_trans hN hb.le
  · refine Nat.le_trans ?_ hb.fits
    rw [foldl_fst]
    exact sortAndDedup_le _
  · unfold sortDedupCap
    rcases hb.origin with h | ⟨m, h1, h2, h3⟩
    · rw [h]; unfold withCap; split <;> omega
    · have := nextPow2_lt (n := m) (by omega)
      omega

end collect

section sets
variable {T : Type _} [Ord T] [TransOrd T]

/-- **C92 (collecting into a set).** `hint` is the lower bound the iterator claims. Collecting allocates nothing if the claimed lower bound fits (only its first 16 count) and either there are at most `N` items, or
the items come in order and the result fits, or `N` is more than twice the result and at least 16. In any case the memory used on the way is bounded by the *result*, not by the number of items, and
after the final `shrink_to_fit` the set is inline exactly if its elements fit, otherwise in a buffer of exactly its size. -/
theorem C92_collect (N hint : Nat) (items : List T) :
    (min hint 16 ≤ N → items.length ≤ N ∨ (NonDescendingBy (fun x => x) items ∧ (VecSet.fromIter items).len ≤ N) ∨ max 16 (2 * (VecSet.fromIter items).len + 1) ≤ N →
      VecSet.fromIterPeakCap N hint items = N) ∧
    VecSet.fromIterPeakCap N hint items ≤ max N (max 32 (4 * (VecSet.fromIter items).len + 2)) ∧
    VecSet.fromIterCap N hint items = max N (VecSet.fromIter items).len := by
  obtain ⟨h1, h2, h3, h4⟩ := sortDedupCap_facts (key := fun x : T => x) (keep := .first) N hint items
  have h2 : N ≤ VecSet.fromIterPeakCap N hint items := h2
  have h3 : (VecSet.fromIter items).len ≤ VecSet.fromIterPeakCap N hint items := h3
  refine ⟨h1, h4, ?_⟩
  unfold VecSet.fromIterCap shrinkCap
  split
  · omega
  · split <;> omega

end sets

/-- the examples of vec_set.rs:69-74: `(0..4)` into `[u32; 4]`, `(4..6)` into `[u32; 2]` -/
example : VecSet.fromIterPeakCap 4 4 [0, 1, 2, 3] = 4 ∧ VecSet.fromIterPeakCap 2 2 [4, 5] = 2 := by decide +kernel
/-- in order, with duplicates, claimed lower bound 0 -/
example : VecSet.fromIterPeakCap 3 0 [1, 1, 1, 2, 2, 2, 3, 3] = 3 := by decide +kernel
/-- five elements: heap, and exactly five after shrinking -/
example : VecSet.fromIterPeakCap 4 0 [1, 2, 3, 4, 5] = 8 ∧ VecSet.fromIterCap 4 0 [1, 2, 3, 4, 5] = 5 := by decide +kernel

theorem collect_212 : VecSet.fromIter [2, 1, 2] = ⟨[1, 2]⟩ := by
  have h1 : [2, 1, 2].foldl (SortAndDedup.push compare .first) { data := [], sorted := 0 } = { data := [2, 1, 2], sorted := 1 } := rfl
  have h2 : stableSortBy compare [2, 1, 2] = [1, 2, 2] := by
    have a : compare 2 1 = .gt := rfl
    have b : compare 1 2 = .lt := rfl
    have c : compare 2 2 = .eq := rfl
    simp [stableSortBy, List.mergeSort, List.MergeSort.Internal.splitInTwo, List.merge, a, b, c]
  unfold VecSet.fromIter sortDedup sortDedupBy
  rw [h1, SortAndDedup.intoInner, SortAndDedup.sortAndDedup, if_pos (by decide)]
  simp only [h2]
  rfl

/-- **C92 (finding).** Collecting can allocate although the result fits: because room is reserved for duplicates that were announced, or because duplicates are in the buffer before it is sorted. -/
theorem C92_collect_allocates : (∃ (N hint : Nat) (items : List Nat), hint = items.length ∧ (VecSet.fromIter items).len ≤ N ∧ N < VecSet.fromIterPeakCap N hint items) ∧
    (∃ (N : Nat) (items : List Nat), (VecSet.fromIter items).len ≤ N ∧ N < VecSet.fromIterPeakCap N 0 items) :=
  ⟨⟨4, 6, [7, 7, 7, 7, 7, 7], rfl, by decide +kernel, by decide +kernel⟩, ⟨2, [2, 1, 2], by rw [collect_212]; decide, by decide +kernel⟩⟩

section maps
variable {K V : Type _} [Ord K] [TransOrd K]

/-- **C92 (collecting into a map).** The same without the final `shrink_to_fit`. -/
theorem C92_collect_map (N hint : Nat) (items : List (K × V)) :
    (min hint 16 ≤ N → items.length ≤ N ∨ (NonDescendingBy Prod.fst items ∧ (VecMap.fromIter items).len ≤ N) ∨ max 16 (2 * (VecMap.fromIter items).len + 1) ≤ N →
      VecMap.fromIterCap N hint items = N) ∧
    (VecMap.fromIter items).len ≤ VecMap.fromIterCap N hint items ∧ N ≤ VecMap.fromIterCap N hint items ∧
    VecMap.fromIterCap N hint items ≤ max N (max 32 (4 * (VecMap.fromIter items).len + 2)) := by
  obtain ⟨h1, h2, h3, h4⟩ := sortDedupCap_facts (key := fun e : K × V => e.1) (keep := .last) N hint items
  exact ⟨h1, h3, h2, h4⟩

end maps

/-- **C92 (finding).** A collected map keeps the larger buffer: it may stay on the heap although its entries fit inline. -/
theorem C92_map_stays_on_heap : ∃ (N hint : Nat) (items : List (Nat × Nat)), (VecMap.fromIter items).len ≤ N ∧ N < VecMap.fromIterCap N hint items :=
  ⟨4, 6, [(7, 0), (7, 1), (7, 2), (7, 3), (7, 4), (7, 5)], by decide +kernel, by decide +kernel⟩

/-! ### Single elements, clones, deserializing -/
section single
variable {T K V : Type _} [Ord T] [TransOrd T] [Ord K] [TransOrd K]

theorem reserve_one {cap len : Nat} (h : len ≤ cap) : NoMoreThanNeeded cap (len + 1) (reserveCap cap len 1) :=
  (CapInv.reserve ⟨h, .inl rfl⟩ 1).seen

/-- **C92 (`insert`).** Inserting allocates only if there is no room for one more element, and never if the element (or key) is there already. -/
theorem C92_insert (cap : Nat) :
    (∀ (s : VecSet T) (x : T), Built s → s.len ≤ cap → NoMoreThanNeeded cap (s.insert x).1.len (VecSet.insertCap s cap x)) ∧
    (∀ (m : VecMap K V) (k : K) (v : V), AscendingBy Prod.fst m.asSlice → m.len ≤ cap → NoMoreThanNeeded cap (m.insert k v).1.len (VecMap.insertCap m cap k)) := by
  have same : ∀ {len : Nat}, len ≤ cap → NoMoreThanNeeded cap len cap := fun h => ⟨fun _ => rfl, fun h' => by omega⟩
  refine ⟨fun s x hs hl => ?_, fun m k v hm hl => ?_⟩
  · have spec := binarySearchBy_spec (mono_of_ascendingBy (key := fun y : T => y) hs.ascending x)
    unfold VecSet.insert VecSet.insertCap
    cases hr : binarySearchBy (fun e => compare e x) s.elems with
    | found i =>
      have e : (s.elems.set i x).length = s.len := List.length_set ..
      show NoMoreThanNeeded cap (s.elems.set i x).length cap
      rw [e]
      exact same hl
    | notFound i =>
      rw [hr] at spec
      obtain ⟨lo, hi, e1, e2, _⟩ := spec
      have e : (s.elems.insertIdx i x).length = s.len + 1 := by
        rw [List.length_insertIdx, if_pos (by rw [e1]; simp; omega)]; rfl
      show NoMoreThanNeeded cap (s.elems.insertIdx i x).length _
      rw [e]
      exact reserve_one hl
  · have spec := binarySearchBy_spec (mono_of_ascendingBy (key := (Prod.fst : K × V → K)) hm k)
    unfold VecMap.insert VecMap.insertCap
    cases hr : binarySearchBy (fun e : K × V => compare e.1 k) m.entries with
    | found i =>
      have e : (m.entries.set i (k, v)).length = m.len := List.length_set ..
      show NoMoreThanNeeded cap (m.entries.set i (k, v)).length cap
      rw [e]
      exact same hl
    | notFound i =>
      have spec : SearchSpec (fun e : K × V => compare e.1 k) m.entries (.notFound i) := hr ▸ spec
      obtain ⟨lo, hi, e1, e2, _⟩ := spec
      have e : (m.entries.insertIdx i (k, v)).length = m.len + 1 := by
        rw [List.length_insertIdx, if_pos (by rw [e1]; simp; omega)]; rfl
      show NoMoreThanNeeded cap (m.entries.insertIdx i (k, v)).length _
      rw [e]
      exact reserve_one hl

end single

example : VecSet.insertCap (⟨[1, 3]⟩ : VecSet Nat) 2 3 = 2 ∧ VecSet.insertCap (⟨[1, 3]⟩ : VecSet Nat) 2 2 = 4 ∧ VecSet.insertCap (⟨[1, 3]⟩ : VecSet Nat) 3 2 = 3 := by decide +kernel

/-- **C92 (other constructors).** `single`, `clone`, `From<BTreeSet>`, `From<BTreeMap>` and `map_values` do not allocate if the elements fit; `shrink_to_fit` leaves the elements inline or in a buffer of exactly their number. -/
theorem C92_constructors (N : Nat) :
    NoMoreThanNeeded N 1 (VecSet.singleCap N) ∧ (∀ len, NoMoreThanNeeded N len (VecSet.exactCap N len) ∧ NoMoreThanNeeded N len (VecMap.exactCap N len)) ∧
    ∀ cap len, len ≤ cap → N ≤ cap → shrinkCap N cap len = max N len := by
  have h : ∀ n, NoMoreThanNeeded N n (reserveCap N 0 n) := fun n => by
    have := ((CapInv.start N).reserve n).seen
    rwa [Nat.zero_add] at this
  refine ⟨h 1, fun len => ⟨h len, h len⟩, fun cap len h1 h2 => ?_⟩
  unfold shrinkCap
  split
  · omega
  · split <;> omega

/-- **C92 (deserializing).** `declared` is the length the input claims for the sequence or map, `received` the number of elements it then delivers. If the claim is absent or fits, deserializing allocates only if more
than `N` elements arrive; a correct claim is met with a buffer of exactly that size. Finding: a claim is believed at once, before an element arrived, however large it is. -/
theorem C92_deserialize (N received : Nat) (declared : Option Nat) :
    ((∀ n, declared = some n → n ≤ N) → NoMoreThanNeeded N received (VecSet.visitSeqCap N declared received) ∧ NoMoreThanNeeded N received (VecMap.visitMapCap N declared received)) ∧
    (declared = some received → VecSet.visitSeqCap N declared received = max N received ∧ VecMap.visitMapCap N declared received = max N received) ∧
    (∀ n, declared = some n → n ≤ VecSet.visitSeqCap N declared received ∧ n ≤ VecMap.visitMapCap N declared received) := by
  have hw : ∀ n, withCap N n = max N n := fun n => by unfold withCap; split <;> omega
  have key : ((∀ n, declared = some n → n ≤ N) → NoMoreThanNeeded N received (VecSet.visitSeqCap N declared received)) ∧
      (declared = some received → VecSet.visitSeqCap N declared received = max N received) ∧
      (∀ n, declared = some n → n ≤ VecSet.visitSeqCap N declared received) := by
    unfold VecSet.visitSeqCap
    refine ⟨fun h => ?_, fun h => ?_, fun n h => ?_⟩
    · have e : withCap N (declared.getD 0) = N := by
        rw [hw]
        cases declared with
        | none => simp
        | some n => have := h n rfl; simp; omega
      rw [e]
      have := ((CapInv.start N).pushes received).seen
      rwa [Nat.zero_add] at this
    · subst h
      rw [Option.getD_some, hw]
      exact pushesCap_room received (by omega)
    · subst h
      rw [Option.getD_some, hw]
      have := ((CapInv.start (max N n)).pushes received).le
      omega
  exact ⟨fun h => ⟨key.1 h, key.1 h⟩, fun h => ⟨key.2.1 h, key.2.1 h⟩, fun n h => ⟨key.2.2 n h, key.2.2 n h⟩⟩

example : VecSet.visitSeqCap 4 none 3 = 4 ∧ VecSet.visitSeqCap 4 none 5 = 8 ∧ VecSet.visitSeqCap 4 (some 5) 5 = 5 ∧ VecSet.visitSeqCap 4 (some 1000000) 0 = 1000000 := by decide +kernel

/-! ### Histories -/
section history
variable {T : Type _} [Ord T] [TransOrd T]

theorem capAfter_spec {s : VecSet T} (hs : Built s) (op : SetOp T) (ok : op.Ok) {N cap M : Nat} (hl : s.len ≤ cap) (hN : N ≤ cap) (hM : cap ≤ max N (4 * M)) (hn : op.need s ≤ M)
    (h0 : M ≤ N → cap = N) :
    (op.exec s).1.len ≤ op.capAfter s cap ∧ N ≤ op.capAfter s cap ∧ op.capAfter s cap ≤ max N (4 * M) ∧ (M ≤ N → op.capAfter s cap = N) := by
  have conv : ∀ o : Bool, (if o then (idConverter : T → Call T) else cloneConverter) = idConverter ∨ (if o then (idConverter : T → Call T) else cloneConverter) = cloneConverter := by
    intro o; cases o
    · exact .inr rfl
    · exact .inl rfl
  have keep : (op.exec s).1.len ≤ s.len → op.capAfter s cap = cap →
      (op.exec s).1.len ≤ op.capAfter s cap ∧ N ≤ op.capAfter s cap ∧ op.capAfter s cap ≤ max N (4 * M) ∧ (M ≤ N → op.capAfter s cap = N) := by
    intro h e
    rw [e]
    exact ⟨by omega, hN, hM, h0⟩
  cases op with
  | insert x =>
    have h := (C92_insert (T := T) (K := T) (V := Unit) cap).1 s x hs hl
    have hn : (s.insert x).1.len ≤ M := hn
    show (s.insert x).1.len ≤ VecSet.insertCap s cap x ∧ N ≤ VecSet.insertCap s cap x ∧ VecSet.insertCap s cap x ≤ _ ∧ (M ≤ N → VecSet.insertCap s cap x = N)
    rcases Nat.lt_or_ge cap (s.insert x).1.len with hlt | hge
    · have := h.2 hlt
      exact ⟨by omega, by omega, by omega, fun hMN => by have := h0 hMN; omega⟩
    · rw [h.1 hge]
      exact ⟨hge, hN, hM, h0⟩
  | remove x =>
    refine keep ?_ rfl
    show (s.remove x).1.elems.length ≤ s.elems.length
    unfold VecSet.remove
    split
    · exact (List.eraseIdx_sublist ..).length_le
    · exact Nat.le_refl _
  | retain p =>
    refine keep ?_ rfl
    have e : s.retain (fun _ x => .ret ((), p x)) () = (⟨s.elems.filter p⟩, (), .cont) := by
      rw [VecSet.retain, smallVecRetain_ret (keepRun_pure p s.elems ())]
    show (s.retain (fun _ x => .ret ((), p x)) ()).1.elems.length ≤ s.elems.length
    rw [e]
    exact List.length_filter_le _ _
  | extend l =>
    have h := C92_in_place_extend cap s hs l hl
    have hn : (s.extend l).1.len ≤ M := hn
    show (s.extend l).1.len ≤ VecSet.extendCap cap s l ∧ N ≤ VecSet.extendCap cap s l ∧ VecSet.extendCap cap s l ≤ _ ∧ (M ≤ N → VecSet.extendCap cap s l = N)
    refine ⟨h.2.1, ?_, by omega, fun hMN => ?_⟩
    · have : cap ≤ VecSet.extendCap cap s l := Nat.le_max_left _ _
      omega
    · have := h0 hMN
      rw [h.1.2 (by omega)]
      exact this
  | orAssign o b =>
    have h := C92_in_place_union cap _ (conv o) s b hs ok hl
    have e : ((SetOp.orAssign o b).exec s).1 = (s.bitorAssign b).1 := by
      cases o
      · exact congrArg (fun r => r.1) ((VecSet.bitorAssignRef_eq hs.ascending (Built.ascending ok)).trans (VecSet.bitorAssign_eq hs.ascending (Built.ascending ok)).symm)
      · rfl
    have hn : ((SetOp.orAssign o b).exec s).1.len ≤ M := hn
    rw [e] at hn ⊢
    show (s.bitorAssign b).1.len ≤ VecSet.bitorAssignCap (if o then idConverter else cloneConverter) cap s b ∧ N ≤ VecSet.bitorAssignCap (if o then idConverter else cloneConverter) cap s b ∧
      VecSet.bitorAssignCap (if o then idConverter else cloneConverter) cap s b ≤ _ ∧ (M ≤ N → VecSet.bitorAssignCap (if o then idConverter else cloneConverter) cap s b = N)
    refine ⟨h.2.1, ?_, by omega, fun hMN => ?_⟩
    · have : cap ≤ VecSet.bitorAssignCap (if o then idConverter else cloneConverter) cap s b := Nat.le_max_left _ _
      omega
    · have := h0 hMN
      rw [h.1.2 (by omega)]
      exact this
  | andAssign o b =>
    have e : ((SetOp.andAssign o b).exec s).1 = (s.bitandAssign b).1 := by
      cases o
      · exact congrArg (fun r => r.1) ((VecSet.bitandAssignRef_eq hs.ascending (Built.ascending ok)).trans (VecSet.bitandAssign_eq hs.ascending (Built.ascending ok)).symm)
      · rfl
    refine keep ?_ (((C92_in_place_shrinking (K := T) (V := Unit) (W := Unit) cap).1 _ s b hl).1)
    rw [e]
    have h1 := merged_len (AlgebraOp.sim (growTo s.len) (conv := idConverter) (fun x y h => by injection h with h; exact h.symm) .intersection) (fun _ _ h => h.ref) (new_acc s.elems b.elems) s.len
    exact Nat.le_trans h1 (Nat.le_of_eq ((C92_in_place_shrinking (K := T) (V := Unit) (W := Unit) s.len).1 idConverter s b (Nat.le_refl _)).1)
  | xorAssign o b =>
    have h := C92_in_place_xor cap _ (conv o) s b hs ok hl
    have e : ((SetOp.xorAssign o b).exec s).1 = (s.bitxorAssign b).1 := by
      cases o
      · exact congrArg (fun r => r.1) ((VecSet.bitxorAssignRef_eq hs.ascending (Built.ascending ok)).trans (VecSet.bitxorAssign_eq hs.ascending (Built.ascending ok)).symm)
      · rfl
    have hn : (s.union b).1.len ≤ M := hn
    rw [e]
    show (s.bitxorAssign b).1.len ≤ VecSet.bitxorAssignCap (if o then idConverter else cloneConverter) cap s b ∧ N ≤ VecSet.bitxorAssignCap (if o then idConverter else cloneConverter) cap s b ∧
      VecSet.bitxorAssignCap (if o then idConverter else cloneConverter) cap s b ≤ _ ∧ (M ≤ N → VecSet.bitxorAssignCap (if o then idConverter else cloneConverter) cap s b = N)
    refine ⟨h.2.1, ?_, by omega, fun hMN => ?_⟩
    · have : cap ≤ VecSet.bitxorAssignCap (if o then idConverter else cloneConverter) cap s b := Nat.le_max_left _ _
      omega
    · have := h0 hMN
      rw [h.1 (by omega)]
      exact this
  | subAssign o b =>
    have e : ((SetOp.subAssign o b).exec s).1 = (s.subAssign b).1 := by
      cases o
      · exact congrArg (fun r => r.1) ((VecSet.subAssignRef_eq hs.ascending (Built.ascending ok)).trans (VecSet.subAssign_eq hs.ascending (Built.ascending ok)).symm)
      · rfl
    refine keep ?_ (((C92_in_place_shrinking (K := T) (V := Unit) (W := Unit) cap).1 _ s b hl).2)
    rw [e]
    have h1 := merged_len (AlgebraOp.sim (growTo s.len) (conv := idConverter) (fun x y h => by injection h with h; exact h.symm) .difference) (fun _ _ h => h.ref) (new_acc s.elems b.elems) s.len
    exact Nat.le_trans h1 (Nat.le_of_eq ((C92_in_place_shrinking (K := T) (V := Unit) (W := Unit) s.len).1 idConverter s b (Nat.le_refl _)).2)
  | contains x => exact keep (Nat.le_refl _) rfl
  | len => exact keep (Nat.le_refl _) rfl
  | isEmpty => exact keep (Nat.le_refl _) rfl

/-- **C92 (histories).** Start with a collected set and apply any sequence of `insert`, `remove`, `retain`, `extend`, `|=`, `&=`, `^=`, `-=`: as long as the set (and before each `^=` the union) never has
more than `N` elements, its elements never leave the inline storage; in general its buffer is never more than four times as large as the largest such number. -/
theorem C92_history (N hint : Nat) (items : List T) (ops : List (SetOp T)) (ok : ∀ op ∈ ops, op.Ok) :
    (runCap (VecSet.fromIter items) (VecSet.fromIterCap N hint items) ops).1 = (execSet (VecSet.fromIter items) ops).1 ∧
    (peakNeed (VecSet.fromIter items) ops ≤ N → (runCap (VecSet.fromIter items) (VecSet.fromIterCap N hint items) ops).2 = N) ∧
    (execSet (VecSet.fromIter items) ops).1.len ≤ (runCap (VecSet.fromIter items) (VecSet.fromIterCap N hint items) ops).2 ∧
    (runCap (VecSet.fromIter items) (VecSet.fromIterCap N hint items) ops).2 ≤ max N (4 * peakNeed (VecSet.fromIter items) ops) := by
  have go : ∀ (ops : List (SetOp T)) (s : VecSet T) (cap M : Nat), (∀ op ∈ ops, op.Ok) → Built s → s.len ≤ cap → N ≤ cap → cap ≤ max N (4 * M) → (M ≤ N → cap = N) → peakNeed s ops ≤ M →
      (runCap s cap ops).1 = (execSet s ops).1 ∧ (M ≤ N → (runCap s cap ops).2 = N) ∧ (execSet s ops).1.len ≤ (runCap s cap ops).2 ∧ (runCap s cap ops).2 ≤ max N (4 * M) := by
    intro ops
    induction ops with
    | nil => intro s cap M _ _ hl _ hM h0 _; exact ⟨rfl, h0, hl, hM⟩
    | cons op ops ih =>
      intro s cap M ok hs hl hN hM h0 hp
      rw [peakNeed] at hp
      have hop := ok op (by simp)
      obtain ⟨c1, c2, c3, c4⟩ := capAfter_spec hs op hop hl hN hM (by omega) h0
      have hs' : Built (op.exec s).1 := .fromBTreeSet _ (setStep hs.ascending (fun _ => Iff.rfl) op hop).1
      exact ih _ _ M (fun o ho => ok o (by simp [ho])) hs' c1 c2 c3 c4 (by omega)
  have h := (C92_collect N hint items).2.2
  have hle : (VecSet.fromIter items).len ≤ peakNeed (VecSet.fromIter items) ops := by
    cases ops with
    | nil => exact Nat.le_refl _
    | cons op ops => rw [peakNeed]; omega
  exact go ops _ _ _ ok (.fromIter items) (by omega) (by omega) (by omega) (fun _ => by omega) (Nat.le_refl _)

end history

/-- a history that stays inline in `[u32; 4]` and one that needs the heap for a while (and stays there) -/
example : (runCap (VecSet.fromIter [1, 2, 3]) (VecSet.fromIterCap 4 3 [1, 2, 3]) [.insert 5, .remove 1, .orAssign false ⟨[2, 9]⟩, .subAssign true ⟨[9]⟩]).2 = 4 ∧
    (runCap (VecSet.fromIter [1, 2, 3]) (VecSet.fromIterCap 4 3 [1, 2, 3]) [.insert 5, .remove 1, .orAssign false ⟨[2, 9]⟩, .subAssign true ⟨[9]⟩]).1.elems = [2, 3, 5] ∧
    peakNeed (VecSet.fromIter [1, 2, 3]) [.insert 5, .remove 1, .orAssign false ⟨[2, 9]⟩, .subAssign true ⟨[9]⟩] = 4 := by decide +kernel
example : (runCap (VecSet.fromIter [1, 2, 3]) (VecSet.fromIterCap 4 3 [1, 2, 3]) [.extend [6, 7, 8], .retain (fun x => x < 3)]).2 = 8 := by decide +kernel
end Verif
