import Verif.Props.TotalVecSet
import Verif.Props.TotalVecMap
/-!
# What the hasher is fed tells containers apart: C09, C33, C58

`C09_hash` and `C58_hash` say that equal containers feed the same data to a hasher. The converse is what makes them useful as keys of a hash map, also as a component of
a larger key: the data that is fed determines the container, and where it ends.
-/
namespace Verif

/-- a sequence of calls of a hasher: `write_usize` of the length, and what the elements feed -/
def calls {H : Type} (f : Nat × List H) : List (Nat ⊕ H) := .inl f.1 :: f.2.map .inr

theorem calls_prefix_free {H : Type} {l l' : List H} {r r' : List (Nat ⊕ H)} (e : calls (l.length, l) ++ r = calls (l'.length, l') ++ r') : l = l' ∧ r = r' := by
  unfold calls at e
  injection e with e1 e2
  injection e1 with e1
  have e3 := List.append_inj e2 (by simpa using e1)
  refine ⟨?_, e3.2⟩
  have := congrArg (List.filterMap fun x : Nat ⊕ H => match x with | .inl _ => none | .inr y => some y) e3.1
  simpa [List.filterMap_map, Function.comp_def] using this

theorem all_zip {α H : Type} {h : α → H} {p : α × α → Bool} (hs : ∀ x y, h x = h y → p (x, y) = true) : ∀ (l m : List α), l.map h = m.map h → (l.zip m).all p = true
  | [], _, _ => rfl
  | x :: l, [], e => by cases e
  | x :: l, y :: m, e => by
    injection e with e1 e2
    rw [List.zip_cons_cons, List.all_cons, hs x y e1, all_zip hs l m e2]
    rfl

/-- **C09.** If what the elements feed to the hasher tells them apart, then what sets feed tells the sets apart: whatever is fed after them (`r`, `r'`), the calls are
the same only for equal sets. -/
theorem C09_hash_tells_apart {T H : Type} [Ord T] (h : T → H) (hs : ∀ x y, h x = h y → compare x y = .eq) (a b : VecSet T) (r r' : List (Nat ⊕ H))
    (e : calls (a.hashFeed h) ++ r = calls (b.hashFeed h) ++ r') : a.eq b = true ∧ r = r' := by
  have fa : a.hashFeed h = ((a.elems.map h).length, a.elems.map h) := by rw [List.length_map]; rfl
  have fb : b.hashFeed h = ((b.elems.map h).length, b.elems.map h) := by rw [List.length_map]; rfl
  rw [fa, fb] at e
  obtain ⟨e1, e2⟩ := calls_prefix_free e
  have hl : a.elems.length = b.elems.length := by simpa using congrArg List.length e1
  refine ⟨?_, e2⟩
  rw [VecSet.eq, hl, beq_self_eq_true, Bool.true_and]
  exact all_zip (fun x y hxy => by simp [hs x y hxy]) _ _ e1

/-- **C09.** A set feeds the hasher what the slice of its elements (`as_ref`) does. -/
theorem C09_hash_of_slice {T H : Type} [Ord T] (h : T → H) (a : VecSet T) : calls (a.hashFeed h) = .inl a.asSlice.length :: a.asSlice.map fun x => .inr (h x) := by
  simp only [calls, VecSet.hashFeed, List.map_map]
  rfl

/-- **C33.** The same for sets with a negation flag: different calls for different sets, also for a set and its complement. -/
theorem C33_hash_tells_apart {T H : Type} [Ord T] (h : T → H) (hs : ∀ x y, h x = h y → compare x y = .eq) (a b : TotalVecSet T) (e : a.hashFeed h = b.hashFeed h) :
    a.eq b = true := by
  obtain ⟨ea, na⟩ := a
  obtain ⟨eb, nb⟩ := b
  simp only [TotalVecSet.hashFeed, Prod.mk.injEq] at e
  obtain ⟨e, rfl⟩ := e
  have := (C09_hash_tells_apart h hs ea eb [] [] (by rw [e])).1
  simp [TotalVecSet.eq, this]

/-- **C58.** If what the entries feed to the hasher tells them apart, then what maps feed tells the maps apart, whatever is fed after them. -/
theorem C58_hash_tells_apart {K V H : Type} [Ord K] [BEq V] (h : K × V → H) (hs : ∀ x y, h x = h y → compare x.1 y.1 = .eq ∧ (x.2 == y.2) = true) (a b : VecMap K V)
    (r r' : List (Nat ⊕ H)) (e : calls (a.hashFeed h) ++ r = calls (b.hashFeed h) ++ r') : a.eq b = true ∧ r = r' := by
  have fa : a.hashFeed h = ((a.entries.map h).length, a.entries.map h) := by rw [List.length_map]; rfl
  have fb : b.hashFeed h = ((b.entries.map h).length, b.entries.map h) := by rw [List.length_map]; rfl
  rw [fa, fb] at e
  obtain ⟨e1, e2⟩ := calls_prefix_free e
  have hl : a.entries.length = b.entries.length := by simpa using congrArg List.length e1
  refine ⟨?_, e2⟩
  rw [VecMap.eq, hl, beq_self_eq_true, Bool.true_and]
  exact all_zip (fun x y hxy => by simp [(hs x y hxy).1, (hs x y hxy).2]) _ _ e1

/-- **C58.** A map feeds the hasher what the slice of its entries (`as_ref`) does. -/
theorem C58_hash_of_slice {K V H : Type} [Ord K] (h : K × V → H) (a : VecMap K V) : calls (a.hashFeed h) = .inl a.asSlice.length :: a.asSlice.map fun x => .inr (h x) := by
  simp only [calls, VecMap.hashFeed, List.map_map]
  rfl

/-- a hash of elements that tells them apart, and two sets that are different although all elements of one are fed first -/
example : (∀ x y : Nat, id x = id y → compare x y = .eq) ∧ calls ((⟨[1]⟩ : VecSet Nat).hashFeed id) ++ [.inr 2] ≠ calls ((⟨[1, 2]⟩ : VecSet Nat).hashFeed id) ∧
    calls ((⟨[1]⟩ : VecSet Nat).hashFeed id) ++ [.inr 2] = [.inl 1, .inr 1, .inr 2] := by
  refine ⟨fun x y h => Nat.compare_eq_eq.2 h, by decide, by decide⟩

end Verif
