import Verif.Model.Storage
import Verif.Model.RadixDb
/-!
# The storages keep their contract (C68)

`view` forgets which empty files exist: a missing file is like an empty file.
-/
namespace Verif.Store
variable {N B : Type} [DecidableEq N]

/-- the contents of a directory -/
def view (d : Dir N B) : Contents N B := fun n => (d n).getD []

theorem view_set (d : Dir N B) (n : N) (o : Option (List B)) : view (d.set n o) = (view d).set n (o.getD []) := by
  funext m
  simp only [view, Dir.set, Contents.set]
  split <;> rfl

theorem Contents.set_self (c : Contents N B) (n : N) : c.set n (c n) = c := by
  funext m
  simp only [Contents.set]
  split
  · next h => rw [h]
  · rfl

theorem Contents.set_comm (c : Contents N B) {m n : N} (h : m ≠ n) (x y : List B) : (c.set m x).set n y = (c.set n y).set m x := by
  funext k
  simp only [Contents.set]
  by_cases h1 : k = n
  · by_cases h2 : k = m
    · exact absurd (h2.symm.trans h1) h
    · rw [if_pos h1, if_neg h2, if_pos h1]
  · by_cases h2 : k = m
    · rw [if_neg h1, if_pos h2, if_pos h2]
    · rw [if_neg h1, if_neg h2, if_neg h2, if_neg h1]

theorem isEmpty_eq {l : List B} (h : l.isEmpty = true) : l = [] := List.isEmpty_iff.1 h

/-! ## C68 -/

/-- one operation of `MemStorage` does what the contract says -/
theorem mem_step (d : Dir N B) (op : Op N B) : (view (memStep d op).1, (memStep d op).2) = (view d).step op := by
  cases op with
  | append n chunk =>
    simp only [memStep, memAppend, Contents.step]
    split
    · next h => rw [isEmpty_eq h, List.append_nil, Contents.set_self]
    · cases hn : d n with
      | none => simp only [view_set, Option.getD_some, view, hn, Option.getD_none]
      | some v => simp only [view_set, Option.getD_some, view, hn]
  | load n =>
    simp only [memStep, memLoad, Contents.step]
    cases hn : d n with
    | none => simp only [view, hn, Option.getD_none]
    | some v => simp only [view, hn, Option.getD_some]
  | mv a b =>
    simp only [memStep, memMv, Contents.step]
    by_cases h : a = b
    · simp [h]
    · rw [if_pos h, if_neg h]
      cases hn : d a with
      | none =>
        simp only [view_set, Option.getD_none]
        rw [Contents.set_comm _ h]
        simp [view, hn]
      | some v =>
        have e : view d a = v := by simp [view, hn]
        simp only
        split
        · simp only [view_set, Option.getD_none, Option.getD_some, e]
          rw [Contents.set_comm _ h]
        · next h' =>
          have : v = [] := by simpa using h'
          simp only [view_set, Option.getD_none, e, this]
          rw [Contents.set_comm _ h]

/-- **C68.** `MemStorage` keeps the contract: in every history of operations, from every state, no operation fails, every `load` shows what the
contract says, and the contents afterwards are what the contract says. -/
theorem C68_mem_contract (d : Dir N B) (ops : List (Op N B)) :
    (memRun d ops).2 = ((view d).run ops).2 ∧ view (memRun d ops).1 = ((view d).run ops).1 := by
  induction ops generalizing d with
  | nil => exact ⟨rfl, rfl⟩
  | cons op ops ih =>
    have h := mem_step d op
    have h1 : view (memStep d op).1 = ((view d).step op).1 := congrArg Prod.fst h
    have h2 : (memStep d op).2 = ((view d).step op).2 := congrArg Prod.snd h
    obtain ⟨i1, i2⟩ := ih (memStep d op).1
    rw [h1] at i1 i2
    simp only [memRun, Contents.run, h2, i1, i2]
    exact ⟨trivial, trivial⟩

/-- **C68.** What the contract says about *existence*: appending nothing and loading create no file, and no operation leaves an empty file in a
`MemStorage` that has none (a new one has none); so a file exists iff it has contents. -/
theorem C68_mem_files (ops : List (Op N B)) (n : N) :
    (memRun (fun _ => none) ops).1 n ≠ some [] ∧
    (∀ d : Dir N B, (memStep d (.append n [])).1 = d ∧ (memStep d (.load n)).1 = d) := by
  refine ⟨?_, fun d => ⟨rfl, by simp only [memStep, memLoad]; split <;> rfl⟩⟩
  suffices h : ∀ (ops : List (Op N B)) (d : Dir N B), (∀ n, d n ≠ some []) → ∀ n, (memRun d ops).1 n ≠ some [] from
    h ops _ (fun _ h => by cases h) n
  intro ops
  induction ops with
  | nil => intro d h; exact h
  | cons op ops ih =>
    intro d h
    refine ih _ ?_
    have hset : ∀ (d : Dir N B) (n : N) (o : Option (List B)), (∀ n, d n ≠ some []) → o ≠ some [] → ∀ m, d.set n o m ≠ some [] := by
      intro d n o hd ho m
      simp only [Dir.set]
      split
      · exact ho
      · exact hd m
    cases op with
    | append m chunk =>
      simp only [memStep, memAppend]
      split
      · exact h
      · next hc =>
        have hc : chunk ≠ [] := fun e => hc (by rw [e]; rfl)
        split
        · refine hset _ _ _ h ?_; simp [hc]
        · refine hset _ _ _ h ?_; simp [hc]
    | load m => simp only [memStep, memLoad]; split <;> exact h
    | mv a b =>
      simp only [memStep, memMv]
      split
      · split
        · split
          · refine hset _ _ _ (hset _ _ _ h (by simp)) ?_
            next hv _ => exact fun e => h a (by rw [hv, Option.some.inj e])
          · exact hset _ _ _ (hset _ _ _ h (by simp)) (by simp)
        · exact hset _ _ _ (hset _ _ _ h (by simp)) (by simp)
      · exact h

/-- one operation of `FileStorage` -/
theorem file_step (fl : Fault) (d : Dir N B) (op : Op N B) :
    ((fileStep fl d op).2 ≠ .err → (view (fileStep fl d op).1, (fileStep fl d op).2) = (view d).step op) ∧
    ((fileStep fl d op).2 = .err →
      match op with
      | .append n chunk => ∃ k, view (fileStep fl d op).1 = (view d).set n (view d n ++ chunk.take k)
      | .load _ | .mv _ _ => (fileStep fl d op).1 = d) := by
  cases op with
  | append n chunk =>
    have happ : view (d.set n (some ((d n).getD [] ++ chunk))) = (view d).set n (view d n ++ chunk) := by
      rw [view_set]; rfl
    have happ' : ∀ k, view (d.set n (some ((d n).getD [] ++ chunk.take k))) = (view d).set n (view d n ++ chunk.take k) := by
      intro k; rw [view_set]; rfl
    simp only [fileStep, fileAppend, Contents.step]
    split
    · next h => exact ⟨fun _ => by rw [isEmpty_eq h, List.append_nil, Contents.set_self], fun h => by cases h⟩
    · cases fl with
      | openFails => exact ⟨fun h => absurd rfl h, fun _ => ⟨0, by simp [Contents.set_self]⟩⟩
      | writeFails k => exact ⟨fun h => absurd rfl h, fun _ => ⟨k, happ' k⟩⟩
      | none => exact ⟨fun _ => by rw [← happ], fun h => by cases h⟩
      | readFails => exact ⟨fun _ => by rw [← happ], fun h => by cases h⟩
      | renameFails => exact ⟨fun _ => by rw [← happ], fun h => by cases h⟩
      | removeFails => exact ⟨fun _ => by rw [← happ], fun h => by cases h⟩
  | load n =>
    simp only [fileStep, fileLoad, Contents.step]
    cases hn : d n <;> cases fl <;> simp [view, hn]
  | mv a b =>
    simp only [fileStep, fileMv, Contents.step]
    by_cases h : a = b
    · simp [h]
    · rw [if_pos h, if_neg h]
      have key : fl ≠ .renameFails → ∀ v, d a = some v → (view ((d.set a none).set b (some v)) : Contents N B) = ((view d).set b (view d a)).set a [] := by
        intro _ v hv
        simp only [view_set, Option.getD_none, Option.getD_some]
        rw [Contents.set_comm _ h]
        simp [view, hv]
      cases hn : d a with
      | none =>
        have e : view d a = [] := by simp [view, hn]
        have hr : (view (d.set b none) : Contents N B) = ((view d).set b (view d a)).set a [] := by
          rw [view_set, e, Contents.set_comm _ (Ne.symm h), ← e, Contents.set_self, e]; rfl
        cases hb : d b <;> cases fl <;> simp [rename, removeFile, hn, hb, hr]
      | some v => cases fl <;> simp [rename, hn, key]

/-- **C68.** `FileStorage` under failing system calls: in every directory, with every fault, an operation that returns `Ok` did what the contract says;
one that returns an error changed nothing, except that a failed `append` may have appended a prefix of the chunk. In particular `mv` is
atomic. -/
theorem C68_file_faults (fl : Fault) (d : Dir N B) (op : Op N B) :
    ((fileStep fl d op).2 ≠ .err → (view (fileStep fl d op).1, (fileStep fl d op).2) = (view d).step op) ∧
    ((fileStep fl d op).2 = .err →
      match op with
      | .append n chunk => ∃ k, view (fileStep fl d op).1 = (view d).set n (view d n ++ chunk.take k)
      | .load _ | .mv _ _ => (fileStep fl d op).1 = d) := file_step fl d op

/-- **C68.** A whole history of `FileStorage` operations with arbitrary faults in which no operation returned an error behaves as the contract says. -/
theorem C68_file_history (d : Dir N B) (ops : List (Fault × Op N B)) (h : .err ∉ (fileRun d ops).2) :
    (fileRun d ops).2 = ((view d).run (ops.map Prod.snd)).2 ∧ view (fileRun d ops).1 = ((view d).run (ops.map Prod.snd)).1 := by
  induction ops generalizing d with
  | nil => exact ⟨rfl, rfl⟩
  | cons op ops ih =>
    simp only [fileRun, List.mem_cons, not_or] at h
    have hs := (file_step op.1 d op.2).1 (Ne.symm h.1)
    have h1 : view (fileStep op.1 d op.2).1 = ((view d).step op.2).1 := congrArg Prod.fst hs
    have h2 : (fileStep op.1 d op.2).2 = ((view d).step op.2).2 := congrArg Prod.snd hs
    obtain ⟨i1, i2⟩ := ih _ h.2
    rw [h1] at i1 i2
    simp only [fileRun, List.map_cons, Contents.run, h2, i1, i2]
    exact ⟨trivial, trivial⟩

/-- the two names differ and neither file exists -/
def bothMissing (d : Dir N B) : Op N B → Prop
  | .mv a b => a ≠ b ∧ d a = none ∧ d b = none
  | _ => False

/-- **C68.** `FileStorage` without failing system calls: the contents always are what the contract says, and an operation returns what the contract
says unless it is a `mv` where neither file exists — that, and only that, returns an error. -/
theorem C68_file_contract_partial (d : Dir N B) (op : Op N B) :
    view (fileStep .none d op).1 = ((view d).step op).1 ∧
    ((fileStep .none d op).2 = .err ↔ bothMissing d op) ∧
    (¬ bothMissing d op → (fileStep .none d op).2 = ((view d).step op).2) := by
  obtain ⟨h1, h2⟩ := file_step .none d op
  have hiff : (fileStep .none d op).2 = .err ↔ bothMissing d op := by
    cases op with
    | append n chunk => simp only [fileStep, fileAppend, bothMissing]; split <;> simp
    | load n => simp only [fileStep, fileLoad, bothMissing]; split <;> simp
    | mv a b =>
      simp only [fileStep, fileMv, bothMissing]
      by_cases h : a = b
      · simp [h]
      · cases hn : d a <;> cases hb : d b <;> simp [rename, removeFile, hn, hb, h]
  refine ⟨?_, hiff, fun h => ?_⟩
  · by_cases he : (fileStep .none d op).2 = .err
    · have hm := hiff.1 he
      have hd := h2 he
      cases op with
      | append n chunk => exact hm.elim
      | load n => rw [hd]; rfl
      | mv a b =>
        obtain ⟨hab, ha, hb⟩ := hm
        simp only at hd
        rw [hd]
        funext m
        simp only [Contents.step, if_neg hab, Contents.set, view]
        split
        · next e => rw [e, ha]; rfl
        · split
          · next e => rw [e, hb, ha]
          · rfl
    · exact congrArg Prod.fst (h1 he)
  · exact congrArg Prod.snd (h1 (fun he => h (hiff.1 he)))

/-- **C68 (refutation).** The full contract is false of `FileStorage`: moving a file that does not exist to a name that does not exist is `Ok` by the
contract (and in `MemStorage`) but an error in `FileStorage`. -/
theorem C68_file_mv_missing (a b : N) (hab : a ≠ b) :
    (memStep (fun _ => none : Dir N B) (.mv a b)).2 = .ok ∧ ((view (fun _ => none : Dir N B)).step (.mv a b)).2 = .ok ∧
    (fileStep .none (fun _ => none : Dir N B) (.mv a b)).2 = .err := by
  refine ⟨?_, rfl, ?_⟩
  · simp [memStep, memMv, hab]
  · simp [fileStep, fileMv, rename, removeFile, hab]

/-- the files an operation may touch -/
def names : Op N B → List N
  | .append n _ => [n]
  | .load n => [n]
  | .mv a b => [a, b]

/-- **C68.** Isolation: an operation leaves all other files alone, whatever goes wrong. -/
theorem C68_frame (fl : Fault) (d : Dir N B) (op : Op N B) (n : N) (h : n ∉ names op) :
    (memStep d op).1 n = d n ∧ (fileStep fl d op).1 n = d n := by
  have hs : ∀ (d : Dir N B) (m : N) (o : Option (List B)), n ≠ m → d.set m o n = d n := by
    intro d m o hm; simp [Dir.set, hm]
  cases op with
  | append m chunk =>
    have hm : n ≠ m := by simpa [names] using h
    constructor
    · simp only [memStep, memAppend]; split
      · rfl
      · split <;> exact hs _ _ _ hm
    · simp only [fileStep, fileAppend]; split
      · rfl
      · split
        · rfl
        · exact hs _ _ _ hm
        · exact hs _ _ _ hm
  | load m =>
    constructor
    · simp only [memStep, memLoad]; split <;> rfl
    · simp only [fileStep, fileLoad]; split
      · rfl
      · split <;> rfl
  | mv a b =>
    have hm : n ≠ a ∧ n ≠ b := by simpa [names] using h
    constructor
    · simp only [memStep, memMv]
      split
      · split
        · split
          · exact (hs _ _ _ hm.2).trans (hs _ _ _ hm.1)
          · exact (hs _ _ _ hm.2).trans (hs _ _ _ hm.1)
        · exact (hs _ _ _ hm.2).trans (hs _ _ _ hm.1)
      · rfl
    · simp only [fileStep, fileMv]
      split
      · split
        · rfl
        · split
          · next hr =>
            simp only [rename] at hr
            split at hr
            · cases hr; exact (hs _ _ _ hm.2).trans (hs _ _ _ hm.1)
            · cases hr
          · split
            · rfl
            · simp only [removeFile]; split
              · exact hs _ _ _ hm.2
              · rfl
      · rfl

end Verif.Store
