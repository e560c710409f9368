import Verif.Spec.RadixDbShared
import Verif.Props.RadixDb
import Verif.Lemmas.RadixDbEval
/-!
# C71: several databases on one storage
-/
namespace Verif.Shared
variable {K V : Type _}

theorem tmpName_inj {a b : String} (h : tmpName a = tmpName b) : a = b := by
  have := congrArg String.toList h
  simp only [tmpName, String.toList_append] at this
  exact String.toList_inj.1 (List.append_cancel_right this)

theorem tmpName_ne (a : String) : a ≠ tmpName a := by
  intro h
  have := congrArg (fun s : String => s.toList.length) h
  simp [tmpName, String.toList_append] at this

private theorem load_files {name tmp : File K V} {d : Db K V} (h : Db.load name tmp = some d) : d.name = name ∧ d.tmp = tmp := by
  simp only [Db.load] at h
  split at h
  · cases h; exact ⟨rfl, rfl⟩
  · rename_i a ha
    cases hn : loadNode name (St.start true : St K V).heap [] (name.length - 1) a with
    | none => simp [hn] at h
    | some r =>
      cases hq : allArcs r.1 [] r.2.2 with
      | none => simp [hn, hq] at h
      | some q => simp only [hn, hq, Option.bind_eq_bind, Option.bind_some] at h; cases h; exact ⟨rfl, rfl⟩
  · cases h

/-- database `i` with its files; `L i`: as it will be opened, if it is not open yet -/
private def World.pic (w : World K V) (L : Nat → Db K V) (i : Nat) : Db K V :=
  match w.dbs[i]? with
  | some c => c.onFiles w.files
  | none => L i

private theorem apart_get {N : List String} (h : Apart N) {i j : Nat} {a b : String} (hi : N[i]? = some a) (hj : N[j]? = some b) (hne : i ≠ j) :
    a ≠ b ∧ a ≠ tmpName b ∧ b ≠ tmpName a := by
  obtain ⟨hi', rfl⟩ := List.getElem?_eq_some_iff.1 hi
  obtain ⟨hj', rfl⟩ := List.getElem?_eq_some_iff.1 hj
  rcases Nat.lt_or_gt_of_ne hne with hlt | hlt
  · exact List.pairwise_iff_getElem.1 h i j hi' hj' hlt
  · obtain ⟨h1, h2, h3⟩ := List.pairwise_iff_getElem.1 h j i hj' hi' hlt
    exact ⟨fun e => h1 e.symm, h3, h2⟩

private theorem putFiles_other {files : String → File K V} {nm x : String} {d : Db K V} (h1 : x ≠ nm) (h2 : x ≠ tmpName nm) :
    putFiles files nm d x = files x := by simp [putFiles, putFile, h1, h2]
private theorem putFiles_self {files : String → File K V} {nm : String} {d : Db K V} : putFiles files nm d nm = d.name := by
  simp [putFiles, putFile, tmpName_ne nm]
private theorem putFiles_tmp {files : String → File K V} {nm : String} {d : Db K V} : putFiles files nm d (tmpName nm) = d.tmp := by
  simp [putFiles, putFile]

private theorem independent (L : Nat → Db K V) : ∀ (script : List (WorldOp K V)) (w : World K V) (D : Nat → Db K V) (os : Nat → List (List (Obs K V))),
    Apart (w.dbs.map (·.nm) ++ openedNames script) →
    (∀ j nm, (openedNames script)[j]? = some nm → Db.load (w.files nm) (w.files (tmpName nm)) = some (L (w.dbs.length + j))) →
    (∀ i < (w.dbs.map (·.nm) ++ openedNames script).length, (w.pic L i).history (opsOf i w.dbs.length script) = some (D i, os i)) →
    ∃ w' obs, w.history script = some (w', obs) ∧ w'.dbs.map (·.nm) = w.dbs.map (·.nm) ++ openedNames script ∧
      ∀ i < w'.dbs.length, w'.pic L i = D i ∧ obsOf i obs = os i
  | [], w, D, os, _, _, h => by
    refine ⟨w, [], rfl, by simp [openedNames], fun i hi => ?_⟩
    have := h i (by simpa [openedNames] using hi)
    simp only [opsOf, Db.history, Option.some.injEq, Prod.mk.injEq] at this
    exact ⟨this.1, this.2⟩
  | .opened nm :: script, w, D, os, hap, hf, h => by
    have e1 := hf 0 nm (by simp [openedNames])
    rw [Nat.add_zero] at e1
    obtain ⟨e2, e3⟩ := load_files e1
    have hst : w.step (.opened nm) = some ({ files := w.files, dbs := w.dbs ++ [⟨nm, (L w.dbs.length).st, (L w.dbs.length).ser, (L w.dbs.length).pos⟩] }, []) := by
      simp only [World.step, e1]
    have hpic : ∀ i, ({ files := w.files, dbs := w.dbs ++ [⟨nm, (L w.dbs.length).st, (L w.dbs.length).ser, (L w.dbs.length).pos⟩] } : World K V).pic L i = w.pic L i := by
      intro i
      simp only [World.pic]
      by_cases hi : i < w.dbs.length
      · rw [List.getElem?_append_left hi]
      · rw [List.getElem?_append_right (by omega), List.getElem?_eq_none (l := w.dbs) (by omega)]
        by_cases h0 : i - w.dbs.length = 0
        · rw [h0]
          have : i = w.dbs.length := by omega
          subst this
          simp only [List.getElem?_cons_zero, Conn.onFiles, ← e2, ← e3]
        · rw [List.getElem?_eq_none (by simp; omega)]
    obtain ⟨w', obs, k1, k2, k3⟩ := independent L script
      { files := w.files, dbs := w.dbs ++ [⟨nm, (L w.dbs.length).st, (L w.dbs.length).ser, (L w.dbs.length).pos⟩] } D os (by simpa [openedNames] using hap)
      (fun j nm' h' => by
        have := hf (j + 1) nm' (by simpa [openedNames] using h')
        simpa [Nat.add_assoc, Nat.add_comm 1 j] using this)
      (fun i hi => by
        rw [hpic]
        have := h i (by simpa [openedNames, Nat.add_assoc, Nat.add_comm, Nat.add_left_comm] using hi)
        simpa [opsOf] using this)
    refine ⟨w', obs, ?_, by simpa [openedNames] using k2, k3⟩
    simp only [World.history, hst, k1, List.nil_append]
  | .on j op :: script, w, D, os, hap, hf, h => by
    cases hj : w.dbs[j]? with
    | none =>
      have hlen : w.dbs.length ≤ j := List.getElem?_eq_none_iff.1 hj
      obtain ⟨w', obs, k1, k2, k3⟩ := independent L script w D os hap hf (fun i hi => by
        have := h i hi
        simp only [opsOf] at this
        rw [if_neg (by omega)] at this
        exact this)
      refine ⟨w', obs, ?_, k2, k3⟩
      simp only [World.history, World.step, hj, k1, List.nil_append]
    | some c =>
      have hlen : j < w.dbs.length := (List.getElem?_eq_some_iff.1 hj).1
      have hjN : ∀ rest : List String, (w.dbs.map (·.nm) ++ rest)[j]? = some c.nm := by
        intro rest
        rw [List.getElem?_append_left (by simpa using hlen)]; simp [hj]
      have hj0 := h j (by simp only [List.length_append, List.length_map]; omega)
      simp only [opsOf, hlen, and_self, if_true, Db.history] at hj0
      have hpj : w.pic L j = c.onFiles w.files := by simp only [World.pic, hj]
      rw [hpj] at hj0
      cases hs : (c.onFiles w.files).step op with
      | none => rw [hs] at hj0; cases hj0
      | some x =>
        obtain ⟨d, o⟩ := x
        simp only [hs] at hj0
        cases hh : d.history (opsOf j w.dbs.length script) with
        | none => rw [hh] at hj0; cases hj0
        | some y =>
          obtain ⟨d2, os2⟩ := y
          simp only [hh, Option.some.injEq, Prod.mk.injEq] at hj0
          obtain ⟨hD, hos⟩ := hj0
          have hpicj : ({ files := putFiles w.files c.nm d, dbs := w.dbs.set j ⟨c.nm, d.st, d.ser, d.pos⟩ } : World K V).pic L j = d := by
            simp only [World.pic, List.getElem?_set_self hlen, Conn.onFiles, putFiles_self, putFiles_tmp]
          have hpici : ∀ i, i ≠ j →
              ({ files := putFiles w.files c.nm d, dbs := w.dbs.set j ⟨c.nm, d.st, d.ser, d.pos⟩ } : World K V).pic L i = w.pic L i := by
            intro i hij
            simp only [World.pic, List.getElem?_set_ne (Ne.symm hij)]
            cases hi : w.dbs[i]? with
            | none => rfl
            | some c' =>
              have hiN : (w.dbs.map (·.nm) ++ openedNames (.on j op :: script))[i]? = some c'.nm := by
                rw [List.getElem?_append_left (by simpa using (List.getElem?_eq_some_iff.1 hi).1)]; simp [hi]
              obtain ⟨a1, a2, a3⟩ := apart_get hap hiN (hjN _) hij
              simp only [Conn.onFiles]
              rw [putFiles_other a1 a2, putFiles_other (fun e => a3 e.symm) (fun e => a1 (tmpName_inj e))]
          have hnm : (w.dbs.set j ⟨c.nm, d.st, d.ser, d.pos⟩).map (·.nm) = w.dbs.map (·.nm) := by
            apply List.ext_getElem?
            intro i
            simp only [List.getElem?_map, List.getElem?_set]
            split
            · rename_i e; subst e; rw [hj]; rfl
            · rfl
          obtain ⟨w', obs, k1, k2, k3⟩ := independent L script
            { files := putFiles w.files c.nm d, dbs := w.dbs.set j ⟨c.nm, d.st, d.ser, d.pos⟩ } D (fun i => if i = j then os2 else os i)
            (by simp only [hnm]; exact hap)
            (fun q nm hq => by
              have hqN : (w.dbs.map (·.nm) ++ openedNames (.on j op :: script))[w.dbs.length + q]? = some nm := by
                rw [List.getElem?_append_right (by simp)]; simpa [openedNames] using hq
              obtain ⟨a1, a2, a3⟩ := apart_get hap hqN (hjN _) (by omega)
              dsimp only
              rw [putFiles_other a1 a2, putFiles_other (fun e => a3 e.symm) (fun e => a1 (tmpName_inj e))]
              rw [List.length_set]
              exact hf q nm hq)
            (fun i hi => by
              simp only [hnm, List.length_set] at hi ⊢
              by_cases hij : i = j
              · subst hij; rw [hpicj, if_pos rfl, hh, hD]
              · rw [hpici i hij, if_neg hij]
                have := h i hi
                simp only [opsOf] at this
                rw [if_neg (fun e => hij e.1.symm)] at this
                exact this)
          refine ⟨w', (j, o) :: obs, ?_, by rw [k2]; simp only [hnm]; rfl, fun i hi => ⟨(k3 i hi).1, ?_⟩⟩
          · simp only [World.history, World.step, hj, hs, k1, List.singleton_append]
          · have := (k3 i hi).2
            by_cases hij : i = j
            · subst hij
              rw [if_pos rfl] at this
              simp only [obsOf, List.filter_cons, decide_true, if_true, List.map_cons] at this ⊢
              rw [this, hos]
            · rw [if_neg hij] at this
              simp only [obsOf, List.filter_cons, Ne.symm hij, decide_false, Bool.false_eq_true, if_false] at this ⊢
              exact this

private theorem db_history_app : ∀ (xs ys : List (DbOp K V)) (d : Db K V), d.history (xs ++ ys) =
      match d.history xs with
      | none => none
      | some (d', o) => match d'.history ys with | none => none | some (d'', o') => some (d'', o ++ o')
  | [], ys, d => by simp only [List.nil_append, Db.history]; cases d.history ys <;> rfl
  | x :: xs, ys, d => by
    simp only [List.cons_append, Db.history]
    cases hx : d.step x with
    | none => rfl
    | some y =>
      simp only [db_history_app xs ys y.1]
      cases hy : y.1.history xs with
      | none => rfl
      | some z => simp only []; cases hz : z.1.history ys <;> rfl

/-- **C71.** Databases on one storage with different names, none of which is another one followed by `.tmp`, do not influence each other. The storage has the
files that were left by an arbitrary `past` of each database. However the operations (with every outcome of their I/O), user programs and restarts are
interleaved, and whenever the databases are opened, each of them observes what it would observe alone, ends in the state and with the files it would have alone —
so its variables read as the specification says — and can be opened again with its durable tree. -/
theorem C71_independent (script : List (WorldOp K V)) (hap : Apart (openedNames script)) (files : String → File K V) (past : Nat → List (DbOp K V))
    (hpast : ∀ i nm, (openedNames script)[i]? = some nm → ∃ d os, Db.run (past i) = some (d, os) ∧ d.name = files nm ∧ d.tmp = files (nm ++ ".tmp"))
    (σ : Nat → SpecDb K V) (os : Nat → List (List (Obs K V)))
    (hs : ∀ i < (openedNames script).length, SpecDb.new.history (past i ++ .restart :: opsOf i 0 script) = some (σ i, os i)) :
    ∃ w obs, World.history script { files := files, dbs := [] } = some (w, obs) ∧ w.dbs.length = (openedNames script).length ∧
      ∀ i c, w.dbs[i]? = some c →
        (openedNames script)[i]? = some c.nm ∧ (∃ before, before.length = (past i).length + 1 ∧ os i = before ++ obsOf i obs) ∧
        Db.run (past i ++ .restart :: opsOf i 0 script) = some (c.onFiles w.files, os i) ∧
        (c.onFiles w.files).shows (σ i).vars ∧
        ∀ t, (σ i).durable = some t → ∃ d, Db.load (w.files c.nm) (w.files (c.nm ++ ".tmp")) = some d ∧ d.shows [some t] := by
  -- each database alone
  have hD : ∀ i, ∃ l d o1 o2, ∀ nm, (openedNames script)[i]? = some nm →
      Db.load (files nm) (files (tmpName nm)) = some l ∧ l.history (opsOf i 0 script) = some (d, o2) ∧ o1.length = (past i).length + 1 ∧ os i = o1 ++ o2 ∧
      Db.run (past i ++ .restart :: opsOf i 0 script) = some (d, os i) := by
    intro i
    cases hn : (openedNames script)[i]? with
    | none =>
      obtain ⟨d0, h1, -⟩ := load_ok (K := K) (V := V) (name := []) [] (.inl ⟨rfl, rfl⟩)
      exact ⟨d0, d0, [], [], fun nm h => by cases h⟩
    | some nm =>
      have hi := (List.getElem?_eq_some_iff.1 hn).1
      obtain ⟨dp, osp, p1, p2, p3⟩ := hpast i nm hn
      obtain ⟨d, r1, -⟩ := C56_history _ _ _ (hs i hi)
      have r1' := r1
      simp only [Db.run] at p1 r1'
      split at p1
      · cases p1
      · rename_i d0 h0
        rw [h0] at r1'
        simp only [db_history_app, p1, Db.history, Db.step] at r1'
        cases hl : Db.load dp.name dp.tmp with
        | none => simp [hl] at r1'
        | some l =>
          simp only [hl] at r1'
          cases hh : l.history (opsOf i 0 script) with
          | none => simp [hh] at r1'
          | some y =>
            simp only [hh, Option.some.injEq, Prod.mk.injEq] at r1'
            refine ⟨l, d, osp ++ [[]], y.2, fun nm' h' => ?_⟩
            cases h'
            refine ⟨by rw [p2, p3] at hl; exact hl, by rw [hh, ← r1'.1], ?_, ?_, r1⟩
            · have : ∀ (xs : List (DbOp K V)) (d d' : Db K V) o, d.history xs = some (d', o) → o.length = xs.length := by
                intro xs
                induction xs with
                | nil => intro d d' o h; simp only [Db.history, Option.some.injEq, Prod.mk.injEq] at h; rw [← h.2]; rfl
                | cons x xs ih =>
                  intro d d' o h
                  simp only [Db.history] at h
                  split at h
                  · cases h
                  · rename_i d1 o1 _
                    split at h
                    · cases h
                    · rename_i d2 o2 h2
                      cases h
                      simp [ih _ _ _ h2]
              simp [this _ _ _ _ p1]
            · rw [← r1'.2]; simp
  obtain ⟨L, hL⟩ : ∃ L : Nat → Db K V, ∀ i, ∃ d o1 o2, ∀ nm, (openedNames script)[i]? = some nm →
      Db.load (files nm) (files (tmpName nm)) = some (L i) ∧ (L i).history (opsOf i 0 script) = some (d, o2) ∧ o1.length = (past i).length + 1 ∧ os i = o1 ++ o2 ∧
      Db.run (past i ++ .restart :: opsOf i 0 script) = some (d, os i) := ⟨fun i => (hD i).choose, fun i => (hD i).choose_spec⟩
  obtain ⟨D, hD⟩ : ∃ D : Nat → Db K V, ∀ i, ∃ o1 o2, ∀ nm, (openedNames script)[i]? = some nm →
      Db.load (files nm) (files (tmpName nm)) = some (L i) ∧ (L i).history (opsOf i 0 script) = some (D i, o2) ∧ o1.length = (past i).length + 1 ∧ os i = o1 ++ o2 ∧
      Db.run (past i ++ .restart :: opsOf i 0 script) = some (D i, os i) := ⟨fun i => (hL i).choose, fun i => (hL i).choose_spec⟩
  obtain ⟨B, hB⟩ : ∃ B : Nat → List (List (Obs K V)), ∀ i, ∃ o2, ∀ nm, (openedNames script)[i]? = some nm →
      Db.load (files nm) (files (tmpName nm)) = some (L i) ∧ (L i).history (opsOf i 0 script) = some (D i, o2) ∧ (B i).length = (past i).length + 1 ∧ os i = B i ++ o2 ∧
      Db.run (past i ++ .restart :: opsOf i 0 script) = some (D i, os i) := ⟨fun i => (hD i).choose, fun i => (hD i).choose_spec⟩
  obtain ⟨O, hO⟩ : ∃ O : Nat → List (List (Obs K V)), ∀ i, ∀ nm, (openedNames script)[i]? = some nm →
      Db.load (files nm) (files (tmpName nm)) = some (L i) ∧ (L i).history (opsOf i 0 script) = some (D i, O i) ∧ (B i).length = (past i).length + 1 ∧ os i = B i ++ O i ∧
      Db.run (past i ++ .restart :: opsOf i 0 script) = some (D i, os i) := ⟨fun i => (hB i).choose, fun i => (hB i).choose_spec⟩
  obtain ⟨w, obs, k1, k2, k3⟩ := independent L script { files := files, dbs := [] } D O (by simpa using hap)
    (fun j nm hj => by simpa using (hO j nm hj).1)
    (fun i hi => by
      have hi : i < (openedNames script).length := by simpa using hi
      exact (hO i _ (List.getElem?_eq_getElem hi)).2.1)
  have hlen : w.dbs.length = (openedNames script).length := by
    have := congrArg List.length k2
    simpa using this
  refine ⟨w, obs, k1, hlen, fun i c hc => ?_⟩
  have hi : i < w.dbs.length := (List.getElem?_eq_some_iff.1 hc).1
  have hi' : i < (openedNames script).length := hlen ▸ hi
  obtain ⟨q1, q2⟩ := k3 i hi
  obtain ⟨-, -, b1, b2, hrun⟩ := hO i _ (List.getElem?_eq_getElem hi')
  have hp : w.pic L i = c.onFiles w.files := by simp only [World.pic, hc]
  obtain ⟨d, r1, r2, r3⟩ := C56_history _ _ _ (hs i hi')
  rw [hrun] at r1
  cases r1
  rw [← q1, hp] at hrun r2 r3
  refine ⟨?_, ⟨B i, b1, by rw [q2]; exact b2⟩, hrun, r2, fun t ht => ?_⟩
  · have : (w.dbs.map (·.nm))[i]? = some c.nm := by simp [hc]
    rw [k2] at this; simpa using this
  · obtain ⟨-, d', s1, s2, -⟩ := r3 t ht
    exact ⟨d', s1, s2⟩

/-! ## Databases that are not apart -/
theorem shows_one {d : Db K V} {n : Node K V} {t : Tree K V} (h1 : d.st.regs = [some n]) (h2 : Den d.st.heap n t) : d.shows [some t] := by
  refine ⟨by rw [h1]; rfl, fun i u hu => ?_, fun i m hm => ?_⟩
  · match i with
    | 0 => cases hu; exact ⟨n, by rw [h1]; rfl, h2⟩
    | i + 1 => cases hu
  · match i with
    | 0 => exact ⟨_, rfl⟩
    | i + 1 => rw [h1] at hm; cases hm

/-- the tree in the examples -/
def dbTree : Tree Nat Nat := ⟨[1], none, [⟨[2], some 20, []⟩, ⟨[3], some 30, []⟩]⟩
/-- the user program that puts `dbTree` into `db.tree` -/
def dbFill : DbOp Nat Nat := .prog (.cmd (.eager false dbTree) fun _ => .cmd (.swap ⟨0, []⟩ 1) fun _ => .cmd (.drop 1) fun _ => .done)

/-- two databases with the same name; the first one is filled and flushed, then the second one is flushed, then the first one again -/
def sameName : List (WorldOp Nat Nat) :=
  [.opened "x", .opened "x", .on 0 dbFill, .on 0 (.flush .ok), .on 1 (.flush .ok), .on 0 (.flush .ok)]

/-- **C71.** Two databases with the same name destroy each other's data: after a history in which every operation succeeds and whose last operation is
the `flush` of the first database, opening the file gives neither its tree nor the one of the second database. -/
theorem C71_same_name_counterexample : ∃ w obs c d, World.start.history sameName = some (w, obs) ∧ w.dbs[0]? = some c ∧ c.nm = "x" ∧
    (∃ n, c.st.regs[0]? = some (some n) ∧ Den c.st.heap n dbTree) ∧ Db.load (w.files "x") (w.files "x.tmp") = some d ∧ d.shows [some ⟨[1], none, []⟩] := by
  obtain ⟨w, obs, h1, h2⟩ := World.test_ok (ops := sameName)
    (P := fun w => loadsB (w.files "x") (w.files "x.tmp") ⟨[1], none, []⟩ &&
      match w.dbs[0]? with | some c => c.nm == "x" && readsB c.st dbTree | none => false) (by decide +kernel)
  simp only [Bool.and_eq_true] at h2
  obtain ⟨h2, h3⟩ := h2
  split at h3
  · rename_i c hc
    simp only [Bool.and_eq_true, beq_iff_eq] at h3
    obtain ⟨d, n, k1, k2, k3⟩ := loads_check h2
    exact ⟨w, obs, c, d, h1, hc, h3.1, reads_check h3.2, k1, shows_one k2 k3⟩
  · cases h3

/-- a database with the name of the temporary file of another one; the latter is vacuumed -/
def tmpClash : List (WorldOp Nat Nat) :=
  [.opened "x", .opened "x.tmp", .on 1 dbFill, .on 1 (.flush .ok), .on 0 (.vacuum .ok)]

/-- **C71.** `vacuum` of the database `x` deletes the database `x.tmp`: after a history in which every operation succeeds, opening `x.tmp` gives the empty
tree although its tree was flushed. -/
theorem C71_tmp_counterexample : ∃ w obs d, World.start.history tmpClash = some (w, obs) ∧
    (∃ σ os, SpecDb.new.history (opsOf 1 0 tmpClash) = some (σ, os) ∧ σ.durable = some dbTree) ∧
    Db.load (w.files "x.tmp") (w.files "x.tmp.tmp") = some d ∧ d.shows [some ⟨[], none, []⟩] := by
  obtain ⟨w, obs, h1, h2⟩ := World.test_ok (ops := tmpClash)
    (P := fun w => loadsB (w.files "x.tmp") (w.files "x.tmp.tmp") ⟨[], none, []⟩) (by decide +kernel)
  obtain ⟨d, n, k1, k2, k3⟩ := loads_check h2
  exact ⟨w, obs, d, h1, ⟨_, _, rfl, rfl⟩, k1, shows_one k2 k3⟩

/-! ## Non-vacuity -/
section Examples
/-- three databases, opened at different times, with failing operations and restarts in between; `a` has a past. The hypotheses of `C71_independent` hold. -/
private def busy : List (WorldOp Nat Nat) :=
  [.opened "a", .opened "b", .on 1 (.vacuum .failMv), .on 0 .restart, .on 1 dbFill, .on 1 (.flush (.fail 1)),
   .opened "a.tmp2", .on 0 (.vacuum .ok), .on 1 (.flush .ok), .on 2 .restart, .on 1 .restart]
private def busyPast : Nat → List (DbOp Nat Nat)
  | 0 => [dbFill, .flush .ok, .vacuum .failMv]
  | _ => []
example : Apart (openedNames busy) := by unfold Apart; decide +kernel
example : ∃ files : String → File Nat Nat, ∀ i nm, (openedNames busy)[i]? = some nm →
    ∃ d os, Db.run (busyPast i) = some (d, os) ∧ d.name = files nm ∧ d.tmp = files (nm ++ ".tmp") := by
  obtain ⟨d, h1, -⟩ := C56_history (busyPast 0) _ _ rfl
  refine ⟨fun x => if x = "a" then d.name else if x = "a.tmp" then d.tmp else [], fun i nm h => ?_⟩
  match i with
  | 0 => cases h; exact ⟨d, _, h1, rfl, by simp⟩
  | 1 => cases h; exact ⟨_, _, rfl, rfl, rfl⟩
  | 2 => cases h; exact ⟨_, _, rfl, rfl, rfl⟩
  | i + 3 => cases h
example : (∃ σ os, SpecDb.new.history (busyPast 0 ++ .restart :: opsOf 0 0 busy) = some (σ, os) ∧ σ.durable = some dbTree) ∧
    (∃ σ os, SpecDb.new.history (busyPast 1 ++ .restart :: opsOf 1 0 busy) = some (σ, os) ∧ σ.durable = some dbTree) ∧
    (∃ σ os, SpecDb.new.history (busyPast 2 ++ .restart :: opsOf 2 0 busy) = some (σ, os) ∧ σ.durable = some ⟨[], none, []⟩) :=
  ⟨⟨_, _, rfl, rfl⟩, ⟨_, _, rfl, rfl⟩, ⟨_, _, rfl, rfl⟩⟩
end Examples

end Verif.Shared
