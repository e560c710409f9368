import Verif.Lemmas.SharedHistory
import Verif.Props.Shared
import Verif.Props.Radix
import Verif.Lemmas.RadixDbEval
/-!
# C73: radix tree operations on shared, lazily loaded nodes

The operations of the tree traits are executed step by step on the reference counted heap (`Model/SharedOps.lean`, `Model/SharedPure.lean`), where
trees share nodes and archived nodes are loaded on demand. A history of calls on any number of handles has the effects of
`Spec/SharedHistory.lean`, in which every handle is a map of its own. `fuel` bounds the recursion depth and is not in the code: the theorems hold
for every sufficient amount.
-/
namespace Verif.Shared
open Std
open Verif.Tree (Valid Canonical Entry HasEntry LexLt KeyMap)
variable {K V : Type} [Ord K] [TransOrd K] [LawfulEqOrd K] [DecidableEq K]

/-- handle `i` holds the tree `t` -/
def HeapWorld.holds (w : HeapWorld K V) (i : Nat) (t : Tree K V) : Prop := ∃ a, w.vars[i]? = some (some a) ∧ w.st.reads a t

/-- The tree stands for the map. -/
def StandsFor (t : Tree K V) (m : KeyMap K V) : Prop := ∀ k v, Entry t k v ↔ m k = some v

/-- Executed in the state `s`, the program part hands `a` to the rest of the program, which goes on in the state `s'`; the part makes no variables. -/
def Answers {α : Type} (s : St K V) (m : Act K V α) (a : α) (s' : St K V) : Prop :=
  ∃ obs, ∀ rest : Nat → α → Prog K V, s.run (m s.regs.length rest) =
    ((s'.run (rest s.regs.length a)).1, obs ++ (s'.run (rest s.regs.length a)).2)

omit [TransOrd K] [LawfulEqOrd K] in
theorem HeapWorld.run_append (fuel : Nat) : ∀ (ops ops' : List (HandleOp K V)) (w : HeapWorld K V), w.run fuel (ops ++ ops') = (w.run fuel ops).run fuel ops'
  | [], _, _ => rfl
  | _ :: ops, _, _ => HeapWorld.run_append fuel ops ..

/-- what is known after a history -/
private theorem after (arc : Bool) (ops : List (HandleOp K V)) (hv : ∀ op ∈ ops, op.Validated) :
    Means (Trees.run [] ops) (Handles.run [] ops) ∧ ∃ N, ∀ fuel, N ≤ fuel → ∃ ts, Holds ((HeapWorld.start arc).run fuel ops) ts (Trees.run [] ops) :=
  ⟨(run_holds (fuel := Trees.needs [] ops) ops (holds_start arc) means_start hv (Nat.le_refl _)).2, Trees.needs [] ops,
    fun _ hf => (run_holds ops (holds_start arc) means_start hv hf).1⟩

private theorem standsFor {t : Tree K V} {m : KeyMap K V} (h : Valid t) (hm : ∀ k, Tree.den t k = m k) : StandsFor t m := fun k v => by
  rw [← Tree.den_iff_entry h, hm]

omit [Ord K] [TransOrd K] [LawfulEqOrd K] [DecidableEq K] in
private theorem holds_tree {w : HeapWorld K V} {ts : Vars K V} {xs : Trees K V} (h : Holds w ts xs) {i : Nat} {t : Tree K V} (ht : xs[i]? = some (some t)) :
    ∃ a, w.vars[i]? = some (some a) ∧ ts.at ⟨a, []⟩ = some t ∧ w.st.reads a t := by
  obtain ⟨a, ha, hat⟩ := h.var ht
  refine ⟨a, ha, at_temp hat, ?_⟩
  by_cases hr : ∃ n, w.st.regs[a]? = some (some n)
  · obtain ⟨n, hn⟩ := hr
    obtain ⟨t', ht', hd⟩ := h.ok.regs.some hn
    rw [hat] at ht'; cases ht'
    exact ⟨n, hn, hd⟩
  · exact absurd hat (h.ok.regs.not_some (fun n hn => hr ⟨n, hn⟩) t)

/-- **C73.** After any history of calls, every live handle holds a valid tree that stands for the map the specification says, and the handles that
went out of scope are gone. Operations on one handle are not visible through another one, whatever nodes they share and whatever was loaded when. -/
theorem C73_history (arc : Bool) (ops : List (HandleOp K V)) (hv : ∀ op ∈ ops, op.Validated) :
    ∃ N, ∀ fuel, N ≤ fuel → ((HeapWorld.start arc).run fuel ops).vars.length = (Handles.run [] ops).length ∧
      (∀ (i : Nat) m, (Handles.run [] ops)[i]? = some (some m) → ∃ t, ((HeapWorld.start arc).run fuel ops).holds i t ∧ Valid t ∧ StandsFor t m) ∧
      ∀ i : Nat, (Handles.run [] ops)[i]? = some none → ((HeapWorld.start arc).run fuel ops).vars[i]? = some none := by
  obtain ⟨hm, N, hN⟩ := after arc ops hv
  refine ⟨N, fun fuel hf => ?_⟩
  obtain ⟨ts, h⟩ := hN fuel hf
  refine ⟨h.len.trans hm.len, fun i m hi => ?_, fun i hi => ?_⟩
  · obtain ⟨t, ht, h1, h2⟩ := hm.tree hi
    obtain ⟨a, ha, -, hr⟩ := holds_tree h ht
    exact ⟨t, ⟨a, ha, hr⟩, h1, standsFor h1 h2⟩
  · have hl : i < ((HeapWorld.start arc).run fuel ops).vars.length := by rw [h.len, hm.len]; exact lt_of_getElem? hi
    have hg := List.getElem?_eq_getElem hl
    cases hw : ((HeapWorld.start arc).run fuel ops).vars[i] with
    | none => rw [hw] at hg; exact hg
    | some a =>
      rw [hw] at hg
      obtain ⟨t, -, ht⟩ := h.live i a hg
      obtain ⟨-, m, h2, -⟩ := hm.live i t ht
      rw [hi] at h2; cases h2

/-- **C73.** The three flavours of trees agree: the trees that the handles hold on the shared heap are exactly, node for node, those which the same
history makes on plain trees that share nothing. -/
theorem C73_flavours_agree (arc : Bool) (ops : List (HandleOp K V)) (hv : ∀ op ∈ ops, op.Validated) :
    ∃ N, ∀ fuel, N ≤ fuel → ∀ (i : Nat) t, (Trees.run [] ops)[i]? = some (some t) ↔ ((HeapWorld.start arc).run fuel ops).holds i t := by
  obtain ⟨-, N, hN⟩ := after arc ops hv
  refine ⟨N, fun fuel hf i t => ?_⟩
  obtain ⟨ts, h⟩ := hN fuel hf
  constructor
  · intro ht
    obtain ⟨a, ha, -, hr⟩ := holds_tree h ht
    exact ⟨a, ha, hr⟩
  · rintro ⟨a, ha, n, hn, hd⟩
    obtain ⟨t', h1, h2⟩ := h.live i a ha
    obtain ⟨u, hu, hdu⟩ := h.ok.regs.some hn
    rw [h1] at hu; cases hu
    rw [hd.det hdu]; exact h2

/-- **C73.** If all archives are canonical (or there are none), all trees are canonical: equal maps are equal trees, no superfluous nodes remain. -/
theorem C73_canonical (arc : Bool) (ops : List (HandleOp K V)) (hv : ∀ op ∈ ops, op.Validated) (hc : ∀ op ∈ ops, op.FromCanonical) :
    ∃ N, ∀ fuel, N ≤ fuel → ∀ (i : Nat) t, ((HeapWorld.start arc).run fuel ops).holds i t → Canonical t := by
  obtain ⟨N, hN⟩ := C73_flavours_agree arc ops hv
  exact ⟨N, fun fuel hf i t ht => canonical_run ops (fun i t h => by simp at h) hc i t ((hN fuel hf i t).2 ht)⟩

/-- **C73.** No temporary is leaked: after any history, every allocation can be reached from a live handle (or is the shared empty vector), and when
all handles went out of scope only the shared empty vector is left. -/
theorem C73_no_leak (arc : Bool) (ops : List (HandleOp K V)) (hv : ∀ op ∈ ops, op.Validated) :
    ∃ N, ∀ fuel, N ≤ fuel →
      (∀ (a : Nat) n, ((HeapWorld.start arc).run fuel ops).st.regs[a]? = some (some n) → ∃ i : Nat, ((HeapWorld.start arc).run fuel ops).vars[i]? = some (some a)) ∧
      ∀ id c, ((HeapWorld.start arc).run fuel ops).st.heap.cell id = some c → Reach ((HeapWorld.start arc).run fuel ops).st [] id ∧
        ((∀ (i : Nat) m, (Handles.run [] ops)[i]? ≠ some (some m)) → ((HeapWorld.start arc).run fuel ops).st.static = some id ∧ c.2 = []) := by
  obtain ⟨hm, N, hN⟩ := after arc ops hv
  refine ⟨N, fun fuel hf => ?_⟩
  obtain ⟨ts, h⟩ := hN fuel hf
  have hreg : ∀ (a : Nat) n, ((HeapWorld.start arc).run fuel ops).st.regs[a]? = some (some n) → ∃ i : Nat, ((HeapWorld.start arc).run fuel ops).vars[i]? = some (some a) := by
    intro a n hn
    obtain ⟨t, ht, -⟩ := h.ok.regs.some hn
    exact h.owned a t ht
  refine ⟨hreg, fun id c hc => ⟨no_leak h.ok hc, fun hall => only_static h.ok hc fun o ho => ?_⟩⟩
  cases o with
  | none => rfl
  | some n =>
    obtain ⟨a, ha⟩ := List.mem_iff_getElem?.1 ho
    obtain ⟨i, hi⟩ := hreg a n ha
    obtain ⟨t, -, ht⟩ := h.live i a hi
    obtain ⟨-, m, h2, -⟩ := hm.live i t ht
    exact absurd h2 (hall i m)

omit [Ord K] [TransOrd K] [LawfulEqOrd K] [DecidableEq K] in
private theorem answers {α : Type} {w : HeapWorld K V} {ts : Vars K V} {xs : Trees K V} (h : Holds w ts xs) {m : Act K V α} {x : α} (hl : Looks m ts x) :
    Answers w.st m x (w.st.runAct (ignore m)) := by
  obtain ⟨s', obs, -, he⟩ := hl.heap w.st [] h.ok
  have hlen : w.st.regs.length = ts.length := h.ok.regs.len
  have e : w.st.runAct (ignore m) = s' := by
    unfold St.runAct ignore
    rw [hlen]
    have := he (fun n _ => .done)
    exact congrArg Prod.fst this
  refine ⟨obs, fun rest => ?_⟩
  rw [e, hlen]
  exact he rest

omit [TransOrd K] [LawfulEqOrd K] in
private theorem run_ask (fuel : Nat) (w : HeapWorld K V) (ops : List (HandleOp K V)) (op : HandleOp K V) (s : St K V)
    (h : ((w.run fuel ops).apply fuel op).st = s) : (w.run fuel (ops ++ [op])).st = s := by
  rw [HeapWorld.run_append]; exact h

/-- **C73.** Reading one key: after any history, `get` and `contains_key` on a live handle answer from its map, and the program continues in the state
that the theorems above describe. -/
theorem C73_get (arc : Bool) (ops : List (HandleOp K V)) (hv : ∀ op ∈ ops, op.Validated) (i : Nat) (m : KeyMap K V) (k : List K)
    (hi : (Handles.run [] ops)[i]? = some (some m)) : ∃ N, ∀ fuel, N ≤ fuel → ∃ a, ((HeapWorld.start arc).run fuel ops).vars[i]? = some (some a) ∧
      Answers ((HeapWorld.start arc).run fuel ops).st (getP fuel ⟨a, []⟩ k) (m k) ((HeapWorld.start arc).run fuel (ops ++ [.get i k])).st ∧
      Answers ((HeapWorld.start arc).run fuel ops).st (containsKeyP fuel ⟨a, []⟩ k) (m k).isSome ((HeapWorld.start arc).run fuel (ops ++ [.containsKey i k])).st := by
  obtain ⟨hm, N, hN⟩ := after arc ops hv
  obtain ⟨t, ht, h1, h2⟩ := hm.tree hi
  refine ⟨N + t.size + 1, fun fuel hf => ?_⟩
  obtain ⟨ts, h⟩ := hN fuel (by omega)
  obtain ⟨a, ha, hat, -⟩ := holds_tree h ht
  refine ⟨a, ha, ?_, ?_⟩
  · rw [run_ask fuel _ ops (.get i k) _ (by simp only [HeapWorld.apply, HeapWorld.on, ha]; rfl), ← h2]
    exact answers h (get_run hat (by omega) (Tree.get_eq h1 k))
  · rw [run_ask fuel _ ops (.containsKey i k) _ (by simp only [HeapWorld.apply, HeapWorld.on, ha]; rfl), ← h2]
    exact answers h (containsKey_run hat (by omega) (Tree.containsKey_eq h1 k))

/-- **C73.** Enumeration: after any history, `iter`, `values` and `scan_prefix` on a live handle, run to the end, give the entries of its map in
ascending order of the keys, each once; `scan_prefix` those whose keys start with `p`. -/
theorem C73_iter (arc : Bool) (ops : List (HandleOp K V)) (hv : ∀ op ∈ ops, op.Validated) (i : Nat) (m : KeyMap K V) (p : List K)
    (hi : (Handles.run [] ops)[i]? = some (some m)) : ∃ l : List (List K × V), l.Pairwise (fun x y => LexLt x.1 y.1) ∧ (∀ k v, (k, v) ∈ l ↔ m k = some v) ∧
    ∃ l' : List (List K × V), l'.Pairwise (fun x y => LexLt x.1 y.1) ∧ (∀ k v, (k, v) ∈ l' ↔ m k = some v ∧ p <+: k) ∧
    ∃ N, ∀ fuel, N ≤ fuel → ∃ a, ((HeapWorld.start arc).run fuel ops).vars[i]? = some (some a) ∧
      Answers ((HeapWorld.start arc).run fuel ops).st (entriesP fuel ⟨a, []⟩) l ((HeapWorld.start arc).run fuel (ops ++ [.iter i])).st ∧
      Answers ((HeapWorld.start arc).run fuel ops).st (valuesP fuel ⟨a, []⟩) (l.map Prod.snd) ((HeapWorld.start arc).run fuel (ops ++ [.values i])).st ∧
      Answers ((HeapWorld.start arc).run fuel ops).st (scanPrefixP fuel ⟨a, []⟩ p) l' ((HeapWorld.start arc).run fuel (ops ++ [.scanPrefix i p])).st := by
  obtain ⟨hm, N, hN⟩ := after arc ops hv
  obtain ⟨t, ht, h1, h2⟩ := hm.tree hi
  obtain ⟨l, i1, i2, i3, i4⟩ := Tree.iter_new h1 []
  obtain ⟨it, j1, l', j2, j3, j4⟩ := Tree.scanPrefix_spec h1 p
  obtain ⟨N1, k1⟩ := entries_run i1
  obtain ⟨N2, k2⟩ := values_run i4
  obtain ⟨N3, k3⟩ := scanPrefix_run j1 j2
  refine ⟨l, i2, fun k v => ?_, l', j3, fun k v => ?_, N + N1 + N2 + N3, fun fuel hf => ?_⟩
  · rw [i3]; simpa using standsFor h1 h2 k v
  · rw [j4, standsFor h1 h2 k v]
    exact and_congr_right fun _ => ⟨fun ⟨r, hr⟩ => ⟨r, hr.symm⟩, fun ⟨r, hr⟩ => ⟨r, hr.symm⟩⟩
  · obtain ⟨ts, h⟩ := hN fuel (by omega)
    obtain ⟨a, ha, hat, -⟩ := holds_tree h ht
    refine ⟨a, ha, ?_, ?_, ?_⟩
    · rw [run_ask fuel _ ops (.iter i) _ (by simp only [HeapWorld.apply, HeapWorld.on, ha]; rfl)]
      exact answers h (k1 ts _ hat fuel (by omega))
    · rw [run_ask fuel _ ops (.values i) _ (by simp only [HeapWorld.apply, HeapWorld.on, ha]; rfl)]
      exact answers h (k2 ts _ hat fuel (by omega))
    · rw [run_ask fuel _ ops (.scanPrefix i p) _ (by simp only [HeapWorld.apply, HeapWorld.on, ha]; rfl)]
      exact answers h (k3 ts _ hat fuel (by omega))

/-- **C73.** Comparing: after any history, `i.intersects(&j)` tells whether the maps of two live handles have a key in common, and a positive answer of
`i.is_subset(&j)` is right. If the archives are canonical, a negative one is right too (for other archives: `C48_is_subset_sound`). -/
theorem C73_compare (arc : Bool) (ops : List (HandleOp K V)) (hv : ∀ op ∈ ops, op.Validated) (i j : Nat) (m m' : KeyMap K V)
    (hi : (Handles.run [] ops)[i]? = some (some m)) (hj : (Handles.run [] ops)[j]? = some (some m')) : ∃ x y : Bool,
    (x = true ↔ ∃ k, (m k).isSome = true ∧ (m' k).isSome = true) ∧
    (y = true → ∀ k, (m k).isSome = true → (m' k).isSome = true) ∧
    ((∀ op ∈ ops, op.FromCanonical) → (y = true ↔ ∀ k, (m k).isSome = true → (m' k).isSome = true)) ∧
    ∃ N, ∀ fuel, N ≤ fuel → ∃ a b, ((HeapWorld.start arc).run fuel ops).vars[i]? = some (some a) ∧ ((HeapWorld.start arc).run fuel ops).vars[j]? = some (some b) ∧
      Answers ((HeapWorld.start arc).run fuel ops).st (intersectsP fuel ⟨a, []⟩ ⟨b, []⟩) x ((HeapWorld.start arc).run fuel (ops ++ [.intersects i j])).st ∧
      Answers ((HeapWorld.start arc).run fuel ops).st (isSubsetP fuel ⟨a, []⟩ ⟨b, []⟩) y ((HeapWorld.start arc).run fuel (ops ++ [.isSubset i j])).st := by
  obtain ⟨hm, N, hN⟩ := after arc ops hv
  obtain ⟨t, ht, h1, h2⟩ := hm.tree hi
  obtain ⟨u, hu, h3, h4⟩ := hm.tree hj
  have e1 : ∀ k, HasEntry t k ↔ (m k).isSome = true := fun k => by rw [Tree.has_iff h1, h2]
  have e2 : ∀ k, HasEntry u k ↔ (m' k).isSome = true := fun k => by rw [Tree.has_iff h3, h4]
  obtain ⟨x, x1, -, x2⟩ := Tree.C48_intersects_is_disjoint t u h1 h3
  obtain ⟨y, y1, y2⟩ := Tree.C48_is_subset_sound t u h1 h3
  refine ⟨x, y, ?_, ?_, ?_, N + t.size + u.size + 1, fun fuel hf => ?_⟩
  · rw [x2]; simp only [e1, e2]
  · simpa only [e1, e2] using y2
  · intro hc
    obtain ⟨y', z1, z2⟩ := Tree.C48_is_subset t u (canonical_run ops (fun i t h => by simp at h) hc i t ht) h3
    rw [y1] at z1; cases z1
    simpa only [e1, e2] using z2
  · obtain ⟨ts, h⟩ := hN fuel (by omega)
    obtain ⟨a, ha, hat, -⟩ := holds_tree h ht
    obtain ⟨b, hb, hbt, -⟩ := holds_tree h hu
    refine ⟨a, b, ha, hb, ?_, ?_⟩
    · rw [run_ask fuel _ ops (.intersects i j) _ (by simp only [HeapWorld.apply, HeapWorld.ask2, HeapWorld.on, ha, hb]; rfl)]
      exact answers h (intersects_run hat hbt h1 h3 (by omega) x1)
    · rw [run_ask fuel _ ops (.isSubset i j) _ (by simp only [HeapWorld.apply, HeapWorld.ask2, HeapWorld.on, ha, hb]; rfl)]
      exact answers h (isSubset_run hat hbt h1 h3 (by omega) y1)

/-- **C73.** `i.left_combine(&j, f)`, whose result depends on the shape of `j` (see `C45_left_combine`): after any history, it makes a new handle with
the tree that it makes of the plain trees, and leaves all other handles alone. -/
theorem C73_left_combine (arc : Bool) (ops : List (HandleOp K V)) (hv : ∀ op ∈ ops, op.Validated) (i j : Nat) (t u r : Tree K V)
    (f : V → Option V → Option V) (hi : (Trees.run [] ops)[i]? = some (some t)) (hj : (Trees.run [] ops)[j]? = some (some u))
    (hr : t.leftCombine u f = .ret r) :
    ∃ N, ∀ fuel, N ≤ fuel → (((HeapWorld.start arc).run fuel ops).derive2 i j (leftP f fuel)).holds (Trees.run [] ops).length r ∧
      ∀ (k : Nat) x, (Trees.run [] ops)[k]? = some (some x) → (((HeapWorld.start arc).run fuel ops).derive2 i j (leftP f fuel)).holds k x := by
  obtain ⟨hm, N, hN⟩ := after arc ops hv
  refine ⟨N + t.size + u.size + 1, fun fuel hf => ?_⟩
  obtain ⟨ts, h⟩ := hN fuel (by omega)
  obtain ⟨ts', h'⟩ := holds_derive2 h i j (fuel := fuel) (fun k x hk => (hm.live k x hk).1) (by rw [hi, hj]; simp only; omega) (fun _ _ => leftPure_run f)
  have e : Trees.derive2 (Trees.run [] ops) i j (fun x y => retOr x (x.leftCombine y f)) = Trees.run [] ops ++ [some r] := by
    simp only [Trees.derive2, Trees.derive, hi, hj, hr, retOr]
  rw [e] at h'
  refine ⟨?_, fun k x hk => ?_⟩
  · obtain ⟨a, ha, -, hd⟩ := holds_tree h' (i := (Trees.run [] ops).length) (t := r) (by simp)
    exact ⟨a, ha, hd⟩
  · obtain ⟨a, ha, -, hd⟩ := holds_tree h' (i := k) (t := x) (by rw [List.getElem?_append_left (lt_of_getElem? hk)]; exact hk)
    exact ⟨a, ha, hd⟩

/-! ## Non-vacuity -/
section Examples

private def tree1 : Tree Nat Nat := ⟨[1], none, [⟨[2], some 20, []⟩, ⟨[3], some 30, [⟨[4], some 40, []⟩]⟩]⟩

private theorem valid1 : Canonical tree1 := by
  refine ⟨?_, .inr ?_⟩
  · repeat' first | constructor | (simp only [List.mem_cons, List.not_mem_nil, or_false]; rintro _ (rfl | rfl)) | (simp; done) | (simp; decide)
    all_goals first | simp | skip
    all_goals repeat' first | constructor | (simp only [List.mem_cons, List.not_mem_nil, or_false]; rintro _ rfl) | (simp; done)
  · repeat' first | constructor | (simp only [List.mem_cons, List.not_mem_nil, or_false]; rintro _ (rfl | rfl)) | (simp; done)
    all_goals first | simp | skip

/-- a lazily loaded tree, a snapshot of it, a deep change of the original, a combination of both, and the snapshot goes out of scope -/
private def sharedStory : List (HandleOp Nat Nat) :=
  [.load tree1, .get 0 [1, 3, 4], .clone 0, .insert 0 [1, 3, 5] 50, .differenceWith 0 1, .union 0 1, .iter 2, .drop 1]

private theorem sharedStory_ok : (∀ op ∈ sharedStory, op.Validated) ∧ ∀ op ∈ sharedStory, op.FromCanonical := by
  simp only [sharedStory, List.mem_cons, List.not_mem_nil, or_false, forall_eq_or_imp, forall_eq]
  exact ⟨⟨valid1.1, trivial, trivial, trivial, trivial, trivial, trivial, trivial⟩, ⟨valid1, trivial, trivial, trivial, trivial, trivial, trivial, trivial⟩⟩

/-- an executable check that a handle holds a tree -/
private def holdsB (w : HeapWorld Nat Nat) (i : Nat) (t : Tree Nat Nat) : Bool :=
  match w.vars[i]? with
  | some (some a) =>
    match w.st.regs[a]? with
    | some (some n) => denB w.st.heap 20 n t
    | _ => false
  | _ => false

private theorem holds_of {w : HeapWorld Nat Nat} {i : Nat} {t : Tree Nat Nat} (h : holdsB w i t = true) : w.holds i t := by
  unfold holdsB at h
  split at h
  · rename_i a ha
    split at h
    · rename_i n hn; exact ⟨a, ha, n, hn, (den_check _ 20).1 _ _ h⟩
    · cases h
  · cases h

/-- Executed on the heap: what is left in the original is the new entry, the combination has all four, and the snapshot is gone. -/
example : ((HeapWorld.start false).run 20 sharedStory).holds 0 ⟨[1, 3, 5], some 50, []⟩ ∧
    ((HeapWorld.start false).run 20 sharedStory).holds 2 ⟨[1], none, [⟨[2], some 20, []⟩, ⟨[3], some 30, [⟨[4], some 40, []⟩, ⟨[5], some 50, []⟩]⟩]⟩ ∧
    ((HeapWorld.start false).run 20 sharedStory).vars[1]? = some none :=
  ⟨holds_of (by decide +kernel), holds_of (by decide +kernel), by decide +kernel⟩

/-- before the snapshot went out of scope it still held the old tree -/
example : ((HeapWorld.start false).run 20 (sharedStory.take 7)).holds 1 tree1 := holds_of (by decide +kernel)

/-- and before the change both handles referred to the same vector of children -/
example : ((HeapWorld.start false).run 20 (sharedStory.take 3)).vars = [some 0, some 1] ∧ ((HeapWorld.start false).run 20 (sharedStory.take 3)).st.heap.rc 0 = 2 := by
  decide +kernel

/-- the specification says the same of handle 0 -/
example : ∃ m, (Handles.run [] sharedStory)[0]? = some (some m) ∧ m [1, 3, 5] = some 50 ∧ m [1, 2] = none ∧ ∀ op ∈ sharedStory, op.Validated := by
  have hd : ∀ k, contents tree1 k = Tree.den tree1 k := fun k => (contents_eq valid1.1 k).symm
  refine ⟨_, rfl, ?_, ?_, sharedStory_ok.1⟩ <;> simp [hd] <;> decide +kernel

end Examples
end Verif.Shared
