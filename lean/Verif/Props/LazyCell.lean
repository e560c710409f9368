import Verif.Lemmas.LazyCell
/-!
# C55: the lazily initialised cell under every schedule

`Initial s₀` and `Steps s₀ s`: `s` is reached from a quiescent configuration by any finite interleaving of any number of
threads that call `get`, `get_or_create`, `clone` on any number of cells, dereference and release the references they got,
and (when nobody borrows a cell) access it exclusively. `s.hist` is the observable history (newest event first).
-/
namespace Verif.LazyCell
variable {A B : Type}

/-- **C55.** Every history is legal for the sequential meaning of the interface (`Legal`, `Allowed` in
`Spec/LazyTrace.lean`), and the memory always holds what the history says. -/
theorem C55_sequential_meaning {s₀ s : Config A B} (h₀ : s₀.Initial) (h : Steps s₀ s) :
    Legal (fun c => (s₀.cell c).data) s.hist ∧
    ∀ c, (s.cell c).data = contentAt (fun c => (s₀.cell c).data) s.hist c :=
  ⟨(inv_steps h₀ h).legal, (inv_steps h₀ h).data⟩

/-- **C55.** A value is stored by an initialiser at most once per cell, initialisers are run at most once more than they
panicked (so exactly once if they do not panic), and never on a cell that has its value. -/
theorem C55_initialised_once {s₀ s : Config A B} (h₀ : s₀.Initial) (h : Steps s₀ s) (c : Nat) :
    storeCount c s.hist ≤ 1 ∧ startCount c s.hist ≤ panicCount c s.hist + 1 ∧
    storeCount c s.hist + panicCount c s.hist ≤ startCount c s.hist := by
  have hI := inv_steps h₀ h
  have h1 := hI.store c
  have h2 := hI.starts c
  refine ⟨h1, ?_, by omega⟩
  cases hh : (s.cell c).holder with
  | none => simp only [hh] at h2; omega
  | some t =>
    simp only [hh] at h2
    by_cases hi : (s.thread t).pc.inflight = 0
    · omega
    · have hc := (hI.crit t c).2 hh
      have hp := hI.pcs t
      have : ∃ a, (s.cell c).data = .raw a := by
        revert hi hc hp
        cases (s.thread t).pc with
        | gocRun c' f a => intro _ hc hp; injection hc with hc; subst hc; exact ⟨a, hp.1⟩
        | gocWrite c' b => intro _ hc hp; injection hc with hc; subst hc; obtain ⟨_, a, h, _⟩ := hp; exact ⟨a, h⟩
        | gocUnwind c' => intro _ hc hp; injection hc with hc; subst hc; obtain ⟨_, a, h, _⟩ := hp; exact ⟨a, h⟩
        | _ => intro hi; exact absurd rfl hi
      obtain ⟨a, ha⟩ := this
      have h3 := hI.raw c a ha
      have : (s.thread t).pc.inflight ≤ 1 := by cases (s.thread t).pc <;> simp [Pc.inflight]
      omega

theorem Legal.of_append {init : Nat → Content A B} : ∀ {post h : List (Event A B)}, Legal init (post ++ h) → Legal init h
  | [], _, hl => hl
  | _ :: _, _, hl => Legal.of_append hl.2

/-- **C55.** `get_or_create` never panics by itself: its `panic!()` is unreachable. -/
theorem C55_no_panic {s₀ s : Config A B} (h₀ : s₀.Initial) (h : Steps s₀ s) (t c : Nat) : .crashed t c ∉ s.hist := by
  intro hm
  obtain ⟨post, pre, e⟩ := List.append_of_mem hm
  have := (inv_steps h₀ h).legal
  rw [e] at this
  exact (Legal.of_append this).1

/-- **C55.** References handed out by `get` and `get_or_create` stay valid: as long as a thread holds one, the cell
holds the very value the reference was handed out for. -/
theorem C55_references_stable {s₀ s : Config A B} (h₀ : s₀.Initial) (h : Steps s₀ s) (t c : Nat) (b : B)
    (hr : (c, b) ∈ (s.thread t).refs) : (s.cell c).data = .made b := (inv_steps h₀ h).refs t c b hr

/-- **C55.** There is no data race: no thread can be about to write the data of a cell while another thread is about to
read or write it (with or without the lock, or through a reference it holds). -/
theorem C55_no_data_race {s₀ s : Config A B} (h₀ : s₀.Initial) (h : Steps s₀ s) (t u c : Nat) (w : Bool) (htu : t ≠ u) :
    ¬ (s.mayAccess t c true ∧ s.mayAccess u c w) := by
  have hI := inv_steps h₀ h
  rintro ⟨h1, h2⟩
  have hw : ∃ b, (s.thread t).pc = .gocWrite c b := by
    rcases h1 with h1 | ⟨h1, _⟩
    · revert h1; cases (s.thread t).pc <;> simp only [Pc.access] <;> intro h <;> (try split at h) <;> (try cases h)
      rename_i hc; subst hc; exact ⟨_, rfl⟩
    · cases h1
  obtain ⟨b, hw⟩ := hw
  have hp := hI.pcs t
  rw [hw] at hp
  obtain ⟨f, a, hraw, -⟩ := hp
  have hhold := (hI.crit t c).1 (by rw [hw]; rfl)
  rcases h2 with h2 | ⟨-, b', h2⟩
  · have : (s.thread u).pc.crit = some c ∨ (s.thread u).pc = .gocRead c := by
      revert h2; cases (s.thread u).pc <;> simp only [Pc.access] <;> intro h <;> (try split at h) <;> (try cases h)
      all_goals rename_i hc; subst hc; simp [Pc.crit]
    rcases this with this | this
    · have := (hI.crit u c).1 this
      rw [hhold] at this; injection this with this; exact htu this
    · have hp := hI.pcs u
      rw [this] at hp
      obtain ⟨_, b', h3, -⟩ := hp
      rw [hraw] at h3; cases h3
  · have := hI.refs u c b' h2
    rw [hraw] at this; cases this

/-- **C55.** There is no deadlock: a thread that is inside a call can move on, unless it waits for a mutex, and then the
thread holding that mutex can move on. -/
theorem C55_no_deadlock {s₀ s : Config A B} (h₀ : s₀.Initial) (h : Steps s₀ s) (t : Nat) (ht : (s.thread t).pc ≠ .idle) :
    ∃ u s', Step s s' ∧ (s'.thread u).pc ≠ (s.thread u).pc ∧
      (u = t ∨ ∃ c, (s.thread t).pc.on = some c ∧ (s.cell c).holder = some u) := by
  have hI := inv_steps h₀ h
  -- a thread inside a critical section, or after it, can always move
  have move : ∀ u, (s.thread u).pc ≠ .idle → (∀ c, (s.thread u).pc.crit = none → (s.thread u).pc.on = some c →
      (s.cell c).holder = none ∨ (s.thread u).pc = .gocRead c) → ∃ s', Step s s' ∧ (s'.thread u).pc ≠ (s.thread u).pc := by
    intro u hu hf
    cases hp : (s.thread u).pc with
    | idle => exact absurd hp hu
    | getLock c =>
      have := hf c (by rw [hp]; rfl) (by rw [hp]; rfl)
      rw [hp] at this
      exact ⟨_, .getLock s u c hp (this.resolve_right (by simp)), by simp [Config.goto]⟩
    | getRead c =>
      cases hd : (s.cell c).data with
      | raw a => exact ⟨_, .getReadRaw s u c a hp hd, by simp [Config.goto]⟩
      | made b => exact ⟨_, .getReadMade s u c b hp hd, by simp [Config.goto]⟩
    | getUnlock c r =>
      cases r with
      | none => exact ⟨_, .getUnlockNone s u c hp, by simp [Config.goto, Config.log]⟩
      | some b => exact ⟨_, .getUnlockSome s u c b hp, by simp [Config.retRef, Config.log]⟩
    | gocLock c f =>
      have := hf c (by rw [hp]; rfl) (by rw [hp]; rfl)
      rw [hp] at this
      exact ⟨_, .gocLock s u c f hp (this.resolve_right (by simp)), by simp [Config.goto]⟩
    | gocTest c f =>
      cases hd : (s.cell c).data with
      | raw a => exact ⟨_, .gocTestRaw s u c f a hp hd, by simp [Config.goto, Config.log]⟩
      | made b => exact ⟨_, .gocTestMade s u c f b hp hd, by simp [Config.goto]⟩
    | gocRun c f a =>
      cases hfa : f a with
      | none => exact ⟨_, .gocRunPanic s u c f a hp hfa, by simp [Config.goto]⟩
      | some b => exact ⟨_, .gocRunOk s u c f a b hp hfa, by simp [Config.goto]⟩
    | gocWrite c b => exact ⟨_, .gocWrite s u c b hp, by simp [Config.goto, Config.log]⟩
    | gocUnwind c => exact ⟨_, .gocUnwind s u c hp, by simp [Config.goto, Config.log]⟩
    | gocUnlock c => exact ⟨_, .gocUnlock s u c hp, by simp [Config.goto]⟩
    | gocRead c =>
      cases hd : (s.cell c).data with
      | raw a => exact ⟨_, .gocReadRaw s u c a hp hd, by simp [Config.goto, Config.log]⟩
      | made b => exact ⟨_, .gocReadMade s u c b hp hd, by simp [Config.retRef, Config.log]⟩
    | cloneLock c =>
      have := hf c (by rw [hp]; rfl) (by rw [hp]; rfl)
      rw [hp] at this
      exact ⟨_, .cloneLock s u c hp (this.resolve_right (by simp)), by simp [Config.goto]⟩
    | cloneRead c => exact ⟨_, .cloneRead s u c hp, by simp [Config.goto]⟩
    | cloneUnlock c d => exact ⟨_, .cloneUnlock s u c d hp, by simp [Config.goto, Config.log]⟩
  by_cases hw : ∃ c u, (s.thread t).pc.on = some c ∧ (s.thread t).pc.crit = none ∧ (s.cell c).holder = some u
  · obtain ⟨c, u, h1, h2, h3⟩ := hw
    have hcu := (hI.crit u c).2 h3
    obtain ⟨s', h4, h5⟩ := move u (by intro e; rw [e] at hcu; cases hcu) (fun c' e _ => by rw [hcu] at e; cases e)
    exact ⟨u, s', h4, h5, .inr ⟨c, h1, h3⟩⟩
  · obtain ⟨s', h4, h5⟩ := move t ht (fun c h1 h2 => by
      cases hh : (s.cell c).holder with
      | none => exact .inl rfl
      | some u => exact absurd ⟨c, u, h2, h1, hh⟩ hw)
    exact ⟨t, s', h4, h5, .inl rfl⟩

theorem cloned_ge {s₀ s : Config A B} (h : Steps s₀ s) (h₀ : s₀.Initial) :
    s₀.cells ≤ s.cells ∧ ∀ t c c' d, .cloned t c c' d ∈ s.hist → s₀.cells ≤ c' := by
  induction h with
  | refl => rw [h₀.hist]; simp
  | @tail u v _ hs ih =>
    cases hs <;> simp only [Config.goto, Config.log, Config.lock, Config.unlock, Config.write, Config.retRef, List.mem_cons,
      reduceCtorEq, false_or] <;> try exact ih
    · refine ⟨Nat.le_succ_of_le ih.1, ?_⟩
      rintro t' c1 c2 d' (h | h)
      · cases h; exact ih.1
      · exact ih.2 _ _ _ _ h

/-- **C55.** If all callers pass the same initialiser `f` (as the tree code does) and nobody uses exclusive access, then
whatever the schedule, everything observed of a cell is the value `f` makes from its initial content: what
`get_or_create` returns, what `get` returns if it returns anything, and what clones hold. -/
theorem C55_schedule_independent {s₀ s : Config A B} (h₀ : s₀.Initial) (h : Steps s₀ s) (f : A → Option B)
    (hf : ∀ t c g, .called t c (.getOrCreate g) ∈ s.hist → g = f) (hm : ∀ t c b, .mutated t c b ∉ s.hist)
    (c : Nat) (hc : c < s₀.cells) :
    (s.cell c).data.value f = (s₀.cell c).data.value f ∧
    (∀ t b, .created t c b ∈ s.hist → (s₀.cell c).data.value f = some b) ∧
    (∀ t b, .gotten t c (some b) ∈ s.hist → (s₀.cell c).data.value f = some b) ∧
    (∀ t c' d, .cloned t c c' d ∈ s.hist → d.value f = (s₀.cell c).data.value f) := by
  have hI := inv_steps h₀ h
  have hcl := (cloned_ge h h₀).2
  generalize hi : (fun c => (s₀.cell c).data) = init at hI
  have hic : (s₀.cell c).data = init c := by rw [← hi]
  rw [hI.data, hic]
  have key : ∀ hist : List (Event A B), Legal init hist → (∀ t c g, .called t c (.getOrCreate g) ∈ hist → g = f) →
      (∀ t c b, .mutated t c b ∉ hist) → (∀ t c c' d, .cloned t c c' d ∈ hist → s₀.cells ≤ c') →
      (contentAt init hist c).value f = (init c).value f := by
    intro hist
    induction hist with
    | nil => intros; rfl
    | cons e hist ih =>
      intro hl hf hm hcl
      have ih := ih hl.2 (fun t c g h => hf t c g (List.mem_cons_of_mem _ h)) (fun t c b h => hm t c b (List.mem_cons_of_mem _ h))
        (fun t c c' d h => hcl t c c' d (List.mem_cons_of_mem _ h))
      cases e with
      | stored t c' b =>
        simp only [contentAt]; split
        · rename_i e; subst e
          obtain ⟨g, a, h', h1, h2, mid, h3, -⟩ := hl.1
          have := hf t c' g (by rw [h3]; simp)
          subst this
          rw [← ih, h1]; simp [Content.value, h2]
        · exact ih
      | mutated t c' b => exact absurd (List.mem_cons_self ..) (hm t c' b)
      | cloned t c1 c2 d =>
        simp only [contentAt]; split
        · rename_i e; subst e; have := hcl _ _ _ _ (List.mem_cons_self ..); omega
        · exact ih
      | _ => exact ih
  have at_ : ∀ e, e ∈ s.hist → ∃ pre, Allowed init pre e ∧ (contentAt init pre c).value f = (init c).value f := by
    intro e he
    obtain ⟨post, pre, hh⟩ := List.append_of_mem he
    have hl := hI.legal
    rw [hh] at hl
    have hl := Legal.of_append hl
    have hsub : ∀ x, x ∈ pre → x ∈ s.hist := fun x hx => by rw [hh]; simp [hx]
    exact ⟨pre, hl.1, key pre hl.2 (fun t c g h => hf t c g (hsub _ h)) (fun t c b h => hm t c b (hsub _ h))
      (fun t c c' d h => hcl t c c' d (hsub _ h))⟩
  refine ⟨key _ hI.legal hf hm hcl, ?_, ?_, ?_⟩
  · intro t b hb
    obtain ⟨pre, h1, h2⟩ := at_ _ hb
    rw [← h2, h1.1]; rfl
  · intro t b hb
    obtain ⟨pre, h1, h2⟩ := at_ _ hb
    rw [← h2, h1.1]; rfl
  · intro t c' d hd
    obtain ⟨pre, h1, h2⟩ := at_ _ hd
    rw [← h2, h1.1]

/-! ## A concrete run: two threads race to initialise cell 0, a third calls `get`, everybody sees 7 -/

/-- cell 0 holds raw 3; everything else is quiescent -/
def demo : Config Nat Nat := ⟨fun _ => ⟨none, .raw 3⟩, 1, fun _ => ⟨.idle, []⟩, []⟩
def demoF : Nat → Option Nat := fun a => some (2 * a + 1)

example : demo.Initial := ⟨fun _ => rfl, fun _ => rfl, fun _ => rfl, rfl⟩

example : ∃ s, Steps demo s ∧ .created 0 0 7 ∈ s.hist ∧ .created 1 0 7 ∈ s.hist ∧ .gotten 2 0 none ∈ s.hist ∧
    .deref 0 0 7 (.made 7) ∈ s.hist := by
  have h := (Steps.refl demo).tail (.callGoc _ 0 0 demoF rfl (by decide))
  have h := h.tail (.callGoc _ 1 0 demoF rfl (by decide))
  have h := h.tail (.callGet _ 2 0 rfl (by decide))
  have h := h.tail (.getLock _ 2 0 rfl rfl)
  have h := h.tail (.getReadRaw _ 2 0 3 rfl rfl)
  have h := h.tail (.getUnlockNone _ 2 0 rfl)
  have h := h.tail (.gocLock _ 1 0 demoF rfl rfl)
  have h := h.tail (.gocTestRaw _ 1 0 demoF 3 rfl rfl)
  have h := h.tail (.gocRunOk _ 1 0 demoF 3 7 rfl rfl)
  have h := h.tail (.gocWrite _ 1 0 7 rfl)
  have h := h.tail (.gocUnlock _ 1 0 rfl)
  have h := h.tail (.gocLock _ 0 0 demoF rfl rfl)
  have h := h.tail (.gocTestMade _ 0 0 demoF 7 rfl rfl)
  have h := h.tail (.gocReadMade _ 1 0 7 rfl rfl)
  have h := h.tail (.gocUnlock _ 0 0 rfl)
  have h := h.tail (.gocReadMade _ 0 0 7 rfl rfl)
  have h := h.tail (.deref _ 0 0 7 (by simp [Config.retRef, Config.log]))
  refine ⟨_, h, ?_, ?_, ?_, ?_⟩ <;> simp [Config.log, Config.retRef, Config.goto, Config.unlock, Config.lock, Config.write]
end Verif.LazyCell
