import Verif.Model.LazyCell
namespace Verif.LazyCell
variable {A B : Type}

/-- inside the critical section of `c` -/
def Pc.crit : Pc A B → Option Nat
  | .getRead c | .getUnlock c _ | .gocTest c _ | .gocRun c _ _ | .gocWrite c _ | .gocUnwind c
  | .gocUnlock c | .cloneRead c | .cloneUnlock c _ => some c
  | _ => none

/-- initialiser in flight -/
def Pc.inflight : Pc A B → Nat
  | .gocRun _ _ _ | .gocWrite _ _ | .gocUnwind _ => 1
  | _ => 0

def LastC (h : List (Event A B)) (t c : Nat) (op : Call A B) : Prop := ∃ h', LastCall h t c op h'

/-- per-thread part of the invariant -/
def PcOk (init : Nat → Content A B) (s : Config A B) (t : Nat) : Pc A B → Prop
  | .idle => True
  | .getLock c => ∃ h', LastCall s.hist t c .get h' ∧ ∀ b, contentAt init h' c = .made b → ∃ b', (s.cell c).data = .made b'
  | .getRead c => ∃ h', LastCall s.hist t c .get h' ∧ ∀ b, contentAt init h' c = .made b → ∃ b', (s.cell c).data = .made b'
  | .getUnlock c none => ∃ a h', LastCall s.hist t c .get h' ∧ contentAt init h' c = .raw a
  | .getUnlock c (some b) => (s.cell c).data = .made b ∧ LastC s.hist t c .get
  | .gocLock c f => LastC s.hist t c (.getOrCreate f)
  | .gocTest c f => LastC s.hist t c (.getOrCreate f)
  | .gocRun c f a => (s.cell c).data = .raw a ∧ LastC s.hist t c (.getOrCreate f)
  | .gocWrite c b => ∃ f a, (s.cell c).data = .raw a ∧ f a = some b ∧ LastC s.hist t c (.getOrCreate f)
  | .gocUnwind c => ∃ f a, (s.cell c).data = .raw a ∧ f a = none ∧ LastC s.hist t c (.getOrCreate f)
  | .gocUnlock c => ∃ f b, (s.cell c).data = .made b ∧ LastC s.hist t c (.getOrCreate f)
  | .gocRead c => ∃ f b, (s.cell c).data = .made b ∧ LastC s.hist t c (.getOrCreate f)
  | .cloneLock c => LastC s.hist t c .clone
  | .cloneRead c => LastC s.hist t c .clone
  | .cloneUnlock c d => (s.cell c).data = d ∧ LastC s.hist t c .clone

structure Inv (init : Nat → Content A B) (s : Config A B) : Prop where
  legal : Legal init s.hist
  data : ∀ c, (s.cell c).data = contentAt init s.hist c
  crit : ∀ t c, (s.thread t).pc.crit = some c ↔ (s.cell c).holder = some t
  onlt : ∀ t c, (s.thread t).pc.on = some c → c < s.cells
  reflt : ∀ t c b, (c, b) ∈ (s.thread t).refs → c < s.cells
  refs : ∀ t c b, (c, b) ∈ (s.thread t).refs → (s.cell c).data = .made b
  pcs : ∀ t, PcOk init s t (s.thread t).pc
  fresh : ∀ c, s.cells ≤ c → storeCount c s.hist = 0 ∧ startCount c s.hist = 0 ∧ panicCount c s.hist = 0
  store : ∀ c, storeCount c s.hist ≤ 1
  raw : ∀ c a, (s.cell c).data = .raw a → storeCount c s.hist = 0
  starts : ∀ c, startCount c s.hist = storeCount c s.hist + panicCount c s.hist +
    (match (s.cell c).holder with | none => 0 | some t => (s.thread t).pc.inflight)

theorem LastCall.cons {h h' : List (Event A B)} {t c op} (e : Event A B) (hl : LastCall h t c op h')
    (he : ∀ c' op', e ≠ .called t c' op') : LastCall (e :: h) t c op h' := by
  obtain ⟨mid, rfl, hm⟩ := hl
  refine ⟨e :: mid, rfl, ?_⟩
  intro c' op' hc
  rcases List.mem_cons.1 hc with h1 | h1
  · exact he _ _ h1.symm
  · exact hm _ _ h1

theorem LastC.cons {h : List (Event A B)} {t c op} (e : Event A B) (hl : LastC h t c op)
    (he : ∀ c' op', e ≠ .called t c' op') : LastC (e :: h) t c op := by
  obtain ⟨h', hl⟩ := hl; exact ⟨h', hl.cons e he⟩

theorem LastC.new {h : List (Event A B)} {t c op} : LastC (.called t c op :: h) t c op :=
  ⟨h, [], rfl, by simp⟩


theorem PcOk.transfer {init : Nat → Content A B} {s s' : Config A B} {t : Nat} {pc : Pc A B} (h : PcOk init s t pc)
    (hl : ∀ c op h', LastCall s.hist t c op h' → LastCall s'.hist t c op h')
    (hd : ∀ c, pc.on = some c → (s'.cell c).data = (s.cell c).data) : PcOk init s' t pc := by
  cases pc with
  | idle => trivial
  | getLock c => obtain ⟨h', h1, h2⟩ := h; exact ⟨h', hl _ _ _ h1, by rw [hd c rfl]; exact h2⟩
  | getRead c => obtain ⟨h', h1, h2⟩ := h; exact ⟨h', hl _ _ _ h1, by rw [hd c rfl]; exact h2⟩
  | getUnlock c r =>
    cases r with
    | none => obtain ⟨a, h', h1, h2⟩ := h; exact ⟨a, h', hl _ _ _ h1, h2⟩
    | some b => obtain ⟨h0, h', h1⟩ := h; exact ⟨by rw [hd c rfl]; exact h0, h', hl _ _ _ h1⟩
  | gocLock c f => obtain ⟨h', h1⟩ := h; exact ⟨h', hl _ _ _ h1⟩
  | gocTest c f => obtain ⟨h', h1⟩ := h; exact ⟨h', hl _ _ _ h1⟩
  | gocRun c f a => obtain ⟨h0, h', h1⟩ := h; exact ⟨by rw [hd c rfl]; exact h0, h', hl _ _ _ h1⟩
  | gocWrite c b => obtain ⟨f, a, h0, h2, h', h1⟩ := h; exact ⟨f, a, by rw [hd c rfl]; exact h0, h2, h', hl _ _ _ h1⟩
  | gocUnwind c => obtain ⟨f, a, h0, h2, h', h1⟩ := h; exact ⟨f, a, by rw [hd c rfl]; exact h0, h2, h', hl _ _ _ h1⟩
  | gocUnlock c => obtain ⟨f, b, h0, h', h1⟩ := h; exact ⟨f, b, by rw [hd c rfl]; exact h0, h', hl _ _ _ h1⟩
  | gocRead c => obtain ⟨f, b, h0, h', h1⟩ := h; exact ⟨f, b, by rw [hd c rfl]; exact h0, h', hl _ _ _ h1⟩
  | cloneLock c => obtain ⟨h', h1⟩ := h; exact ⟨h', hl _ _ _ h1⟩
  | cloneRead c => obtain ⟨h', h1⟩ := h; exact ⟨h', hl _ _ _ h1⟩
  | cloneUnlock c d => obtain ⟨h0, h', h1⟩ := h; exact ⟨by rw [hd c rfl]; exact h0, h', hl _ _ _ h1⟩

/-- the only threads that can be affected by a write to a raw cell are waiting for its lock -/
theorem PcOk.written {init : Nat → Content A B} {s s' : Config A B} {t c0 : Nat} {b0 : B} {pc : Pc A B} (h : PcOk init s t pc)
    (hl : ∀ c op h', LastCall s.hist t c op h' → LastCall s'.hist t c op h')
    (hd : ∀ c, c ≠ c0 → (s'.cell c).data = (s.cell c).data) (hw : (s'.cell c0).data = .made b0)
    (hraw : ∃ a, (s.cell c0).data = .raw a) (hc : pc.crit ≠ some c0) : PcOk init s' t pc := by
  by_cases hon : pc.on = some c0
  · obtain ⟨a, hraw⟩ := hraw
    cases pc <;> simp only [Pc.crit, Pc.on, ne_eq, reduceCtorEq, not_false_eq_true, Option.some.injEq] at hc hon
    all_goals try contradiction
    all_goals subst hon
    · obtain ⟨h', h1, h2⟩ := h; exact ⟨h', hl _ _ _ h1, fun _ _ => ⟨_, hw⟩⟩
    · obtain ⟨h', h1⟩ := h; exact ⟨h', hl _ _ _ h1⟩
    · obtain ⟨f, b, h0, h', h1⟩ := h; exact ⟨f, _, hw, h', hl _ _ _ h1⟩
    · obtain ⟨h', h1⟩ := h; exact ⟨h', hl _ _ _ h1⟩
  · exact h.transfer hl fun c hc' => hd c (by intro e; subst e; exact hon hc')

theorem inv_init {s : Config A B} (h : s.Initial) : Inv (fun c => (s.cell c).data) s where
  legal := by rw [h.hist]; trivial
  data c := by rw [h.hist]; rfl
  crit t c := by simp [h.idle, h.free, Pc.crit]
  onlt t c := by simp [h.idle, Pc.on]
  reflt t c b := by simp [h.norefs]
  refs t c b := by simp [h.norefs]
  pcs t := by rw [h.idle]; trivial
  fresh c _ := by rw [h.hist]; exact ⟨rfl, rfl, rfl⟩
  store c := by rw [h.hist]; exact Nat.zero_le _
  raw c a _ := by rw [h.hist]; rfl
  starts c := by rw [h.hist, h.free]; rfl

@[simp] theorem upd_self {X : Type} (g : Nat → X) (i : Nat) (x : X) : upd g i x i = x := by simp [upd]
theorem upd_ne {X : Type} (g : Nat → X) {i j : Nat} (x : X) (h : j ≠ i) : upd g i x j = g j := by simp [upd, h]

/-- a step of thread `t` that leaves every cell as it is (apart from the log) -/
theorem Inv.local {init : Nat → Content A B} {s : Config A B} (hI : Inv init s) (t : Nat) (th : Thread A B)
    (evs : List (Event A B))
    (hlegal : Legal init (evs ++ s.hist))
    (hdata : ∀ c, contentAt init (evs ++ s.hist) c = contentAt init s.hist c)
    (hcrit : th.pc.crit = (s.thread t).pc.crit)
    (hon : ∀ c, th.pc.on = some c → c < s.cells)
    (hreflt : ∀ c b, (c, b) ∈ th.refs → c < s.cells ∧ (s.cell c).data = .made b)
    (hothers : ∀ u, u ≠ t → ∀ c op, .called u c op ∉ evs)
    (hpc : PcOk init { s with thread := upd s.thread t th, hist := evs ++ s.hist } t th.pc)
    (hst : ∀ c, storeCount c (evs ++ s.hist) = storeCount c s.hist)
    (hpa : ∀ c, panicCount c (evs ++ s.hist) = panicCount c s.hist)
    (hsta : ∀ c, (s.thread t).pc.crit = some c → startCount c (evs ++ s.hist) + (s.thread t).pc.inflight =
        startCount c s.hist + th.pc.inflight)
    (hsta' : ∀ c, (s.thread t).pc.crit ≠ some c → startCount c (evs ++ s.hist) = startCount c s.hist) :
    Inv init { s with thread := upd s.thread t th, hist := evs ++ s.hist } where
  legal := hlegal
  data c := by simp only [hI.data c, hdata]
  crit u c := by
    simp only [upd]; split
    · rename_i h; subst h; rw [hcrit]; exact hI.crit _ _
    · exact hI.crit _ _
  onlt u c := by
    simp only [upd]; split
    · exact hon c
    · exact hI.onlt u c
  reflt u c b := by
    simp only [upd]; split
    · exact fun h => (hreflt c b h).1
    · exact hI.reflt u c b
  refs u c b := by
    simp only [upd]; split
    · exact fun h => (hreflt c b h).2
    · exact hI.refs u c b
  pcs u := by
    by_cases h : u = t
    · subst h; simp only [upd_self]; exact hpc
    · simp only [upd_ne _ _ h]
      refine (hI.pcs u).transfer (fun c op h' hl => ?_) (fun _ _ => rfl)
      obtain ⟨mid, e, hm⟩ := hl
      refine ⟨evs ++ mid, by simp [e], fun c' op' hx => ?_⟩
      rcases List.mem_append.1 hx with h1 | h1
      · exact hothers u h _ _ h1
      · exact hm _ _ h1
  fresh c hc := by
    have hc : s.cells ≤ c := hc
    obtain ⟨h1, h2, h3⟩ := hI.fresh c hc
    refine ⟨by rw [hst, h1], ?_, by rw [hpa, h3]⟩
    simp only
    rw [hsta', h2]
    intro h
    have : (s.thread t).pc.on = some c := by
      revert h; cases (s.thread t).pc <;> simp [Pc.crit, Pc.on]
    exact absurd (hI.onlt t c this) (by omega)
  store c := by rw [hst]; exact hI.store c
  raw c a h := by rw [hst]; exact hI.raw c a h
  starts c := by
    have h0 := hI.starts c
    by_cases hc : (s.thread t).pc.crit = some c
    · have hh := (hI.crit t c).1 hc
      have := hsta c hc
      simp only [hst, hpa, hh, upd_self] at h0 ⊢
      omega
    · simp only [hst, hpa, hsta' c hc, h0]
      congr 1
      cases hh : (s.cell c).holder with
      | none => rfl
      | some u =>
        have : u ≠ t := by rintro rfl; exact hc ((hI.crit u c).2 hh)
        simp [upd_ne _ _ this]

/-- acquiring the mutex of `c0` -/
theorem Inv.acquire {init : Nat → Content A B} {s : Config A B} (hI : Inv init s) (t c0 : Nat) (pc : Pc A B)
    (hfree : (s.cell c0).holder = none) (hnc : (s.thread t).pc.crit = none) (hcrit : pc.crit = some c0)
    (hon : (s.thread t).pc.on = some c0) (hon' : pc.on = some c0) (hinf : pc.inflight = 0)
    (hpc : PcOk init ((s.lock t c0).goto t pc) t pc) : Inv init ((s.lock t c0).goto t pc) := by
  have hdata : ∀ c, (((s.lock t c0).goto t pc).cell c).data = (s.cell c).data := by
    intro c; simp only [Config.lock, Config.goto, upd]; split
    · rename_i h; subst h; rfl
    · rfl
  refine ⟨hI.legal, fun c => by rw [hdata, hI.data]; rfl, ?_, ?_, ?_, ?_, ?_, hI.fresh, hI.store,
    fun c a h => hI.raw c a (by rw [← hdata]; exact h), ?_⟩
  · intro u c
    have := hI.crit u c
    simp only [Config.lock, Config.goto, upd]
    by_cases hu : u = t <;> by_cases hc : c = c0
    · subst hu hc; simp [hcrit]
    · subst hu; simp only [if_true, if_neg hc, hcrit, Option.some.injEq]
      rw [hnc] at this; constructor
      · intro e; exact absurd e.symm hc
      · intro e; exact absurd (this.2 e) (by simp)
    · subst hc; simp only [if_neg hu, if_true, Option.some.injEq]
      rw [hfree] at this
      exact ⟨fun e => absurd (this.1 e) (by simp), fun e => absurd e.symm hu⟩
    · simpa only [if_neg hu, if_neg hc] using this
  · intro u c
    simp only [Config.lock, Config.goto, upd]; split
    · intro h; rw [hon'] at h; injection h with h; subst h; exact hI.onlt t _ hon
    · exact hI.onlt u c
  · intro u c b
    simp only [Config.lock, Config.goto, upd]; split
    · rename_i h; subst h; exact hI.reflt _ c b
    · exact hI.reflt u c b
  · intro u c b hm
    rw [hdata]
    simp only [Config.lock, Config.goto, upd] at hm; split at hm
    · rename_i h; subst h; exact hI.refs _ c b hm
    · exact hI.refs u c b hm
  · intro u
    by_cases h : u = t
    · subst h
      have : (((s.lock u c0).goto u pc).thread u).pc = pc := by simp [Config.goto]
      rw [this]; exact hpc
    · have : (((s.lock t c0).goto t pc).thread u) = s.thread u := by simp [Config.goto, upd_ne _ _ h, Config.lock]
      rw [this]
      exact (hI.pcs u).transfer (fun _ _ _ h => h) (fun c _ => hdata c)
  · intro c
    have h0 := hI.starts c
    simp only [Config.lock, Config.goto, upd]
    by_cases hc : c = c0
    · subst hc; simp only [hfree] at h0
      simp only [if_true, hinf]; exact h0
    · simp only [if_neg hc]
      cases hh : (s.cell c).holder with
      | none => simpa only [hh] using h0
      | some u =>
        have : u ≠ t := by rintro rfl; have := (hI.crit u c).2 hh; rw [hnc] at this; cases this
        simpa only [hh, if_neg this] using h0

/-- leaving the critical section of `c0`, logging at most one event -/
theorem Inv.leave {init : Nat → Content A B} {s : Config A B} (hI : Inv init s) (t c0 : Nat) (th : Thread A B)
    (evs : List (Event A B))
    (hlegal : Legal init (evs ++ s.hist))
    (hdata : ∀ c, contentAt init (evs ++ s.hist) c = contentAt init s.hist c)
    (hcr : (s.thread t).pc.crit = some c0) (hnc : th.pc.crit = none)
    (hon : ∀ c, th.pc.on = some c → c < s.cells)
    (hreflt : ∀ c b, (c, b) ∈ th.refs → c < s.cells ∧ (s.cell c).data = .made b)
    (hothers : ∀ u, ∀ c op, .called u c op ∉ evs)
    (hpc : ∀ s' : Config A B, s'.hist = evs ++ s.hist → (∀ c, (s'.cell c).data = (s.cell c).data) → PcOk init s' t th.pc)
    (hst : ∀ c, storeCount c (evs ++ s.hist) = storeCount c s.hist)
    (hpa : ∀ c, panicCount c (evs ++ s.hist) = panicCount c s.hist + if c = c0 then (s.thread t).pc.inflight else 0)
    (hsta : ∀ c, startCount c (evs ++ s.hist) = startCount c s.hist) :
    Inv init { s.unlock c0 with thread := upd s.thread t th, hist := evs ++ s.hist } := by
  have hd : ∀ c, ((s.unlock c0).cell c).data = (s.cell c).data := by
    intro c; simp only [Config.unlock, upd]; split
    · rename_i h; subst h; rfl
    · rfl
  have hhold := (hI.crit t c0).1 hcr
  have hlt : c0 < s.cells := by
    refine hI.onlt t c0 ?_
    revert hcr; cases (s.thread t).pc <;> simp [Pc.crit, Pc.on]
  refine ⟨hlegal, fun c => by simp only [hd, hdata]; exact hI.data c, ?_, ?_, ?_, ?_, ?_, ?_, ?_, ?_, ?_⟩
  · intro u c
    have := hI.crit u c
    simp only [Config.unlock, upd]
    by_cases hu : u = t <;> by_cases hc : c = c0
    · subst hu hc; simp [hnc]
    · subst hu; simp only [if_true, if_neg hc, hnc]
      rw [hcr] at this
      constructor
      · simp
      · intro e; have := this.2 e; injection this with this; exact absurd this.symm hc
    · subst hc; simp only [if_neg hu, if_true]
      rw [hhold] at this
      constructor
      · intro e; have := this.1 e; injection this with this; exact absurd this.symm hu
      · simp
    · simpa only [if_neg hu, if_neg hc] using this
  · intro u c
    simp only [upd]; split
    · exact hon c
    · exact hI.onlt u c
  · intro u c b
    simp only [upd]; split
    · exact fun h => (hreflt c b h).1
    · exact hI.reflt u c b
  · intro u c b
    simp only [upd, hd]; split
    · exact fun h => (hreflt c b h).2
    · exact hI.refs u c b
  · intro u
    by_cases h : u = t
    · subst h; simp only [upd_self]; exact hpc _ rfl hd
    · simp only [upd_ne _ _ h]
      refine (hI.pcs u).transfer (fun c op h' hl => ?_) (fun c _ => hd c)
      obtain ⟨mid, e, hm⟩ := hl
      refine ⟨evs ++ mid, by simp [e], fun c' op' hx => ?_⟩
      rcases List.mem_append.1 hx with h1 | h1
      · exact hothers u _ _ h1
      · exact hm _ _ h1
  · intro c hc
    have hc : s.cells ≤ c := hc
    obtain ⟨h1, h2, h3⟩ := hI.fresh c hc
    refine ⟨by simp only [hst, h1], by simp only [hsta, h2], ?_⟩
    simp only [hpa, h3]
    rw [if_neg (by omega)]
  · intro c; simp only [hst]; exact hI.store c
  · intro c a h; simp only [hst]; exact hI.raw c a (by rw [← hd]; exact h)
  · intro c
    have h0 := hI.starts c
    simp only [hst, hpa, hsta, Config.unlock, upd]
    by_cases hc : c = c0
    · subst hc; simp only [hhold] at h0; simp only [if_true]; omega
    · simp only [if_neg hc, Nat.add_zero]
      cases hh : (s.cell c).holder with
      | none => simpa only [hh] using h0
      | some u =>
        have : u ≠ t := by
          rintro rfl; have := (hI.crit u c).2 hh; rw [hcr] at this; injection this with this; exact hc this.symm
        simpa only [hh, if_neg this] using h0

theorem LastCall.skip {h h' : List (Event A B)} {t c op} (e : Event A B) (hl : LastCall h t c op h')
    (he : ∀ c' op', e ≠ .called t c' op') : LastCall ([e] ++ h) t c op h' := hl.cons e he

theorem Inv.oldrefs {init : Nat → Content A B} {s : Config A B} (hI : Inv init s) (t : Nat) :
    ∀ c b, (c, b) ∈ (s.thread t).refs → c < s.cells ∧ (s.cell c).data = .made b :=
  fun c b h => ⟨hI.reflt t c b h, hI.refs t c b h⟩

/-- a write to the raw cell `c0` by its lock holder -/
theorem Inv.writes {init : Nat → Content A B} {s : Config A B} (hI : Inv init s) (t c0 : Nat) (b : B)
    (hp : (s.thread t).pc = .gocWrite c0 b) :
    Inv init (((s.write c0 (.made b)).goto t (.gocUnlock c0)).log (.stored t c0 b)) := by
  have hpc := hI.pcs t
  rw [hp] at hpc
  obtain ⟨f, a, hraw, hfa, h', hl⟩ := hpc
  have hlt : c0 < s.cells := hI.onlt t c0 (by rw [hp]; rfl)
  have hhold : (s.cell c0).holder = some t := (hI.crit t c0).1 (by rw [hp]; rfl)
  have hcell : ∀ c, (((s.write c0 (.made b)).goto t (.gocUnlock c0)).log (.stored t c0 b)).cell c =
      if c = c0 then ⟨some t, .made b⟩ else s.cell c := by
    intro c; simp only [Config.write, Config.goto, Config.log, upd, hhold]
  have hth : ∀ u, (((s.write c0 (.made b)).goto t (.gocUnlock c0)).log (.stored t c0 b)).thread u =
      if u = t then ⟨.gocUnlock c0, (s.thread t).refs⟩ else s.thread u := by
    intro u; simp only [Config.write, Config.goto, Config.log, upd]
  have hnoref : ∀ u b', (c0, b') ∉ (s.thread u).refs := by
    intro u b' hm; have := hI.refs u c0 b' hm; rw [hraw] at this; cases this
  refine ⟨⟨⟨f, a, h', (hI.data c0).symm.trans hraw, hfa, hl⟩, hI.legal⟩, ?_, ?_, ?_, ?_, ?_, ?_, ?_, ?_, ?_, ?_⟩
  · intro c
    rw [hcell]
    simp only [Config.write, Config.goto, Config.log, contentAt]
    by_cases h : c = c0
    · subst h; simp
    · rw [if_neg h, if_neg (fun e => h e.symm)]; exact hI.data c
  · intro u c
    have h0 := hI.crit u c
    rw [hcell, hth]
    by_cases hu : u = t
    · subst hu
      rw [hp] at h0
      by_cases hc : c = c0
      · subst hc; simp [Pc.crit]
      · simp only [if_true, if_neg hc, ← h0, Pc.crit]
    · rw [if_neg hu]
      by_cases hc : c = c0
      · subst hc; rw [hhold] at h0; simpa using h0
      · rw [if_neg hc]; exact h0
  · intro u c
    rw [hth]; split
    · intro h; injection h with h; subst h; exact hlt
    · exact hI.onlt u c
  · intro u c b'
    rw [hth]; split
    · exact hI.reflt t c b'
    · exact hI.reflt u c b'
  · intro u c b' hm
    rw [hcell]
    have hm' : (c, b') ∈ (s.thread u).refs := by
      rw [hth] at hm; split at hm
      · rename_i h; subst h; exact hm
      · exact hm
    rw [if_neg (by rintro rfl; exact hnoref u b' hm')]
    exact hI.refs u c b' hm'
  · intro u
    by_cases hu : u = t
    · subst hu
      rw [hth, if_pos rfl]
      exact ⟨f, b, by rw [hcell, if_pos rfl], h', hl.cons _ (by simp)⟩
    · rw [hth, if_neg hu]
      refine (hI.pcs u).written (c0 := c0) (b0 := b) (fun _ _ _ h => h.cons _ (by simp))
        (fun c hc => by rw [hcell, if_neg hc]) (by rw [hcell, if_pos rfl]) ⟨a, hraw⟩ ?_
      intro hc
      have := (hI.crit u c0).1 hc
      rw [hhold] at this; injection this with this; exact hu this.symm
  · intro c hc
    have hc : s.cells ≤ c := hc
    obtain ⟨h1, h2, h3⟩ := hI.fresh c hc
    simp only [Config.log, Config.goto, Config.write, storeCount, startCount, panicCount]
    exact ⟨by rw [h1, if_neg (by omega)], h2, h3⟩
  · intro c
    simp only [Config.log, Config.goto, Config.write, storeCount]
    split
    · rename_i h; subst h; rw [hI.raw _ a hraw]; omega
    · have := hI.store c; omega
  · intro c a' h
    simp only [Config.log, Config.goto, Config.write, storeCount]
    rw [hcell] at h
    split at h
    · cases h
    · rename_i hc
      rw [if_neg (fun e => hc e.symm), hI.raw c a' h]
  · intro c
    have h0 := hI.starts c
    simp only [hcell, hth]
    simp only [Config.log, Config.goto, Config.write, storeCount, startCount, panicCount]
    by_cases hc : c = c0
    · subst hc
      simp only [hhold, hp, Pc.inflight] at h0
      simp only [if_true, Pc.inflight]; omega
    · rw [if_neg (fun e => hc e.symm)]
      simp only [if_neg hc]
      cases hh : (s.cell c).holder with
      | none => simp only [hh] at h0; simp only []; omega
      | some u =>
        have : u ≠ t := by
          rintro rfl; have := (hI.crit u c).2 hh; rw [hp] at this; injection this with this; exact hc this.symm
        simp only [hh] at h0
        simp only [if_neg this]; omega

/-- exclusive access -/
theorem Inv.excl {init : Nat → Content A B} {s : Config A B} (hI : Inv init s) (t c0 : Nat) (b : B)
    (hlt : c0 < s.cells) (hex : ∀ u, ¬ s.borrows u c0) :
    Inv init ((s.write c0 (.made b)).log (.mutated t c0 b)) := by
  have hcell : ∀ c, ((s.write c0 (.made b)).log (.mutated t c0 b)).cell c =
      if c = c0 then ⟨(s.cell c0).holder, .made b⟩ else s.cell c := by
    intro c; simp only [Config.write, Config.log, upd]
  have hnoon : ∀ u, (s.thread u).pc.on ≠ some c0 := fun u h => hex u (.inl h)
  have hnoref : ∀ u b', (c0, b') ∉ (s.thread u).refs := fun u b' h => hex u (.inr ⟨b', h⟩)
  refine ⟨⟨trivial, hI.legal⟩, ?_, ?_, hI.onlt, hI.reflt, ?_, ?_, hI.fresh, hI.store, ?_, ?_⟩
  · intro c
    rw [hcell]
    simp only [Config.write, Config.log, contentAt]
    by_cases h : c = c0
    · subst h; simp
    · rw [if_neg h, if_neg (fun e => h e.symm)]; exact hI.data c
  · intro u c
    rw [hcell]
    by_cases hc : c = c0
    · subst hc; rw [if_pos rfl]; exact hI.crit u c
    · rw [if_neg hc]; exact hI.crit u c
  · intro u c b' hm
    rw [hcell, if_neg (by rintro rfl; exact hnoref u b' hm)]
    exact hI.refs u c b' hm
  · intro u
    exact (hI.pcs u).transfer (fun _ _ _ h => h.cons _ (by simp))
      (fun c hc => by rw [hcell, if_neg (by rintro rfl; exact hnoon u hc)])
  · intro c a h
    rw [hcell] at h
    split at h
    · cases h
    · exact hI.raw c a h
  · intro c
    have h0 := hI.starts c
    have : (((s.write c0 (.made b)).log (.mutated t c0 b)).cell c).holder = (s.cell c).holder := by
      rw [hcell]; split
      · rename_i h; subst h; rfl
      · rfl
    simp only [this]
    exact h0

/-- the new cell made by `clone` -/
theorem Inv.addcell {init : Nat → Content A B} {s : Config A B} (hI : Inv init s) (t c0 : Nat) (d : Content A B)
    (hd : contentAt init s.hist c0 = d) (hl : ∃ h', LastCall s.hist t c0 .clone h') :
    Inv init { s.log (.cloned t c0 s.cells d) with cell := upd s.cell s.cells ⟨none, d⟩, cells := s.cells + 1 } := by
  have hne : ∀ u c, (s.thread u).pc.on = some c → c ≠ s.cells := fun u c h => Nat.ne_of_lt (hI.onlt u c h)
  have hcrit : ∀ u, (s.thread u).pc.crit ≠ some s.cells := by
    intro u h
    refine hne u _ ?_ rfl
    revert h; cases (s.thread u).pc <;> simp [Pc.crit, Pc.on]
  refine ⟨⟨⟨hd, hl⟩, hI.legal⟩, ?_, ?_, ?_, ?_, ?_, ?_, ?_, hI.store, ?_, ?_⟩
  · intro c
    simp only [Config.log, contentAt, upd]
    by_cases h : c = s.cells
    · subst h; simp
    · rw [if_neg h, if_neg (fun e => h e.symm)]; exact hI.data c
  · intro u c
    simp only [Config.log, upd]
    by_cases hc : c = s.cells
    · subst hc; simp only [if_true, reduceCtorEq, iff_false]; exact hcrit u
    · rw [if_neg hc]; exact hI.crit u c
  · intro u c h; exact Nat.lt_succ_of_lt (hI.onlt u c h)
  · intro u c b h; exact Nat.lt_succ_of_lt (hI.reflt u c b h)
  · intro u c b hm
    have := hI.reflt u c b hm
    simp only [Config.log, upd]
    rw [if_neg (by omega)]
    exact hI.refs u c b hm
  · intro u
    refine (hI.pcs u).transfer (fun _ _ _ h => h.cons _ (by simp)) (fun c hc => ?_)
    simp only [upd, if_neg (hne u c hc)]
  · intro c hc
    exact hI.fresh c (by simp only at hc; omega)
  · intro c a h
    simp only [upd] at h
    split at h
    · rename_i hc; subst hc; exact (hI.fresh _ (Nat.le_refl _)).1
    · exact hI.raw c a h
  · intro c
    have h0 := hI.starts c
    simp only [Config.log, upd]
    by_cases hc : c = s.cells
    · subst hc
      obtain ⟨h1, h2, h3⟩ := hI.fresh _ (Nat.le_refl _)
      simp only [if_true, storeCount, startCount, panicCount, h1, h2, h3]
    · simp only [if_neg hc]; exact h0

theorem inv_step {init : Nat → Content A B} {s s' : Config A B} (hI : Inv init s) (h : Step s s') : Inv init s' := by
  cases h with
  | callGet t c hp hc =>
    refine hI.local t { s.thread t with pc := .getLock c } [.called t c .get] ⟨trivial, hI.legal⟩ (fun _ => rfl) (by rw [hp]; rfl)
      (by simp [Pc.on]; omega) (hI.oldrefs t) (fun u hu => by simp [hu]) ?_ (fun _ => rfl) (fun _ => rfl) (fun _ _ => by rw [hp]; rfl) (fun _ _ => rfl)
    exact ⟨s.hist, ⟨[], rfl, by simp⟩, fun b hb => ⟨b, by rw [← hb]; exact hI.data c⟩⟩
  | callGoc t c f hp hc =>
    exact hI.local t { s.thread t with pc := .gocLock c f } [.called t c (.getOrCreate f)] ⟨trivial, hI.legal⟩ (fun _ => rfl) (by rw [hp]; rfl)
      (by simp [Pc.on]; omega) (hI.oldrefs t) (fun u hu => by simp [hu]) LastC.new (fun _ => rfl) (fun _ => rfl) (fun _ _ => by rw [hp]; rfl) (fun _ _ => rfl)
  | callClone t c hp hc =>
    exact hI.local t { s.thread t with pc := .cloneLock c } [.called t c .clone] ⟨trivial, hI.legal⟩ (fun _ => rfl) (by rw [hp]; rfl)
      (by simp [Pc.on]; omega) (hI.oldrefs t) (fun u hu => by simp [hu]) LastC.new (fun _ => rfl) (fun _ => rfl) (fun _ _ => by rw [hp]; rfl) (fun _ _ => rfl)
  | getLock t c hp hf =>
    refine hI.acquire t c _ hf (by rw [hp]; rfl) rfl (by rw [hp]; rfl) rfl rfl ?_
    have := hI.pcs t; rw [hp] at this
    obtain ⟨h', h1, h2⟩ := this
    refine ⟨h', h1, fun b hb => ?_⟩
    obtain ⟨b', h3⟩ := h2 b hb
    exact ⟨b', by simp [Config.lock, Config.goto, h3]⟩
  | getReadRaw t c a hp hd =>
    refine hI.local t { s.thread t with pc := .getUnlock c none } [] hI.legal (fun _ => rfl) (by rw [hp]; rfl)
      (fun c' h => hI.onlt t c' (by rw [hp]; exact h)) (hI.oldrefs t) (by simp) ?_ (fun _ => rfl) (fun _ => rfl) (fun _ _ => by rw [hp]; rfl) (fun _ _ => rfl)
    have := hI.pcs t; rw [hp] at this
    obtain ⟨h', h1, h2⟩ := this
    cases hx : contentAt init h' c with
    | raw a' => exact ⟨a', h', h1, hx⟩
    | made b => obtain ⟨b', h3⟩ := h2 b hx; rw [hd] at h3; cases h3
  | getReadMade t c b hp hd =>
    refine hI.local t { s.thread t with pc := .getUnlock c (some b) } [] hI.legal (fun _ => rfl) (by rw [hp]; rfl)
      (fun c' h => hI.onlt t c' (by rw [hp]; exact h)) (hI.oldrefs t) (by simp) ?_ (fun _ => rfl) (fun _ => rfl) (fun _ _ => by rw [hp]; rfl) (fun _ _ => rfl)
    have := hI.pcs t; rw [hp] at this
    obtain ⟨h', h1, h2⟩ := this
    exact ⟨hd, h', h1⟩
  | getUnlockNone t c hp =>
    have := hI.pcs t; rw [hp] at this
    exact hI.leave t c { s.thread t with pc := .idle } [.gotten t c none] ⟨this, hI.legal⟩ (fun _ => rfl) (by rw [hp]; rfl) rfl
      (by simp [Pc.on]) (hI.oldrefs t) (by simp) (fun _ _ _ => trivial) (fun _ => rfl) (fun c' => by rw [hp]; simp [Pc.inflight, panicCount]) (fun _ => rfl)
  | getUnlockSome t c b hp =>
    have := hI.pcs t; rw [hp] at this
    have hlt : c < s.cells := hI.onlt t c (by rw [hp]; rfl)
    refine hI.leave t c { pc := .idle, refs := (c, b) :: (s.thread t).refs } [.gotten t c (some b)] ⟨⟨?_, this.2⟩, hI.legal⟩ (fun _ => rfl) (by rw [hp]; rfl) rfl
      (by simp [Pc.on]) ?_ (by simp) (fun _ _ _ => trivial) (fun _ => rfl) (fun c' => by rw [hp]; simp [Pc.inflight, panicCount]) (fun _ => rfl)
    · exact (hI.data c).symm.trans this.1
    · intro c' b' hm
      rcases List.mem_cons.1 hm with h | h
      · cases h; exact ⟨hlt, this.1⟩
      · exact hI.oldrefs t c' b' h
  | gocLock t c f hp hf =>
    refine hI.acquire t c _ hf (by rw [hp]; rfl) rfl (by rw [hp]; rfl) rfl rfl ?_
    have := hI.pcs t; rw [hp] at this
    exact this
  | gocTestRaw t c f a hp hd =>
    have := hI.pcs t; rw [hp] at this
    obtain ⟨h', hl⟩ := this
    refine hI.local t { s.thread t with pc := .gocRun c f a } [.initStarted t c f a] ⟨⟨(hI.data c).symm.trans hd, h', hl⟩, hI.legal⟩ (fun _ => rfl) (by rw [hp]; rfl)
      (fun c' h => hI.onlt t c' (by rw [hp]; exact h)) (hI.oldrefs t) (by simp) ⟨hd, h', hl.cons _ (by simp)⟩ (fun _ => rfl) (fun _ => rfl) (fun c' h => ?_) (fun c' h => ?_)
    · rw [hp] at h ⊢; injection h with h; subst h; simp [startCount, Pc.inflight]; omega
    · rw [hp] at h; simp [Pc.crit] at h; simp [startCount, h]
  | gocTestMade t c f b hp hd =>
    have := hI.pcs t; rw [hp] at this
    exact hI.local t { s.thread t with pc := .gocUnlock c } [] hI.legal (fun _ => rfl) (by rw [hp]; rfl)
      (fun c' h => hI.onlt t c' (by rw [hp]; exact h)) (hI.oldrefs t) (by simp) ⟨f, b, hd, this⟩ (fun _ => rfl) (fun _ => rfl) (fun _ _ => by rw [hp]; rfl) (fun _ _ => rfl)
  | gocRunOk t c f a b hp hfa =>
    have := hI.pcs t; rw [hp] at this
    exact hI.local t { s.thread t with pc := .gocWrite c b } [] hI.legal (fun _ => rfl) (by rw [hp]; rfl)
      (fun c' h => hI.onlt t c' (by rw [hp]; exact h)) (hI.oldrefs t) (by simp) ⟨f, a, this.1, hfa, this.2⟩ (fun _ => rfl) (fun _ => rfl) (fun _ _ => by rw [hp]; rfl) (fun _ _ => rfl)
  | gocRunPanic t c f a hp hfa =>
    have := hI.pcs t; rw [hp] at this
    exact hI.local t { s.thread t with pc := .gocUnwind c } [] hI.legal (fun _ => rfl) (by rw [hp]; rfl)
      (fun c' h => hI.onlt t c' (by rw [hp]; exact h)) (hI.oldrefs t) (by simp) ⟨f, a, this.1, hfa, this.2⟩ (fun _ => rfl) (fun _ => rfl) (fun _ _ => by rw [hp]; rfl) (fun _ _ => rfl)
  | gocWrite t c b hp => exact hI.writes t c b hp
  | gocUnwind t c hp =>
    have := hI.pcs t; rw [hp] at this
    obtain ⟨f, a, h1, h2, h', h3⟩ := this
    refine hI.leave t c { s.thread t with pc := .idle } [.initPanicked t c] ⟨⟨f, a, h', (hI.data c).symm.trans h1, h2, h3⟩, hI.legal⟩ (fun _ => rfl) (by rw [hp]; rfl) rfl
      (by simp [Pc.on]) (hI.oldrefs t) (by simp) (fun _ _ _ => trivial) (fun _ => rfl) (fun c' => ?_) (fun _ => rfl)
    rw [hp]; simp only [Pc.inflight, List.cons_append, List.nil_append, panicCount]
    by_cases hc : c' = c
    · subst hc; simp; omega
    · rw [if_neg (fun e => hc e.symm), if_neg hc]; omega
  | gocUnlock t c hp =>
    have := hI.pcs t; rw [hp] at this
    obtain ⟨f, b, h1, h', h3⟩ := this
    exact hI.leave t c { s.thread t with pc := .gocRead c } [] hI.legal (fun _ => rfl) (by rw [hp]; rfl) rfl
      (fun c' h => hI.onlt t c' (by rw [hp]; exact h)) (hI.oldrefs t) (by simp) (fun s' e1 e2 => ⟨f, b, by rw [e2]; exact h1, h', by rw [e1]; exact h3⟩) (fun _ => rfl) (fun c' => by rw [hp]; simp [Pc.inflight]) (fun _ => rfl)
  | gocReadMade t c b hp hd =>
    have := hI.pcs t; rw [hp] at this
    obtain ⟨f, b', h1, h', h3⟩ := this
    have hlt : c < s.cells := hI.onlt t c (by rw [hp]; rfl)
    refine hI.local t { pc := .idle, refs := (c, b) :: (s.thread t).refs } [.created t c b] ⟨⟨(hI.data c).symm.trans hd, f, h', h3⟩, hI.legal⟩ (fun _ => rfl) (by rw [hp]; rfl)
      (by simp [Pc.on]) ?_ (by simp) trivial (fun _ => rfl) (fun _ => rfl) (fun _ _ => by rw [hp]; rfl) (fun _ _ => rfl)
    intro c' b' hm
    rcases List.mem_cons.1 hm with h | h
    · cases h; exact ⟨hlt, hd⟩
    · exact hI.oldrefs t c' b' h
  | gocReadRaw t c a hp hd =>
    have := hI.pcs t; rw [hp] at this
    obtain ⟨f, b', h1, h', h3⟩ := this
    rw [hd] at h1; cases h1
  | cloneLock t c hp hf =>
    refine hI.acquire t c _ hf (by rw [hp]; rfl) rfl (by rw [hp]; rfl) rfl rfl ?_
    have := hI.pcs t; rw [hp] at this
    exact this
  | cloneRead t c hp =>
    have := hI.pcs t; rw [hp] at this
    exact hI.local t { s.thread t with pc := .cloneUnlock c (s.cell c).data } [] hI.legal (fun _ => rfl) (by rw [hp]; rfl)
      (fun c' h => hI.onlt t c' (by rw [hp]; exact h)) (hI.oldrefs t) (by simp) ⟨rfl, this⟩ (fun _ => rfl) (fun _ => rfl) (fun _ _ => by rw [hp]; rfl) (fun _ _ => rfl)
  | cloneUnlock t c d hp =>
    have := hI.pcs t; rw [hp] at this
    have h1 : Inv init ((s.unlock c).goto t .idle) :=
      hI.leave t c { s.thread t with pc := .idle } [] hI.legal (fun _ => rfl) (by rw [hp]; rfl) rfl
        (by simp [Pc.on]) (hI.oldrefs t) (by simp) (fun _ _ _ => trivial) (fun _ => rfl) (fun c' => by rw [hp]; simp [Pc.inflight]) (fun _ => rfl)
    exact h1.addcell t c d (by rw [← this.1]; exact (hI.data c).symm) this.2
  | deref t c b hm =>
    have e : upd s.thread t (s.thread t) = s.thread := by funext j; simp only [upd]; split <;> simp_all
    have h := hI.local t (s.thread t) [.deref t c b (s.cell c).data] ⟨hI.refs t c b hm, hI.legal⟩ (fun _ => rfl) rfl
      (hI.onlt t) (hI.oldrefs t) (by simp)
      ((hI.pcs t).transfer (fun _ _ _ h => h.cons (.deref t c b (s.cell c).data) (by simp)) (fun _ _ => rfl))
      (fun _ => rfl) (fun _ => rfl) (fun _ _ => rfl) (fun _ _ => rfl)
    rw [e] at h; exact h
  | release t refs hs =>
    exact hI.local t { s.thread t with refs := refs } [] hI.legal (fun _ => rfl) rfl
      (hI.onlt t) (fun c b h => hI.oldrefs t c b (hs.subset h)) (by simp) ((hI.pcs t).transfer (fun _ _ _ h => h) (fun _ _ => rfl)) (fun _ => rfl) (fun _ => rfl) (fun _ _ => rfl) (fun _ _ => rfl)
  | exclusive t c b hlt hex => exact hI.excl t c b hlt hex

theorem inv_steps {s s' : Config A B} (hi : s.Initial) (h : Steps s s') : Inv (fun c => (s.cell c).data) s' := by
  induction h with
  | refl => exact inv_init hi
  | tail _ h ih => exact inv_step ih h
end Verif.LazyCell
