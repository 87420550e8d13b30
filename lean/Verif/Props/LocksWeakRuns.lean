import Verif.Props.LocksWeak
import Verif.Props.ChunksWeak
/-
C111: where events are stored, and when a start or a stop takes effect, in the trace log over a
release/acquire memory with the compare-exchanges and stores of the chunk locks in the same memory.
-/
namespace Phosphor.TLog.W
open Phosphor.Weak

/-- An execution with the changes made to chunks, the latest first. The steps are those of
Model/TraceLogWeakLock. Code: `src/trace_buffer.cc:29-50,116,219`, `src/trace_log.cc:132,146`,
`src/chunk_lock.cc:29-80`. -/
inductive LRun : St → List Change → St → Prop
  | refl {w} : LRun w [] w
  | reset {w L w' t c} : LRun w L w' → w'.pc t = .reset c →
      LRun w (.reset t c :: L) (w'.goto t (.setChunk c) (w'.mem.write t (.cell c.1 c.2)))
  | store {w L w' t c} : LRun w L w' → w'.pc t = .write → w'.tc t = some c →
      LRun w (.store t c :: L) (w'.goto t .unlock ((w'.mem.read t (.tc t)).write t (.cell c.1 c.2)))
  | other {w L w' w''} : LRun w L w' → LStep w' w'' →
      (∀ t, w'.pc t = .write → w''.pc t = .write) → (∀ t c, w'.pc t = .reset c → w''.pc t = .reset c) →
      LRun w L w''

/-- A step that has nothing to do with locks. -/
theorem good_other {w w' : St} {lk : Nat → Option Nat} {lview : Nat → View Loc} (h : Good w lk lview)
    (h1 : ∀ lk lview, Step true { w with lk := lk, lview := lview } { w' with lk := lk, lview := lview })
    (h2 : ∀ u, w'.mem.hist (lockAt u) = w.mem.hist (lockAt u)) : Good w' lk lview :=
  ⟨h.1.step (h1 lk lview), fun u => (h.2 u).keep (h2 u) rfl rfl (fun s => step_view (h1 lk lview) s)
    (step_slave h.1 (h1 lk lview) rfl)⟩

/-- Each execution with lock words is one with lock objects that makes the same changes. -/
theorem sim {w0 w : St} {L : List Change} {lk0 : Nat → Option Nat} {lview0 : Nat → View Loc} (g : Good w0 lk0 lview0)
    (r : LRun w0 L w) : ∃ lk lview, Good w lk lview ∧ Run (w0.with lk0 lview0) L (w.with lk lview) := by
  induction r with
  | refl => exact ⟨lk0, lview0, g, .refl⟩
  | reset _ hq ih =>
    obtain ⟨lk, lview, a, b⟩ := ih
    exact ⟨lk, lview, good_other a (fun _ _ => .reset hq) (fun _ => rfl), .reset b hq⟩
  | store _ hq hc ih =>
    obtain ⟨lk, lview, a, b⟩ := ih
    exact ⟨lk, lview, good_other a (fun _ _ => .write hq hc) (fun _ => rfl), .store b hq hc⟩
  | @other L _ _ _ hs h1 h2 ih =>
    obtain ⟨lk, lview, a, b⟩ := ih
    obtain ⟨lk', lview', c, d⟩ := good_step (R := fun x => Run _ L x)
      (fun _ _ _ r q => r.other q.step q.write q.reset) ⟨⟨a.1, b⟩, a.2⟩ hs fun x => b.other x h1 h2
    exact ⟨lk', lview', ⟨c.1, d⟩, c.2⟩

theorem good_init : Good St.init St.init.lk St.init.lview := by
  refine ⟨.init, fun u => ⟨0, ⟨0, View.bot⟩, rfl, fun ts m' hx => ?_, fun ts _ _ _ hl => ?_, .inl ⟨rfl, rfl, VLe.refl _⟩⟩⟩
  · by_contra hc
    have : ts ≠ 0 := by omega
    simp [St.with, St.init, Mem.init, this] at hx
  · omega

theorem sim_init {w : St} {L : List Change} (r : LRun St.init L w) :
    ∃ lk lview, Run St.init L (w.with lk lview) := by
  obtain ⟨lk, lview, -, h⟩ := sim good_init r
  exact ⟨lk, lview, h⟩

/-- Every execution has its changes. -/
theorem lrun_of_reachable {w : St} (h : LReachable w) : ∃ L, LRun St.init L w := by
  induction h with
  | init => exact ⟨[], .refl⟩
  | @step w w' _ hs ih =>
    obtain ⟨L, r⟩ := ih
    have hs' := hs
    have mv : ∀ {t : Nat} {p q : Pc}, w'.pc = setf w.pc t p → w.pc t = q → q ≠ .write → (∀ c, q ≠ .reset c) →
        ∃ L, LRun St.init L w' := by
      intro t p q hp hq h1 h2
      have key : ∀ {r u}, q ≠ r → w.pc u = r → w'.pc u = r := by
        intro r u hr hu
        have : u ≠ t := fun e => by subst e; exact hr (hq.symm.trans hu)
        rw [hp, setf_ne _ _ this]; exact hu
      exact ⟨L, r.other hs' (fun u hu => key h1 hu) (fun u c hu => key (h2 c) hu)⟩
    cases hs with
    | other h1 h2 h3 h4 h5 =>
      have hx : Step true w w' := by
        have := h1 w.lk w.lview
        rw [← h4, ← h5] at this
        have e : ({ w with lk := w'.lk, lview := w'.lview } : St) = w := by rw [h4, h5]
        rw [e] at this; exact this
      cases hx with
      | reset hq => exact ⟨_, r.reset hq⟩
      | write hq hc => exact ⟨_, r.store hq hc⟩
      | other | extLoad | extStore | ownRead | ownGive | ownFree =>
        exact ⟨L, r.other hs' (fun _ h => h) (fun _ _ h => h)⟩
      | newBuf _ _ hq => exact mv (by simp [St.goto]; rfl) hq (by simp) (by simp)
      | logOff hq | logOn hq | tryFail hq | tryOk hq | notReg hq | noChunk hq | fullChunk hq | room hq | checkOff hq | checkOn hq
      | replaceNone hq | replaceSome hq | giveBack hq | clear hq | againOff hq | againOn hq | bufNone hq | bufSome hq
      | fresh hq | reuse hq | exhausted hq | setChunk hq | unlock hq | lockM hq | unlockM hq | cfg hq
      | statsNone hq | statsSome hq | stop hq | resume hq | start hq | startOff hq | startOn hq | turnOn hq
      | getBuf hq | getBufOn hq | getBufOff hq | take hq | register hq | deregister hq | dNone hq | dSome hq
      | dReturnNone hq | dReturn hq | dClear hq | dErase hq | exchangeOn hq | exchangeOff hq | evLock hq | evClear hq | evUnlock hq
      | evDone hq => exact mv rfl hq (by simp) (by simp)
    | tryOk hq | tryAgain hq | tryFail hq | unlock hq | unlockD hq | evLock hq | evAgain hq | evUnlock hq | evUnlockD hq =>
      exact mv rfl hq (by simp) (by simp)

/-- C111: an event is stored only in a chunk that the thread itself has emptied and that no thread has
emptied since. -/
theorem C111_own {L A B : List Change} {w : St} {t : Nat} {c : Chunk} (r : LRun St.init L w)
    (hL : L = A ++ .store t c :: B) : owner B c = some t := by
  obtain ⟨_, _, r⟩ := sim_init r
  exact C105_own r hL

/-- C111: the events that a thread stores between taking one chunk and the next are all in the one
chunk, and those of a chunk are a block of the events of the thread. -/
theorem C111_block {L A B : List Change} {w : St} {t : Nat} {c : Chunk} (r : LRun St.init L w)
    (hL : L = A ++ .store t c :: B) :
    ∃ M B', B = M ++ .reset t c :: B' ∧ (∀ d, .reset t d ∉ M) ∧ ∀ u, .reset u c ∉ M := by
  obtain ⟨_, _, r⟩ := sim_init r
  exact C105_block r hL

/-- C111: the events a chunk holds are events of one thread, the one that emptied it last. -/
theorem C111_one_thread {L : List Change} {w : St} (r : LRun St.init L w) {c : Chunk} {x : Change}
    (hx : x ∈ heldIn L c) : ∃ t, x = .store t c ∧ owner L c = some t := by
  obtain ⟨_, _, r⟩ := sim_init r
  exact C105_one_thread r hx

/-- C111: a chunk of a buffer that is not a ring is emptied at most once, and it holds every event that
was ever stored in it. -/
theorem C111_fixed {L : List Change} {w : St} (r : LRun St.init L w) {c : Chunk}
    (hf : (w.bufs c.1).ring = false) :
    L.countP (·.empties c) ≤ 1 ∧ heldIn L c = L.filter (·.adds c) := by
  obtain ⟨_, _, r⟩ := sim_init r
  exact C105_fixed r hf

/-- C111: a buffer that is no longer the log's changes no more. -/
theorem C111_final {w w' : St} (h : LReachable w) {L : List Change} (r : LRun w L w') {b : Nat}
    (hb : b < w.cnt) (hn : w.buf ≠ some b) (x : Change) (hx : x ∈ L) : x.chunk.1 ≠ b := by
  obtain ⟨_, _, g⟩ := good h
  obtain ⟨_, _, -, r⟩ := sim g r
  exact C105_final g.1 r hb hn x hx

/-! ### Starts and stops -/

/-- An execution in which tracing stays off. -/
inductive LOff : St → St → Prop
  | refl {w} : LOff w w
  | step {w w' w''} : LOff w w' → LStep w' w'' → w''.off → LOff w w''

/-- An execution in which tracing stays on. -/
inductive LOn : St → St → Prop
  | refl {w} : LOn w w
  | step {w w' w''} : LOn w w' → LStep w' w'' → ¬ w''.off → LOn w w''

theorem off_eq {a b : St} (h : b.mem.hist .en = a.mem.hist .en) : b.off ↔ a.off := by
  unfold St.off; rw [h]

theorem sim_off {w0 w : St} {lk0 : Nat → Option Nat} {lview0 : Nat → View Loc} (g : Good w0 lk0 lview0) (h0 : w0.off)
    (r : LOff w0 w) : ∃ lk lview, Good w lk lview ∧ Off (w0.with lk0 lview0) (w.with lk lview) ∧ w.off := by
  induction r with
  | refl => exact ⟨lk0, lview0, g, .refl, h0⟩
  | step _ hs h1 ih =>
    obtain ⟨lk, lview, a, b, o⟩ := ih
    obtain ⟨lk', lview', c, d⟩ := good_step (R := fun x => Off (St.with _ lk0 lview0) x ∧ x.off)
      (fun _ _ _ r q => ⟨r.1.step q.step ((off_eq q.en).2 r.2), (off_eq q.en).2 r.2⟩) ⟨⟨a.1, b, o⟩, a.2⟩ hs
      fun x => ⟨b.step x h1, h1⟩
    exact ⟨lk', lview', ⟨c.1, d⟩, c.2.1, h1⟩

theorem sim_on {w0 w : St} {lk0 : Nat → Option Nat} {lview0 : Nat → View Loc} (g : Good w0 lk0 lview0) (h0 : ¬ w0.off)
    (r : LOn w0 w) : ∃ lk lview, Good w lk lview ∧ On (w0.with lk0 lview0) (w.with lk lview) ∧ ¬ w.off := by
  induction r with
  | refl => exact ⟨lk0, lview0, g, .refl, h0⟩
  | step _ hs h1 ih =>
    obtain ⟨lk, lview, a, b, o⟩ := ih
    obtain ⟨lk', lview', c, d⟩ := good_step (R := fun x => On (St.with _ lk0 lview0) x ∧ ¬ x.off)
      (fun _ _ _ r q => ⟨r.1.step q.step (fun y => r.2 ((off_eq q.en).1 y)), fun y => r.2 ((off_eq q.en).1 y)⟩)
      ⟨⟨a.1, b, o⟩, a.2⟩ hs fun x => ⟨b.step x h1, h1⟩
    exact ⟨lk', lview', ⟨c.1, d⟩, c.2.1, h1⟩

/-- C111: once tracing is off and every thread has been evicted, no thread writes to a buffer until
tracing is started again or the buffer is destroyed. -/
theorem C111_quiet {w w' : St} (h : LReachable w) (ho : w.off) (hp : ∀ u, w.pend u = false)
    (hr : LOff w w') {b : Nat} (hb : b < w.cnt) (hf : w'.freed b = false) {k : Plain}
    (hk : k = .obj b ∨ ∃ i, k = .cell b i) (u : Nat) : w'.mem.wr k u = w.mem.wr k u := by
  obtain ⟨_, _, g⟩ := good h
  obtain ⟨_, _, -, r, -⟩ := sim_off g ho hr
  exact C104_quiet g.1 ho hp r hb hf hk u

/-- C111: tracing comes on again only by a `start`. -/
theorem C111_on {w w' : St} (h : LReachable w) (ho : w.off) (hs : LStep w w') (hn : ¬ w'.off) :
    ∃ t d, w.pc t = .turnOn d ∧ w.mutex = some t := by
  obtain ⟨lk, lview, g⟩ := good h
  by_contra hc
  obtain ⟨lk', lview', c, -⟩ := good_step (R := fun x => x.off)
    (fun _ _ _ r q => (off_eq q.en).2 r) ⟨⟨g.1, ho⟩, g.2⟩ hs
    fun x => by_contra fun y => hc (C104_on (w := w.with lk lview) g.1 ho x y)
  exact hn c.2

/-- C111: the thread that has the mutex of the log knows the newest value of `enabled`. -/
theorem C111_holder {w : St} (h : LReachable w) {t : Nat} (hm : w.mutex = some t) : Knows w t := by
  obtain ⟨_, _, g⟩ := good h
  exact C107_holder g.1 hm

/-- C111: a start takes effect at once for a thread that knows of it. -/
theorem C111_start {w w' : St} (h : LReachable w) (ho : ¬ w.off) {t : Nat} (hk : Knows w t) (r : LOn w w')
    {ts : Nat} {m : Msg Loc Nat} (hr : w'.mem.readable t .en ts m) : m.val ≠ 0 := by
  obtain ⟨_, _, g⟩ := good h
  obtain ⟨_, _, -, r, -⟩ := sim_on g ho r
  exact C107_start g.1 ho hk r hr

/-- C111: a stop takes effect at once for a thread that knows of it. -/
theorem C111_stop {w w' : St} (h : LReachable w) (ho : w.off) {t : Nat} (hk : Knows w t) (r : LOff w w')
    {ts : Nat} {m : Msg Loc Nat} (hr : w'.mem.readable t .en ts m) : m.val = 0 := by
  obtain ⟨_, _, g⟩ := good h
  obtain ⟨_, _, -, r, -⟩ := sim_off g ho r
  exact C107_stop g.1 ho hk r hr

/-- A case: an event is stored in a chunk of a buffer that is not a ring while another thread evicts. -/
example : ∃ (L : List Change) (w : St), LRun St.init L w ∧ (w.bufs 0).ring = false ∧ .store 1 (0, 0) ∈ heldIn L (0, 0) ∧
    w.pc 0 = .evict false 0 := by
  obtain ⟨w, m, r, hb, h0, h1, hc, -⟩ := exWord
  obtain ⟨L, r⟩ := lrun_of_reachable r
  refine ⟨_, _, r.store h1 hc, hb, ?_, ?_⟩
  · simp [heldIn, List.takeWhile, Change.empties, Change.adds]
  · simp [St.goto, setf, h0]

/-- A case: thread 0 starts tracing and knows of it, tracing stays on while thread 1 comes to log. -/
example : ∃ w w' : St, LReachable w ∧ ¬ w.off ∧ Knows w 0 ∧ LOn w w' ∧ w'.pc 1 = .tryLock := by
  have r := LReachable.init
  have r := r.go (.lockM (t := 0) rfl rfl) (t := 0) (q := .idle) (p := .crit 0) rfl rfl (by simp) (by simp)
  have r := r.go (.start (t := 0) rfl (fun _ => rfl)) (t := 0) (q := .crit 0) (p := .start 0) rfl rfl (by simp) (by simp)
  have r := r.go (.startOff (t := 0) (ts := 0) rfl ⟨rfl, by decide⟩ rfl) (t := 0) (q := .start 0) (p := .newBuf 0) rfl rfl (by simp) (by simp)
  have r := r.go (.newBuf (t := 0) true 2 rfl) (t := 0) (q := .newBuf 0) (p := .turnOn 0) rfl rfl (by simp) (by simp)
  have r := r.go (.turnOn (t := 0) (ts := 1) rfl ⟨rfl, by decide⟩) (t := 0) (q := .turnOn 0) (p := .crit 0) rfl rfl (by simp) (by simp)
  obtain ⟨w, e, r⟩ : ∃ w, w = _ ∧ LReachable w := ⟨_, rfl, r⟩
  obtain ⟨m, h1, h2, h3⟩ : ∃ m, w.mem.hist .en 1 = some m ∧ m.val = 1 ∧ (w.mem.view 1).ts .en = 0 := by
    subst e; exact ⟨_, rfl, rfl, by decide⟩
  have hq : w.pc 1 = .idle := by subst e; rfl
  have ho : ¬ w.off := by
    rintro ⟨ts, m', a, b, c⟩
    have d := c 1 _ h1
    by_cases x : ts = 1
    · subst x; rw [h1] at a; injection a with a; rw [← a, h2] at b; cases b
    · have x0 : ts ≠ 0 := by omega
      subst e
      simp [St.with, St.goto, Mem.storeRel, Mem.add, Mem.write, writeAll, Mem.loadAcq, learn, St.init, Mem.init, x, x0] at a
  refine ⟨w, _, r, ho, C111_holder r (by subst e; rfl), .step .refl
    (step_kind (t := 1) (.logOn (w := w.with w.lk w.lview) (t := 1) (ts := 1) (m := m) hq ⟨h1, ?_⟩ ?_) ?_ ?_ ?_ ?_ ?_) ?_, ?_⟩
  · show (w.mem.view 1).ts .en ≤ 1
    omega
  · omega
  · simp [St.goto, setf, hq]
  · simp [hq]
  · simp [hq]
  · simp [hq]
  · simp [hq]
  · exact fun h => ho ((off_eq rfl).1 h)
  · simp [St.goto, setf, St.with]

/-- A case: tracing has not been started, no thread is left to evict, and the thread with the mutex knows that it is off. -/
example : ∃ w : St, LReachable w ∧ w.off ∧ (∀ u, w.pend u = false) ∧ Knows w 0 ∧ LOff w w := by
  have r := LReachable.init
  have r := r.go (.lockM (t := 0) rfl rfl) (t := 0) (q := .idle) (p := .crit 0) rfl rfl (by simp) (by simp)
  refine ⟨_, r, ⟨0, _, rfl, rfl, fun ts m h => ?_⟩, fun _ => rfl, C111_holder r rfl, .refl⟩
  by_contra hc
  have : ts ≠ 0 := by omega
  simp [St.with, St.goto, learn, St.init, Mem.init, this] at h

end Phosphor.TLog.W
