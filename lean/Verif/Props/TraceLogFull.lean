import Verif.Proof.TraceLogSolo
/-
Properties of TraceLog about full buffers (C35, C46) and their size (C15).
-/
namespace Phosphor.TLog
variable {ε : Type} {tid : Nat → Nat} {s s' : St ε} {t : Nat} {pol : Bool}

/-! ### C35 a full buffer stops tracing -/

/-- C35: tracing into a fixed buffer all of whose chunks have been handed out, nobody holding the
log's mutex: when a registered thread without chunk, or with a full one, calls `logEvent` and
goes on alone, tracing is turned off on account of this buffer, and all events already stored
are still there and no other is added. -/
theorem C35_full_stops (h : Reachable true tid s) (hp : s.pc t = .idle) (he : s.enabled = true)
    (ho : s.owner = none) (hr : isReg t s.hist = true) {b : Nat} (hb : s.buffer = some b)
    (hm : (s.heap b).mode = .fixed) (hf : (s.heap b).chunks.length ≤ (s.heap b).counter)
    (hc : ∀ b i evs, (s.tenant t).chunk = some (b, i) → (s.contents b)[i]? = some (t, evs) → evs.length = chunkSize)
    (e : ε) :
    ∃ n s', s.run true tid ((t, .log e) :: List.replicate n (t, .step)) = .to s' ∧ s'.enabled = false ∧
      s'.hist = .stop false (some (some b)) :: s.hist ∧ s'.stored = s.stored ∧ s'.contents = s.contents ∧
      s'.buffer = some b := by
  have hidle : s.isIdle t = true := isIdle_iff.2 hp
  have hi : (s.tenant t).initialised = true := by rw [h.hist.reg]; exact hr
  have hlk : (s.tenant t).lock = .unlocked := by
    cases hl : (s.tenant t).lock with
    | unlocked => rfl
    | slaveLocked => have := (h.ctl0.slave t).1 hl; rw [hp] at this; cases this
    | masterLocked => have := master_off h.hist h.ctl0 hl; rw [he] at this; cases this
  have hx : Exhausted s s t b := ⟨he, ho, hb, hi, rfl, rfl, rfl, Inv.mapped h.ctl hb, hm, hf, fun _ _ => rfl, rfl⟩
  suffices hsolo : Solo true tid t (s.goto t (.readEnabled e)) (Stopped s · b) by
    obtain ⟨n, s', h1, h2⟩ := hsolo
    exact ⟨n, s', run_step (by simp [St.next, hidle]) h1, h2⟩
  refine .step (step_of_log (s1 := (s.goto t (.readEnabled e)).goto t (.tryLock e)) ?_) ?_
  · simp only [St.logStep, goto_pc]; rw [if_pos (by exact he)]
  refine .step (step_of_log (s1 := ((s.goto t (.tryLock e)).setLock t .slaveLocked).goto t (.checkInit e)) ?_) ?_
  · rw [goto_goto]
    simp only [St.logStep, goto_pc]
    rw [show ((s.goto t (Pc.tryLock e)).tenant t).lock = .unlocked from hlk]
    rfl
  have hx1 := ((hx.goto (.tryLock e)).setLock .slaveLocked).goto (.checkInit e)
  have hch : ((((s.goto t (.tryLock e)).setLock t .slaveLocked).goto t (.checkInit e)).tenant t).chunk =
    (s.tenant t).chunk := by simp [St.goto, St.setLock]
  have hhp : (((s.goto t (.tryLock e)).setLock t .slaveLocked).goto t (.checkInit e)).heap = s.heap := rfl
  generalize hq : ((s.goto t (.tryLock e)).setLock t .slaveLocked).goto t (.checkInit e) = x at *
  have hpx : x.pc t = .checkInit e := by rw [← hq, goto_pc]
  refine .step (step_of_log (s1 := x.goto t (.checkChunk e)) (by simp [St.logStep, hpx, hx1.init])) ?_
  have hx2 := hx1.goto (.checkChunk e)
  have hch2 : ((x.goto t (.checkChunk e)).tenant t).chunk = (s.tenant t).chunk := hch
  have hhp2 : (x.goto t (.checkChunk e)).heap = s.heap := hhp
  generalize hq : x.goto t (.checkChunk e) = y at *
  have hpy : y.pc t = .checkChunk e := by rw [← hq, goto_pc]
  have hbuf : ∀ b' i, (s.tenant t).chunk = some (b', i) → b' = b := by
    intro b' i hc'
    have := h.ctl.chunkBuf t b' i hc'
    rw [hb] at this; cases this; rfl
  refine .step (step_of_log (s1 := y.goto t (.recheck e)) ?_) ?_
  · simp only [St.logStep, hpy, hch2]
    cases hc' : (s.tenant t).chunk with
    | none => rfl
    | some p =>
      obtain ⟨b', i⟩ := p
      have := hbuf b' i hc'
      subst this
      obtain ⟨c, evs, h1, h2, h3⟩ := h.data.chunkAt hc'
      have hfull : c.isFull = true := by
        rw [Chunk.isFull_iff c evs h3]; exact hc _ _ _ hc' h2
      simp only [hx2.mapped, if_true, hhp2, h1, hfull]
  · exact (hx2.goto _).recheck (goto_pc _ _ _) (fun b' i hc' => hbuf b' i (by rw [← hch2]; exact hc'))

/-- Thread 2 finds the single chunk taken by thread 1: its event 6 is discarded and tracing stops. -/
example : ∃ s : St Nat, Reachable true id s ∧ (s.enabled == false && s.contents 0 == [(1, [5])] &&
    s.hist == [.call (.user 1), .stop false (some (some 0)), .run 0 fixed1, .configure fixed1,
      .regOk 2 ['b'], .regOk 1 ['a']]) = true :=
  check_sound (l := registers 1 ['a'] ++ registers 2 ['b'] ++ starts fixed1 ++ (1, .log 5) :: steps 1 11 ++
    (2, .log 6) :: steps 2 20) (by decide +kernel)

/-! ### C46 only its own run -/

/-- Every stop made by a thread that found a buffer full ends the run of that buffer. -/
def StopsOwn : List Item → Prop
  | [] => True
  | .stop _ (some full) :: h => (∃ b cfg, full = some b ∧ lastRun h = some (b, cfg)) ∧ StopsOwn h
  | _ :: h => StopsOwn h

theorem available_on {h : List Item} (hok : HistOk h) (ho : on h = true) :
    available h = (lastRun h).map (·.1) := by
  induction h with
  | nil => cases ho
  | cons i h ih =>
    cases i with
    | run b c => rfl
    | stop a b => cases ho
    | retrieve r => have := hok.1.2.1; rw [show on h = true from ho] at this; cases this
    | _ => exact ih hok.2 ho

theorem StopsOwn.append {new h : List Item} (hn : ∀ sh f, Item.stop sh (some f) ∉ new) (hh : StopsOwn h) :
    StopsOwn (new ++ h) := by
  induction new with
  | nil => exact hh
  | cons i new ih =>
    have ih := ih (fun a b hm => hn a b (by simp [hm]))
    cases i with
    | stop a b =>
      cases b with
      | none => exact ih
      | some f => exact absurd (by simp) (hn a f)
    | _ => exact ih

theorem heldStep_full {o : Bool} (hs : s.heldStep tid t o = .to s') :
    ∃ new, s'.hist = new ++ s.hist ∧ ∀ sh f, Item.stop sh (some f) ∉ new := by
  have none : s'.hist = s.hist → ∃ new, s'.hist = new ++ s.hist ∧ ∀ sh f, Item.stop sh (some f) ∉ new :=
    fun h => ⟨[], h, by simp⟩
  have one : ∀ i, s'.hist = i :: s.hist → (∀ sh f, i ≠ .stop sh (some f)) →
      ∃ new, s'.hist = new ++ s.hist ∧ ∀ sh f, Item.stop sh (some f) ∉ new :=
    fun i h hi => ⟨[i], h, fun sh f hm => hi sh f (by simpa [eq_comm] using hm)⟩
  unfold St.heldStep at hs
  split at hs
  case h_1 n hp =>
    cases hs
    by_cases hi : (s.tenant t).initialised = true
    · exact one (.regRefused t) (by simp [St.goto, St.registerBody, hi]) (by simp)
    · refine one (.regOk t n) ?_ (by simp)
      simp only [St.goto, St.registerBody, hi]
      split
      · contradiction
      · split <;> rfl
  case h_2 hp =>
    split at hs
    · rename_i x hx
      cases hs
      by_cases hi : (s.tenant t).initialised = true
      · obtain ⟨h', rfl⟩ := deregisterBody_eq hi hx; exact one (.deregOk t) rfl (by simp)
      · simp only [St.deregisterBody, hi] at hx; cases hx; exact one (.deregRefused t) rfl (by simp)
    · cases hs
  case h_3 hp => cases hs; exact none rfl
  case h_4 sh st hp =>
    split at hs
    · rename_i cb _; cases hs; exact one (.call cb) rfl (by simp)
    · cases hs
      obtain ⟨q, _, e⟩ := pop_goto { s with hist := .noCall :: s.hist } t st
      exact one .noCall (by rw [e]; rfl) (by simp)
  case h_5 u rest sh st hp =>
    split at hs
    · cases hs; exact none rfl
    · split at hs <;> cases hs <;> exact none rfl
  case h_6 => cases hs; exact none rfl
  case h_7 => cases hs; exact none rfl
  case h_8 => cases hs; exact none rfl
  case h_9 st hp =>
    cases hs
    obtain ⟨q, _, e⟩ := pop_goto s.enable t st
    exact one (.run (s.nextBuf - 1) s.config) (by rw [e]; rfl) (by simp)
  case h_10 => cases hs

theorem next_full {c : Choice ε} (hs : s.next pol tid t c = .to s') :
    (∃ new, s'.hist = new ++ s.hist ∧ ∀ sh f, Item.stop sh (some f) ∉ new) ∨
    (∃ f g, s.pc t = .compare f g ∧ s.generation = g ∧ s.enabled = true ∧
      s'.hist = .stop false (some f) :: s.hist) := by
  have log : ∀ sp, s.logStep tid t sp = .to s' → (∃ new, s'.hist = new ++ s.hist ∧ ∀ sh f, Item.stop sh (some f) ∉ new) ∨
    (∃ f g, s.pc t = .compare f g ∧ s.generation = g ∧ s.enabled = true ∧
      s'.hist = .stop false (some f) :: s.hist) := by
    intro sp hs
    rcases logStep_cases hs with rfl | h | ⟨_, _, _, _, rfl⟩ | ⟨_, _, _, _, rfl⟩ | ⟨f, g, h1, h2, h3, rfl⟩
    · exact Or.inl ⟨[], rfl, by simp⟩
    · exact Or.inl ⟨[], h.hist, by simp⟩
    · exact Or.inl ⟨[], rfl, by simp⟩
    · exact Or.inl ⟨[], rfl, by simp⟩
    · exact Or.inr ⟨f, g, h1, h2, h3, rfl⟩
  unfold St.next at hs
  split at hs
  · split at hs
    · exact Or.inl (heldStep_full hs)
    · exact log _ hs
  · split at hs
    · exact Or.inl (heldStep_full hs)
    · exact log _ hs
  all_goals left
  · split at hs <;> cases hs; exact ⟨[], rfl, by simp⟩
  · split at hs <;> cases hs; exact ⟨[], rfl, by simp⟩
  · split at hs <;> cases hs; exact ⟨[], rfl, by simp⟩
  · split at hs <;> cases hs; exact ⟨[], rfl, by simp⟩
  · split at hs <;> cases hs; exact ⟨[], rfl, by simp⟩
  · rename_i cfg
    split at hs
    · split at hs
      · cases hs
      · split at hs
        · dsimp only at hs
          split at hs
          · cases hs; exact ⟨[.reject, .configure cfg], rfl, by simp⟩
          · split at hs <;> cases hs
            · exact ⟨[.stop false none, .configure cfg], rfl, by simp⟩
            · exact ⟨[.configure cfg], rfl, by simp⟩
        · cases hs
    · cases hs
  · rename_i sh
    split at hs
    · split at hs <;> cases hs
      · exact ⟨[.stop sh none], rfl, by simp⟩
      · exact ⟨[], rfl, by simp⟩
    · cases hs
  · split at hs
    · split at hs <;> cases hs
      · exact ⟨[.refuse], rfl, by simp⟩
      · exact ⟨[.retrieve s.buffer], rfl, by simp⟩
    · cases hs
  · split at hs
    · split at hs <;> cases hs
      · exact ⟨[.refuse], rfl, by simp⟩
      · exact ⟨[.retrieve s.buffer], rfl, by simp⟩
    · cases hs
  · split at hs
    · rename_i st hp
      cases hs
      obtain ⟨q, _, e⟩ := pop_goto s t st
      exact ⟨[], by rw [e]; rfl, by simp⟩
    · cases hs
  · split at hs
    · rename_i st hp
      cases hs
      obtain ⟨q, _, e⟩ := unwind_goto s t st
      exact ⟨[], by rw [e]; rfl, by simp⟩
    · cases hs

/-- C46, the part that holds: if no stopped callback restarts tracing while `start` is restarting
it, every stop made by a thread that found a buffer full ends the run of that very buffer.
Missing: callbacks that do restart. -/
theorem C46_own_run_partial (h : Reachable true tid s) : StopsOwn s.hist := by
  induction h with
  | init => trivial
  | step hr hs ih =>
    rename_i s s' t c
    rcases next_full hs with ⟨new, e, hn⟩ | ⟨f, g, hp, hg, he, e⟩
    · rw [e]; exact ih.append hn
    · rw [e]
      refine ⟨?_, ih⟩
      have hc := hr.ctl
      have hgen : (s.pc t).gen = some (f, g) := by rw [hp]; rfl
      cases f with
      | none =>
        have := hc.gNone t g hgen hg.symm
        rw [he] at this; cases this
      | some p =>
        have h1 := hc.gFull t p g hgen
        have hbuf : ∃ b, s.buffer = some b := Option.ne_none_iff_exists'.1 (hc.hasBuf he)
        obtain ⟨b, hb⟩ := hbuf
        have h2 := hc.last b hb
        have h3 := hc.gen
        have hpb : p = b := by omega
        subst hpb
        have hh := hr.hist
        have hon : on s.hist = true := by rw [← hh.en]; exact he
        have hav : available s.hist = some p := by
          have := hh.buf
          rw [(hh.owns hp rfl).2.2, hb] at this
          exact this.symm
        rw [available_on hh.ok hon] at hav
        cases hl : lastRun s.hist with
        | none => rw [hl] at hav; cases hav
        | some r => rw [hl] at hav; cases hav; exact ⟨_, _, rfl, rfl⟩

/-- C46: a thread remembers a buffer as full only when that buffer is a fixed one that just
refused it a chunk. Any callbacks. -/
theorem C46_found_full {sp : Bool} {p : Nat} (hs : s.logStep tid t sp = .to s') (hp : s'.pc t = .failed (some p)) :
    ∃ e, s.pc t = .getDo e p ∧ (s.heap p).mode ≠ .ring ∧ (s.heap p).chunks.length ≤ (s.heap p).counter := by
  have no : ∀ {x : St ε} {q : Pc ε}, (x.goto t q).pc t = .failed (some p) → q ≠ .failed (some p) → False := by
    intro x q h hq; rw [goto_pc] at h; exact hq h
  unfold St.logStep at hs
  split at hs
  case h_1 => cases hs; exact (no hp (by split <;> simp)).elim
  case h_2 h =>
    split at hs <;> cases hs
    · exact (no hp (by simp)).elim
    · exact (no hp (by simp)).elim
    · rw [h] at hp; cases hp
  case h_3 => cases hs; exact (no hp (by split <;> simp)).elim
  case h_4 =>
    split at hs
    · cases hs; exact (no hp (by simp)).elim
    · split at hs
      · split at hs
        · cases hs; exact (no hp (by split <;> simp)).elim
        · cases hs
      · cases hs
  case h_5 =>
    split at hs <;> cases hs
    · exact (no hp (by split <;> simp)).elim
    · exact (no hp (by simp)).elim
  case h_6 =>
    split at hs
    · cases hs
    · cases hs; exact (no hp (by simp)).elim
  case h_7 =>
    split at hs
    · cases hs
    · split at hs
      · cases hs; exact (no hp (by simp)).elim
      · cases hs
  case h_8 => cases hs; exact (no hp (by split <;> simp)).elim
  case h_9 => cases hs; exact (no hp (by split <;> simp)).elim
  case h_10 =>
    split at hs
    · cases hs
    · cases hs; exact (no hp (by simp)).elim
  case h_11 e p' h =>
    split at hs
    · split at hs
      · split at hs <;> cases hs <;> exact (no hp (by simp)).elim
      · rename_i hr
        split at hs
        · cases hs; exact (no hp (by simp)).elim
        · rename_i x r hn hg
          cases hs
          rw [goto_pc] at hp
          cases hp
          refine ⟨e, h, hr, ?_⟩
          simp only [Buffer.getChunkFixed] at hg
          split at hg
          · rename_i hge; exact hge
          · cases hg; exact absurd rfl (hn _)
    · cases hs
  case h_12 h =>
    split at hs
    · split at hs
      · cases hs; exact (no hp (by simp)).elim
      · cases hs; rw [h] at hp; cases hp
    · cases hs
  case h_13 => cases hs; exact (no hp (by simp)).elim
  case h_14 => cases hs; exact (no hp (by simp)).elim
  case h_15 => split at hs <;> cases hs <;> exact (no hp (by simp)).elim
  case h_16 =>
    split at hs
    · cases hs; exact (no hp (by simp)).elim
    · split at hs <;> cases hs <;> exact (no hp (by simp)).elim
  case h_17 =>
    split at hs
    · cases hs
    · split at hs
      · split at hs
        · cases hs; exact (no hp (by simp)).elim
        · cases hs
      · cases hs
  case h_18 => cases hs; exact (no hp (by simp)).elim
  case h_19 => cases hs

/-- Thread 2 finds buffer 0 full; before it gets to stop the run, tracing is restarted: the new
run goes on. -/
example : ∃ s : St Nat, Reachable true id s ∧ (s.enabled && s.pc 2 == .idle &&
    s.hist == [.run 1 ring1, .noCall, .stop false none, .configure ring1, .run 0 fixed1, .configure fixed1,
      .regOk 2 ['b'], .regOk 1 ['a']]) = true :=
  check_sound (l := registers 1 ['a'] ++ registers 2 ['b'] ++ starts fixed1 ++ (1, .log 5) :: steps 1 11 ++
    (2, .log 6) :: steps 2 11 ++ locked ((0, .start ring1) :: steps 0 9) ++ steps 2 3) (by decide +kernel)

/-- C46 is violated: thread 0 restarts tracing; the stopped callback starts a run (buffer 1);
thread 2 finds buffer 1 full; the restart then creates buffer 2 and begins its run, which thread
2, having read the generation after that, stops. -/
theorem C46_refuted : ∃ s : St Nat, Reachable false id s ∧ (s.hist.take 2 ==
    [.stop false (some (some 1)), .run 2 fixed1]) = true :=
  check_sound (l := registers 1 ['a'] ++ registers 2 ['b'] ++ starts fixed1 ++
    (0, .lock) :: (0, .start fixed1) :: steps 0 7 ++ (0, .start fixed1) :: steps 0 2 ++
    (1, .log 5) :: steps 1 11 ++ (2, .log 6) :: steps 2 9 ++
    (0, .ret) :: steps 0 2 ++ [(0, .ret), (0, .step)] ++ steps 2 4) (by decide +kernel)

/-! ### C15 the size of the buffer -/

/-- Chunk counts in the frames and in the work of a thread. -/
def Pc.counts : Pc ε → List Nat
  | .held (.startCreate n) st => n :: frameCounts st
  | .held _ st => frameCounts st
  | _ => []
where
  frameCounts : List Frame → List Nat
    | [] => []
    | .resumeUser :: st => frameCounts st
    | .finishStart n :: st => n :: frameCounts st

open Pc.counts

theorem frameCounts_nil {st : List Frame} (h : finishing st = 0) : frameCounts st = [] := by
  induction st with
  | nil => rfl
  | cons f st ih =>
    cases f with
    | resumeUser => exact ih h
    | finishStart n => simp at h

theorem counts_holds {p : Pc ε} {n : Nat} (h : n ∈ p.counts) : p.holdsMutex = true := by
  unfold Pc.counts at h
  split at h <;> first | rfl | cases h

theorem pop_counts (x : St ε) (st : List Frame) : ((x.pop t st).pc t).counts = frameCounts st := by
  match st with
  | [] => rw [St.pop, goto_pc]; rfl
  | .resumeUser :: _ => rw [St.pop, goto_pc]; rfl
  | .finishStart _ :: _ => rw [St.pop, goto_pc]; rfl

theorem unwind_counts (x : St ε) (st : List Frame) : ∀ n ∈ ((x.unwind t st).pc t).counts, n ∈ frameCounts st := by
  induction st with
  | nil => intro n hn; rw [St.unwind, goto_pc] at hn; cases hn
  | cons f st ih =>
    cases f with
    | resumeUser => intro n hn; rw [St.unwind, goto_pc] at hn; exact hn
    | finishStart m => intro n hn; rw [St.unwind] at hn; exact List.mem_cons_of_mem _ (ih n hn)

/-- The step took the configuration from a call of `start`, or left it. -/
def Configures (t : Nat) (s s' : St ε) : Prop :=
  (s'.config = s.config ∧ ∀ n ∈ (s'.pc t).counts, n ∈ (s.pc t).counts) ∨
  ((∃ st, s.pc t = .held .user st) ∧ (s'.config.mode = .fixed ∨ s'.config.mode = .ring) ∧
    ∀ n ∈ (s'.pc t).counts, n = s'.config.size / sizeofTraceChunk ∧ n ≠ 0)

theorem logStep_config {sp : Bool} (hs : s.logStep tid t sp = .to s') : Configures t s s' := by
  rcases logStep_cases hs with rfl | h | ⟨_, _, _, _, rfl⟩ | ⟨_, _, _, _, rfl⟩ | ⟨f, g, h1, h2, h3, rfl⟩
  · exact Or.inl ⟨rfl, fun n h => h⟩
  · refine Or.inl ⟨h.config, fun n hn => ?_⟩
    have := counts_holds hn
    rw [h.after] at this; cases this
  · exact Or.inl ⟨rfl, fun n hn => by rw [goto_pc] at hn; cases hn⟩
  · exact Or.inl ⟨rfl, fun n hn => by rw [goto_pc] at hn; cases hn⟩
  · exact Or.inl ⟨rfl, fun n hn => by rw [St.beginStop, goto_pc] at hn; cases hn⟩

theorem heldStep_config {o : Bool} (hs : s.heldStep tid t o = .to s') : Configures t s s' := by
  left
  have mv : ∀ {p q : Pc ε} {x : St ε}, s.pc t = p → x.config = s.config → (∀ n ∈ q.counts, n ∈ p.counts) →
      (x.goto t q).config = s.config ∧ ∀ n ∈ ((x.goto t q).pc t).counts, n ∈ (s.pc t).counts := by
    intro p q x hp hx h; rw [goto_pc, hp]; exact ⟨hx, h⟩
  unfold St.heldStep at hs
  split at hs
  case h_1 n hp =>
    cases hs
    refine mv hp ?_ (fun n h => by cases h)
    unfold St.registerBody
    split
    · rfl
    · dsimp only; split <;> rfl
  case h_2 hp =>
    split at hs
    · rename_i x hx
      cases hs
      refine mv hp ?_ (fun n h => by cases h)
      by_cases hi : (s.tenant t).initialised = true
      · obtain ⟨h', rfl⟩ := deregisterBody_eq hi hx; rfl
      · simp only [St.deregisterBody, hi] at hx; cases hx; rfl
    · cases hs
  case h_3 hp => cases hs; exact mv hp rfl (fun n h => by cases h)
  case h_4 sh st hp =>
    split at hs
    · cases hs; exact mv hp rfl (fun n h => h)
    · cases hs
      refine ⟨?_, ?_⟩
      · obtain ⟨q, _, e⟩ := pop_goto { s with hist := .noCall :: s.hist } t st
        rw [e]; rfl
      · rw [pop_counts, hp]; exact fun n h => h
  case h_5 u rest sh st hp =>
    split at hs
    · cases hs; exact mv hp rfl (fun n h => h)
    · split at hs <;> cases hs
      · exact mv hp rfl (fun n h => h)
      · exact ⟨rfl, fun n h => h⟩
  case h_6 hp => cases hs; exact mv hp rfl (fun n h => h)
  case h_7 hp => cases hs; exact mv hp rfl (fun n h => h)
  case h_8 hp => cases hs; exact mv hp rfl (fun n h => List.mem_cons_of_mem _ h)
  case h_9 st hp =>
    cases hs
    refine ⟨?_, ?_⟩
    · obtain ⟨q, _, e⟩ := pop_goto s.enable t st
      rw [e]; rfl
    · rw [pop_counts, hp]; exact fun n h => h
  case h_10 => cases hs

theorem next_config {c : Choice ε} (hs : s.next true tid t c = .to s') : Configures t s s' := by
  have none : s'.config = s.config → ((s'.pc t).counts = []) → Configures t s s' :=
    fun h1 h2 => Or.inl ⟨h1, fun n hn => by rw [h2] at hn; cases hn⟩
  have same : s'.config = s.config → s'.pc = s.pc → Configures t s s' :=
    fun h1 h2 => Or.inl ⟨h1, fun n hn => by rw [← h2]; exact hn⟩
  unfold St.next at hs
  split at hs
  · split at hs
    · exact heldStep_config hs
    · exact logStep_config hs
  · split at hs
    · exact heldStep_config hs
    · exact logStep_config hs
  · split at hs <;> cases hs; exact none rfl (by rw [goto_pc]; rfl)
  · split at hs <;> cases hs; exact none rfl (by rw [goto_pc]; rfl)
  · split at hs <;> cases hs; exact none rfl (by rw [goto_pc]; rfl)
  · split at hs <;> cases hs; exact none rfl (by rw [goto_pc]; rfl)
  · split at hs <;> cases hs; exact same rfl rfl
  · rename_i cfg
    split at hs
    · rename_i st hp
      split at hs
      · cases hs
      · rename_i hpol
        have hfin : frameCounts st = [] := frameCounts_nil (by simpa using hpol)
        split at hs
        · rename_i hm
          dsimp only at hs
          split at hs
          · cases hs
            refine Or.inr ⟨⟨st, hp⟩, hm, fun n hn => ?_⟩
            rw [show ({ s with config := cfg, hist := .reject :: .configure cfg :: s.hist } : St ε).pc t = _ from hp] at hn
            simp only [Pc.counts, hfin] at hn
            cases hn
          · rename_i hz
            split at hs <;> cases hs
            · refine Or.inr ⟨⟨st, hp⟩, hm, fun n hn => ?_⟩
              rw [St.beginStop, goto_pc] at hn
              simp only [Pc.counts, frameCounts, hfin, List.mem_singleton] at hn
              exact ⟨hn, by rw [hn]; exact hz⟩
            · refine Or.inr ⟨⟨st, hp⟩, hm, fun n hn => ?_⟩
              rw [goto_pc] at hn
              simp only [Pc.counts, frameCounts, hfin, List.mem_singleton] at hn
              exact ⟨hn, by rw [hn]; exact hz⟩
        · cases hs
    · cases hs
  · split at hs
    · rename_i st hp
      split at hs <;> cases hs
      · refine Or.inl ⟨rfl, fun n hn => ?_⟩
        rw [St.beginStop, goto_pc] at hn
        rw [hp]; exact hn
      · exact same rfl rfl
    · cases hs
  · split at hs
    · split at hs <;> cases hs <;> exact same rfl rfl
    · cases hs
  · split at hs
    · split at hs <;> cases hs <;> exact same rfl rfl
    · cases hs
  · split at hs
    · rename_i st hp
      cases hs
      refine Or.inl ⟨?_, ?_⟩
      · obtain ⟨q, _, e⟩ := pop_goto s t st
        rw [e]; rfl
      · rw [pop_counts, hp]; exact fun n h => h
    · cases hs
  · split at hs
    · rename_i st hp
      cases hs
      refine Or.inl ⟨?_, ?_⟩
      · obtain ⟨q, _, e⟩ := unwind_goto s t st
        rw [e]; rfl
      · rw [hp]; exact unwind_counts _ _
    · cases hs

/-- The number of chunks a configuration asks for. -/
def Asks (cfg : TraceConfig) (n : Nat) : Prop :=
  n = cfg.size / sizeofTraceChunk ∧ n ≠ 0 ∧ (cfg.mode = .fixed ∨ cfg.mode = .ring)

structure Sized (s : St ε) : Prop where
  counts : ∀ u n, n ∈ (s.pc u).counts → Asks s.config n
  enable : ∀ u, (s.pc u).isEnable = true → Asks s.config (s.heap (s.nextBuf - 1)).chunks.length ∧
    (s.heap (s.nextBuf - 1)).mode = s.config.mode
  runs : ∀ b cfg, Item.run b cfg ∈ s.hist → Asks cfg (s.heap b).chunks.length ∧ (s.heap b).mode = cfg.mode

theorem mem_runIds {h : List Item} {b : Nat} {cfg : TraceConfig} (hm : Item.run b cfg ∈ h) : b ∈ runIds h := by
  induction h with
  | nil => cases hm
  | cons i h ih =>
    rcases List.mem_cons.1 hm with e | hm
    · subst e; simp [runIds]
    · have := ih hm
      cases i <;> simp_all [runIds]

theorem Reachable.sized (h : Reachable true tid s) : Sized s := by
  induction h with
  | init =>
    refine ⟨?_, ?_, ?_⟩
    · intro u n hn; cases hn
    · intro u hu; cases hu
    · intro b cfg hm; cases hm
  | step hr hs ih =>
    rename_i s s' t c
    have hshape : ∀ b, b < s.nextBuf → SameShape (s'.heap b) (s.heap b) := fun b hb =>
      (next_bufop hs b (by omega)).shape
    have hheld : ∀ u, (s.pc t).holdsMutex = true → (s.pc u).holdsMutex = true → u = t := by
      intro u h1 h2
      have h1 := (hr.ctl.own t).2 h1
      have h2 := (hr.ctl.own u).2 h2
      rw [h1] at h2; cases h2; rfl
    have hcounts : ∀ u n, n ∈ (s'.pc u).counts → Asks s'.config n := by
      intro u n hn
      rcases next_config hs with ⟨hc, h2⟩ | ⟨h1, h2, h3⟩
      · rw [hc]
        by_cases hu : u = t
        · subst hu; exact ih.counts u n (h2 n hn)
        · rw [next_pc hs hu] at hn; exact ih.counts u n hn
      · obtain ⟨st, h1⟩ := h1
        have h1 : (s.pc t).holdsMutex = true := by rw [h1]; rfl
        by_cases hu : u = t
        · subst hu; exact ⟨(h3 n hn).1, (h3 n hn).2, h2⟩
        · rw [next_pc hs hu] at hn
          exact absurd (hheld u h1 (counts_holds hn)) hu
    have hcfg : ∀ u, (s.pc u).isEnable = true → s'.config = s.config := by
      intro u h2
      rcases next_config hs with ⟨hc, _⟩ | ⟨⟨st, h3⟩, h4, _⟩
      · exact hc
      · have := hheld u (by rw [h3]; rfl) (Pc.isEnable_spec _ h2).1
        subst this
        rw [h3] at h2; cases h2
    have quiet : s'.nextBuf = s.nextBuf → ∀ u, (s.pc u).isEnable = true →
        Asks s'.config (s'.heap (s'.nextBuf - 1)).chunks.length ∧
          (s'.heap (s'.nextBuf - 1)).mode = s'.config.mode := by
      intro hn u hu
      have hpos := hr.runs.pos u hu
      have := hshape (s.nextBuf - 1) (by omega)
      rw [hn, hcfg u hu, this.2.1, this.2.2]
      exact ih.enable u hu
    have old : ∀ b cfg, Item.run b cfg ∈ s.hist →
        Asks cfg (s'.heap b).chunks.length ∧ (s'.heap b).mode = cfg.mode := by
      intro b cfg hm
      have := hshape b (hr.runs.lt b (mem_runIds hm))
      rw [this.2.1, this.2.2]
      exact ih.runs b cfg hm
    have alone : ∀ u, (s.pc t).holdsMutex = true → (s'.pc t).isEnable = false → (s'.pc u).isEnable = false := by
      intro u h1 h2
      by_cases hu : u = t
      · subst hu; exact h2
      · rw [next_pc hs hu]
        cases he : (s.pc u).isEnable
        · rfl
        · exact absurd (hheld u h1 (Pc.isEnable_spec _ he).1) hu
    cases next_book hs with
    | calm new hn ha hd hb hst hh hp _ _ hk =>
      refine ⟨hcounts, fun u hu => quiet hn u (hk u hu), fun b cfg hm => ?_⟩
      rw [hh] at hm
      rcases List.mem_append.1 hm with h1 | h1
      · have := hp _ h1; cases this
      · exact old b cfg h1
    | free b hb e => subst e; exact ⟨hcounts, fun u hu => quiet rfl u hu, old⟩
    | retrieve cs st hp he' e =>
      subst e
      refine ⟨hcounts, fun u hu => quiet rfl u hu, fun b cfg hm => ?_⟩
      rcases List.mem_cons.1 hm with h1 | h1
      · cases h1
      · exact old b cfg h1
    | create n st hp e =>
      have hA := ih.counts t n (by rw [hp]; simp [Pc.counts])
      subst e
      refine ⟨hcounts, fun u hu => ?_, old⟩
      have hh : (((s.createBuffer n).goto t (.held .startEnable st)).heap
          (((s.createBuffer n).goto t (.held .startEnable st)).nextBuf - 1)) = makeBuffer s.config s.generation n := by
        simp [St.goto, St.createBuffer]
      rw [hh]
      show Asks s.config _ ∧ _ = s.config.mode
      obtain ⟨h1, h2, h3⟩ := hA
      rcases h3 with h3 | h3
      · simp only [makeBuffer, h3, Buffer.makeFixed, List.length_replicate]
        exact ⟨⟨h1, h2, Or.inl h3⟩, trivial⟩
      · simp only [makeBuffer, h3, Buffer.makeRing, List.length_replicate]
        exact ⟨⟨h1, h2, Or.inr h3⟩, trivial⟩
    | enable st hp e =>
      have hA := ih.enable t (by rw [hp]; rfl)
      have hno : ∀ u, (s'.pc u).isEnable = false := fun u => alone u (by rw [hp]; rfl) (by
        subst e
        obtain ⟨q, hq, e⟩ := pop_goto s.enable t st
        rw [e, goto_pc]; exact hq.2.2)
      refine ⟨hcounts, fun u hu => ?_, fun b cfg hm => ?_⟩
      · rw [hno u] at hu; cases hu
      · subst e
        obtain ⟨q, hq, e⟩ := pop_goto s.enable t st
        rw [e] at hm ⊢
        rcases List.mem_cons.1 hm with h1 | h1
        · cases h1; exact hA
        · have := old b cfg h1
          rw [e] at this
          exact this
    | reg n hp hi e =>
      have hno : ∀ u, (s'.pc u).isEnable = false := fun u => alone u (by rw [hp]; rfl) (by
        subst e; rw [goto_pc]; rfl)
      refine ⟨hcounts, fun u hu => ?_, fun b cfg hm => ?_⟩
      · rw [hno u] at hu; cases hu
      · have hh : s'.hist = .regOk t n :: s.hist := by
          subst e
          simp only [St.goto, St.registerBody, hi]
          split
          · contradiction
          · split <;> rfl
        rw [hh] at hm
        rcases List.mem_cons.1 hm with h1 | h1
        · cases h1
        · exact old b cfg h1
    | dereg x hp hi hx e =>
      have hno : ∀ u, (s'.pc u).isEnable = false := fun u => alone u (by rw [hp]; rfl) (by
        subst e; rw [goto_pc]; rfl)
      refine ⟨hcounts, fun u hu => ?_, fun b cfg hm => ?_⟩
      · rw [hno u] at hu; cases hu
      · have hh : s'.hist = .deregOk t :: s.hist := by
          subst e
          obtain ⟨hp', rfl⟩ := deregisterBody_eq hi hx
          rfl
        rw [hh] at hm
        rcases List.mem_cons.1 hm with h1 | h1
        · cases h1
        · exact old b cfg h1

/-- C15: a `start` with a budget below one chunk is rejected. -/
theorem C15_reject {st : List Frame} (hp : s.pc t = .held .user st) {cfg : TraceConfig}
    (hm : cfg.mode = .fixed ∨ cfg.mode = .ring) (hz : cfg.size < sizeofTraceChunk) :
    ∃ s', s.next false tid t (.start cfg) = .to s' ∧ s'.hist = .reject :: .configure cfg :: s.hist ∧
      s'.pc t = .held .user st ∧ s'.buffer = s.buffer ∧ s'.enabled = s.enabled := by
  refine ⟨_, C38_rejected_partial hp hm ?_, rfl, hp, rfl, rfl⟩
  exact Nat.div_eq_of_lt hz

/-- C15: a `start` with a budget of at least one chunk is not rejected. -/
theorem C15_accept {st : List Frame} (hp : s.pc t = .held .user st) {cfg : TraceConfig}
    (hm : cfg.mode = .fixed ∨ cfg.mode = .ring) (hz : sizeofTraceChunk ≤ cfg.size) :
    ∃ s', s.next false tid t (.start cfg) = .to s' ∧ .reject ∉ s'.hist.take (s'.hist.length - s.hist.length) ∧
      (s'.pc t).isOff = true := by
  have hne : cfg.size / sizeofTraceChunk ≠ 0 := by
    have : 0 < sizeofTraceChunk := by decide
    have := Nat.div_pos hz this
    omega
  simp only [St.next, hp, hm, hne, if_true, if_false]
  cases he : s.enabled
  · exact ⟨_, rfl, by simp [St.goto], by simp [goto_pc, Pc.isOff]⟩
  · refine ⟨_, rfl, ?_, by simp [St.beginStop, goto_pc, Pc.isOff]⟩
    simp [St.beginStop, St.goto, show s.hist.length + 1 + 1 - s.hist.length = 2 by omega]

/-- C15: the buffer of every run has the largest number of chunks whose total size does not
exceed the budget of the run's configuration, and at least one. -/
theorem C15_size (h : Reachable true tid s) {b : Nat} {cfg : TraceConfig} (hm : Item.run b cfg ∈ s.hist) :
    let n := (s.heap b).chunks.length
    1 ≤ n ∧ n * sizeofTraceChunk ≤ cfg.size ∧ cfg.size < (n + 1) * sizeofTraceChunk ∧
      (s.heap b).mode = cfg.mode := by
  obtain ⟨⟨h1, h2, _⟩, h4⟩ := h.sized.runs b cfg hm
  have hpos : 0 < sizeofTraceChunk := by decide
  refine ⟨by omega, ?_, ?_, h4⟩
  · rw [h1]; exact Nat.div_mul_le_self _ _
  · rw [h1]; exact Nat.lt_mul_of_div_lt (Nat.lt_succ_self _) hpos

/-- 8100 bytes are two chunks of 4008; 10 bytes are none. -/
example : ∃ s : St Nat, Reachable true id s ∧ ((s.heap 0).chunks.length == 2 && (s.heap 1).chunks.length == 1 &&
    (s.heap 1).mode == .ring && s.hist == [.run 1 ring1, .noCall, .stop false none, .configure ring1,
      .reject, .configure { mode := .fixed, size := 10 }, .run 0 fixed2, .configure fixed2]) = true :=
  check_sound (l := starts fixed2 ++ locked ((0, .start { mode := .fixed, size := 10 }) ::
    (0, .start ring1) :: steps 0 3)) (by decide +kernel)

end Phosphor.TLog
