import Verif.Proof.LogBufferRefineMain
import Verif.Props.LogBuffer
import Verif.Props.TraceLogEvents
import Verif.Props.TraceLogFull
import Mathlib.Data.List.Perm.Basic
/-
C102: the log over the code of its built-in buffers does what the log of atomic buffers does, and so
what is proved of the latter holds with every access to shared memory a step of its own.
-/
namespace Phosphor.LogBuf
open TLog
variable {ε : Type} {tid : Nat → Nat} {o : List (Nat × Nat × ε)} {x x' : XSt ε} {s s' : St ε} {t b : Nat}

/-- C102: to every execution over the code of the buffers there is one in which `getChunk`,
`returnChunk` and the body of `deregisterThread` are single steps: every thread begins the same
functions of the log, all of them in the same order, and every thread stores the same events into the
same buffers; at the end configuration, registered threads, names, history, contexts, the buffer, where
each thread is and which chunk it has are what they look like here. -/
theorem C102_refines {L : List (Nat × XAct ε)} (hb : ∀ y ∈ L, BuiltIn y.2) (hL : XSt.init.run tid L = .to x) :
    ∃ l s, St.init.run true tid l = .to s ∧ begins l = beginsX L ∧ l.length ≤ 2 * L.length ∧
      Seen tid (stores tid XSt.init L) x s := by
  obtain ⟨l, s, h1, h2, h3, h4⟩ := sim_run seen_init Reachable.init.inv .init hb hL
  exact ⟨l, s, h1, h2, h3, by simpa using h4⟩

/-- The events passed to `logEvent` by thread `t` in an execution. -/
def logsBy (t : Nat) (L : List (Nat × XAct ε)) : List ε :=
  L.flatMap (fun y => if y.1 = t then (match y.2 with | .log (.log e) => [e] | _ => []) else [])

theorem logged_begins (t : Nat) (l : List (Nat × Choice ε)) : logged t (begins l) = logged t l := by
  induction l with
  | nil => rfl
  | cons y l ih =>
    simp only [begins, logged] at ih
    simp only [begins, logged, List.filter_cons, List.flatMap_cons]
    rw [← ih]
    obtain ⟨u, c⟩ := y
    cases c <;> simp [inner, calls]

theorem logged_beginsX (t : Nat) (L : List (Nat × XAct ε)) : logged t (beginsX L) = logsBy t L := by
  induction L with
  | nil => rfl
  | cons y L ih =>
    have hc : logged t (beginsX (y :: L)) = logged t ((begun y.2).map (fun c => (y.1, c))) ++ logged t (beginsX L) := by
      simp [logged, beginsX]
    rw [hc, ih]
    simp only [logsBy, List.flatMap_cons]
    congr 1
    obtain ⟨u, a⟩ := y
    cases a with
    | log c => cases c <;> simp [begun, inner, logged, calls]
    | access sp => simp [begun, logged]
    | stats => simp [begun, logged]

theorem Seen.event (h : Seen tid o x s) (u : Nat) : (s.pc u).event = (x.c.log.pc u).event := by
  rw [h.pc, seenPc]
  generalize (seenChunk x u).isSome = a
  generalize seenWait x u = w
  cases x.c.log.pc u <;> cases a <;> cases w <;> rfl

/-- The history is the same but for a thread that is about to be deregistered. -/
theorem Seen.hist (h : Seen tid o x s) : s.hist = x.c.log.hist ∨
    ∃ u, x.c.log.pc u = .deregBody ∧ (s.hist = .deregOk u :: x.c.log.hist ∨ s.hist = .deregRefused u :: x.c.log.hist) := by
  have hc := h.core
  unfold seenCore at hc
  split at hc
  · rename_i u hu
    refine .inr ⟨u, ?_, ?_⟩
    · unfold leaving at hu
      split at hu
      · cases hu
      · split at hu
        · split at hu
          · cases hu; assumption
          · cases hu
        · cases hu
    · simp only [unreg, core] at hc
      split at hc
      · left; exact congrArg (·.2.2.2.1) hc
      · right; exact congrArg (·.2.2.2.1) hc
  · left; exact (core_iff.1 hc).2.2.2.1

/-- C102 (C34 over the code of the buffers): in any execution during which tracing is not stopped, a
thread stays registered, and the buffer is a ring or never had to refuse a chunk, the events that the
thread passes to `logEvent` are stored in the log's buffer in that order (the last one may still be in
hand). -/
theorem C102_stored {L0 L : List (Nat × XAct ε)} (hb0 : ∀ y ∈ L0, BuiltIn y.2) (hL0 : XSt.init.run tid L0 = .to x)
    (hb : ∀ y ∈ L, BuiltIn y.2) (hL : x.run tid L = .to x') (hon : x.c.log.enabled = true)
    (hreg : (x.c.log.tenant t).initialised = true) (hp : x.c.log.pc t ≠ .deregBody)
    (hbuf : x.c.log.buffer = some b) (hbuf' : x'.c.log.buffer = some b)
    {new : List Item} (hh : x'.c.log.hist = new ++ x.c.log.hist) (hns : ∀ sh full, Item.stop sh full ∉ new)
    (hnd : Item.deregOk t ∉ new) (hp' : x'.c.log.pc t ≠ .deregBody)
    (hf : ∀ f, x'.buf b = .fixed f → f.issued ≤ f.size) :
    eventsIn (stores tid XSt.init L0 ++ stores tid x L) b t ++ (x'.c.log.pc t).event.toList =
      eventsIn (stores tid XSt.init L0) b t ++ (x.c.log.pc t).event.toList ++ logsBy t L := by
  obtain ⟨l0, s, h1, h2, h3, hS⟩ := C102_refines hb0 hL0
  have hr : TLog.Reachable true tid s := reachable_run .init h1
  have hX := (run_reachable .init L0 hL0).inv
  obtain ⟨l, s', g1, g2, g3, hS'⟩ := sim_run hS hX hr hb hL
  obtain ⟨new', hn'⟩ := run_hist g1
  -- the history of the one log and that of the other
  have pre : ∀ {o} {x : XSt ε} {s : St ε}, Seen tid o x s → ∃ p, s.hist = p ++ x.c.log.hist ∧
      (∀ sh full, Item.stop sh full ∉ p) ∧ (x.c.log.pc t ≠ .deregBody → Item.deregOk t ∉ p) := by
    intro o x s h
    rcases h.hist with h | ⟨u, hu, h | h⟩
    · exact ⟨[], by simpa using h, by simp, by simp⟩
    · refine ⟨[.deregOk u], by simpa using h, by simp, fun hne => ?_⟩
      simp only [List.mem_singleton, Item.deregOk.injEq]
      rintro rfl; exact hne hu
    · exact ⟨[.deregRefused u], by simpa using h, by simp, by simp⟩
  obtain ⟨p, e1, p1, p2⟩ := pre hS
  obtain ⟨p', e2, p1', p2'⟩ := pre hS'
  have heq : new' ++ p = p' ++ new := by
    rw [e1, e2, hh, ← List.append_assoc, ← List.append_assoc] at hn'
    exact (List.append_cancel_right hn').symm
  have mem : ∀ i, i ∈ new' → i ∈ p' ∨ i ∈ new := fun i hi => by
    have : i ∈ new' ++ p := by simp [hi]
    rw [heq] at this; simpa using this
  have B := hS'.bufs b hbuf'
  have main := C34_stored (t := t) (b := b) hr g1 (by rw [hS.enabled]; exact hon)
    (by rw [← hr.hist.reg, hS.init hp]; exact hreg) (by rw [hS.buffer]; exact hbuf) hn'
    (fun sh full hm => (mem _ hm).elim (p1' sh full) (hns sh full))
    (fun hm => (mem _ hm).elim (p2' hp') hnd)
    (by
      unfold BufSeen at B
      split at B
      · rename_i f hbf
        right; rw [B.2.1]
        have := hf f hbf
        have hz : (s'.heap b).chunks.length = f.size := B.2.2
        omega
      · exact .inl B.1)
  rw [hS'.stored, hS.stored, hS'.event, hS.event, ← logged_begins, g2, logged_beginsX] at main
  exact main

/-- C102 (C34, C48 over the code of the buffers): in every execution whatever, what a thread stores in
a buffer is a subsequence of what it passes to `logEvent`: nothing is invented, repeated or reordered. -/
theorem C102_subsequence {L0 L : List (Nat × XAct ε)} (hb0 : ∀ y ∈ L0, BuiltIn y.2) (hL0 : XSt.init.run tid L0 = .to x)
    (hb : ∀ y ∈ L, BuiltIn y.2) (hL : x.run tid L = .to x') (hlt : b < x.c.log.nextBuf) :
    (eventsIn (stores tid XSt.init L0 ++ stores tid x L) b t ++ (x'.c.log.pc t).event.toList).Sublist
      (eventsIn (stores tid XSt.init L0) b t ++ (x.c.log.pc t).event.toList ++ logsBy t L) := by
  obtain ⟨l0, s, h1, h2, h3, hS⟩ := C102_refines hb0 hL0
  have hr : TLog.Reachable true tid s := reachable_run .init h1
  have hX := (run_reachable .init L0 hL0).inv
  obtain ⟨l, s', g1, g2, g3, hS'⟩ := sim_run hS hX hr hb hL
  have main := C34_subsequence (t := t) (b := b) hr g1 (by rw [hS.nextBuf]; exact hlt)
  rw [hS'.stored, hS.stored, hS'.event, hS.event, ← logged_begins, g2, logged_beginsX] at main
  exact main

/-- C102 (C44, C48 over the code of the buffers): the events in the log's buffer are in chunks, each of
one thread and of at most the size of a chunk, which holds consecutive events of that thread; the chunk
of a thread holds its latest events, as many as its counter says. In a fixed buffer there are as many
chunks as were issued, and they hold all events that were stored, in order. -/
theorem C102_chunks {L : List (Nat × XAct ε)} (hb : ∀ y ∈ L, BuiltIn y.2) (hL : XSt.init.run tid L = .to x)
    (hbuf : x.c.log.buffer = some b) :
    ∃ chunks : List (Nat × List ε),
      (∀ (i u : Nat) (evs : List ε), chunks[i]? = some (u, evs) → evs.length ≤ chunkSize ∧
        evs <:+: eventsIn (stores tid XSt.init L) b u) ∧
      (∀ u i, (x.c.log.tenant u).chunk = some (b, i) → x.c.inCall u = none → ∃ evs, chunks[i]? = some (u, evs) ∧
        evs.length = x.c.count b i ∧ evs <:+ eventsIn (stores tid XSt.init L) b u) ∧
      (∀ f, x.buf b = .fixed f → chunks.length = min f.issued f.size ∧
        ∀ u, chunks.flatMap (fun p => if p.1 = u then p.2 else []) = eventsIn (stores tid XSt.init L) b u) := by
  obtain ⟨l0, s, h1, h2, h3, hS⟩ := C102_refines hb hL
  have hr : TLog.Reachable true tid s := reachable_run .init h1
  have hX := (run_reachable .init L hL).inv
  have B := hS.bufs b hbuf
  refine ⟨s.contents b, fun i u evs hc => ?_, fun u i hc hin => ?_, fun f hf => ?_⟩
  · obtain ⟨a1, c, _, _, a2⟩ := C44_unmixed hr hc
    exact ⟨a2.room, by rw [← hS.stored]; exact a1⟩
  · have hcs : (s.tenant u).chunk = some (b, i) := by rw [hS.chunk_out hin, hc]
    obtain ⟨evs, he⟩ := hr.data.owns u b i hcs
    refine ⟨evs, he, ?_, by rw [← hS.stored]; exact hr.data.chunkSuffix u b i evs hcs he⟩
    rw [hS.count u b i evs (by rw [seenChunk_out hin, hc]) he, events_of (fun e p => notWait hX.inv hin)]
  · unfold BufSeen at B
    rw [hf] at B
    have hz : (s.heap b).chunks.length = f.size := B.2.2
    constructor
    · have := (hr.data.bufs b).holds.count
      rw [tagged_length] at this
      rw [← this]
      simp only [Buffer.chunkCount, B.1, B.2.1, hz, Buffer.size]
      split <;> omega
    · intro u
      rw [← hS.stored, ← hr.data.fixedStored b u (by rw [B.1]; simp)]
      rfl

theorem count_events (o : List (Nat × Nat × ε)) (b u : Nat) :
    List.count u ((o.filter (fun y => y.1 = b)).map (fun y => y.2.1)) = (eventsIn o b u).length := by
  induction o with
  | nil => rfl
  | cons y o ih =>
    simp only [eventsIn, List.filter_cons, List.length_map] at ih ⊢
    by_cases hy : y.1 = b <;> by_cases hu : y.2.1 = u <;> simp [hy, hu, ih]

theorem count_chunks (chunks : List (Nat × List ε)) (u : Nat) :
    List.count u (chunks.flatMap (fun p => List.replicate p.2.length p.1)) =
      (chunks.flatMap (fun p => if p.1 = u then p.2 else [])).length := by
  induction chunks with
  | nil => rfl
  | cons p c ih =>
    simp only [List.flatMap_cons, List.count_append, List.length_append, ih]
    congr 1
    by_cases hu : p.1 = u
    · simp [hu]
    · simp [hu, List.count_replicate]

/-- C102: a fixed buffer never gets more events than fit into its chunks. -/
theorem C102_capacity {L : List (Nat × XAct ε)} (hb : ∀ y ∈ L, BuiltIn y.2) (hL : XSt.init.run tid L = .to x)
    (hbuf : x.c.log.buffer = some b) {f : FSt} (hf : x.buf b = .fixed f) :
    ((stores tid XSt.init L).filter (fun y => y.1 = b)).length ≤ f.size * chunkSize := by
  obtain ⟨chunks, h1, _, h3⟩ := C102_chunks hb hL hbuf
  obtain ⟨h3, h4⟩ := h3 f hf
  generalize stores tid XSt.init L = o at *
  have e1 : ((o.filter (fun y => y.1 = b)).map (fun y => y.2.1)).Perm (chunks.flatMap (fun p => List.replicate p.2.length p.1)) := by
    rw [List.perm_iff_count]
    intro u
    have h5 := congrArg List.length (h4 u)
    rw [count_events, count_chunks, h5]
  have e2 := e1.length_eq
  simp only [List.length_map] at e2
  rw [e2]
  have e3 : ∀ c : List (Nat × List ε), (∀ p ∈ c, p.2.length ≤ chunkSize) →
      (c.flatMap (fun p => List.replicate p.2.length p.1)).length ≤ c.length * chunkSize := by
    intro c
    induction c with
    | nil => simp
    | cons p c ih =>
      intro hc
      have i1 := ih (fun q hq => hc q (by simp [hq]))
      have i2 := hc p (by simp)
      simp only [List.flatMap_cons, List.length_append, List.length_replicate, List.length_cons, Nat.succ_mul]
      omega
  refine Nat.le_trans (e3 chunks (fun p hp => ?_)) (Nat.mul_le_mul_right _ (by omega))
  obtain ⟨i, hi⟩ := List.mem_iff_getElem?.1 hp
  exact (h1 i p.1 p.2 hi).1

/-- C102 (C32, C36, C39, C46 over the code of the buffers): stops, callbacks, rejected starts and
retrievals come in the order that `HistOk` requires; runs have increasing numbers; no buffer is handed
out twice; and a thread that found a buffer full has stopped the run of that very buffer. -/
theorem C102_history {L : List (Nat × XAct ε)} (hb : ∀ y ∈ L, BuiltIn y.2) (hL : XSt.init.run tid L = .to x) :
    HistOk x.c.log.hist ∧ StopsOwn x.c.log.hist ∧ (runIds x.c.log.hist).Pairwise (· > ·) ∧
    (∀ b, x.c.log.hist.countP (Item.hands b) ≤ 1) ∧ x.c.log.enabled = on x.c.log.hist ∧
    x.c.log.config = configOf x.c.log.hist := by
  obtain ⟨l0, s, h1, h2, h3, hS⟩ := C102_refines hb hL
  have hr : TLog.Reachable true tid s := reachable_run .init h1
  have a1 := hr.hist.ok
  have a2 := C46_own_run_partial hr
  have a3 := C39_runs hr
  have a4 := C32_once hr
  have a5 := hr.hist.en
  have a6 := hr.hist.cfg
  rw [hS.enabled] at a5
  rw [hS.config] at a6
  rcases hS.hist with h | ⟨u, _, h | h⟩ <;> rw [h] at a1 a2 a3 a5 a6 <;> (try simp only [h] at a4)
  · exact ⟨a1, a2, a3, a4, a5, a6⟩
  · exact ⟨a1.2, a2, a3, fun b => by simpa [Item.hands] using a4 b, a5, a6⟩
  · exact ⟨a1.2, a2, a3, fun b => by simpa [Item.hands] using a4 b, a5, a6⟩

/-! ### Cases that meet the hypotheses -/

/-- Whether a run with built-in buffers ends in a state with a property, given the events stored. -/
def checkO (l : List (Nat × XAct Nat)) (P : XSt Nat → List (Nat × Nat × Nat) → Bool) : Bool :=
  match (XSt.init.run id l : Out (XSt Nat)) with
  | .to x => P x (stores id XSt.init l)
  | _ => false

/-- Thread 1 logs events 7 and 9 and is done, in a fixed buffer of one chunk; the events are where
C102_chunks and C102_capacity say. -/
def two (m : BufferMode) : List (Nat × XAct Nat) := begin1 m ++ inb 1 3 ++ go 1 2 ++ [(1, .log (.log 9))] ++ go 1 6

example : checkO (two .fixed) (fun x o => o == [(0, 1, 7), (0, 1, 9)] && x.c.log.pc 1 == .idle &&
    x.c.log.buffer == some 0 && (x.c.log.tenant 1).chunk == some (0, 0) && x.c.inCall 1 == none && x.c.count 0 0 == 2 &&
    (match x.buf 0 with | .fixed f => f.issued == 1 && f.size == 1 | _ => false)) = true := by decide +kernel

/-- The conditions of C102_stored: from the moment at which thread 1 is inside `getChunk` of a ring with
its first event until it has stored that and another one. -/
example : checkO (begin1 .ring) (fun x o => o == [] && x.c.log.enabled && (x.c.log.tenant 1).initialised &&
      (x.c.log.pc 1).event == some 7 && x.c.inCall 1 == some 0) = true ∧
    checkO (two .ring) (fun x o => o == [(0, 1, 7), (0, 1, 9)] && (x.c.log.pc 1).event == none &&
      x.c.log.hist.length == 4 && x.c.log.buffer == some 0) = true := by decide +kernel

/-- In `handOver` thread 1 gives its chunk to thread 2 through the ring: to the log of atomic buffers
thread 1 is deregistered and has no chunk, though here it still has the pointer. -/
example : checkO (handOver ++ go 2 2) (fun x o => o == [(0, 1, 7), (0, 2, 8)] && leaving x == some 1 &&
    seenChunk x 1 == none && (x.c.log.tenant 1).chunk == some (0, 0) &&
    seenChunk x 2 == some (0, 0) && x.c.log.hist.length == 4) = true := by decide +kernel

end Phosphor.LogBuf
