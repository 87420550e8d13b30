import Verif.Model.TraceLogExn
import Verif.Proof.TraceBuffer
import Verif.Props.Event
/-
C78: errors while stopping or starting.
-/
namespace Phosphor.Exc

/-- What is true of a log between calls. -/
structure Settled (l : Log) : Prop where
  unlocked : l.locked = false
  off : l.enabled = false → l.chunk = none
  unregistered : l.initialised = false → l.chunk = none

/-- What a callback may change: it may take the buffer. -/
structure Kept (l l' : Log) : Prop where
  config : l'.config = l.config
  enabled : l'.enabled = l.enabled
  locked : l'.locked = l.locked
  generation : l'.generation = l.generation
  inForce : l'.inForce = l.inForce
  names : l'.names = l.names
  tid : l'.tid = l.tid
  initialised : l'.initialised = l.initialised
  chunk : l'.chunk = l.chunk
  buffer : l'.buffer = l.buffer ∨ l'.buffer = none

theorem Kept.refl (l : Log) : Kept l l := ⟨rfl, rfl, rfl, rfl, rfl, rfl, rfl, rfl, rfl, Or.inl rfl⟩

theorem Kept.trans {a b c : Log} (h : Kept a b) (k : Kept b c) : Kept a c where
  config := k.config.trans h.config
  enabled := k.enabled.trans h.enabled
  locked := k.locked.trans h.locked
  generation := k.generation.trans h.generation
  inForce := k.inForce.trans h.inForce
  names := k.names.trans h.names
  tid := k.tid.trans h.tid
  initialised := k.initialised.trans h.initialised
  chunk := k.chunk.trans h.chunk
  buffer := by
    rcases k.buffer with e | e
    · rcases h.buffer with f | f
      · exact Or.inl (e.trans f)
      · exact Or.inr (e.trans f)
    · exact Or.inr e

theorem Kept.drop (l : Log) : Kept l { l with buffer := none } :=
  ⟨rfl, rfl, rfl, rfl, rfl, rfl, rfl, rfl, rfl, Or.inr rfl⟩

theorem doOps_spec (l : Log) (os : List Op) (h : l.enabled = false) :
    Kept l (l.doOps os).1 ∧ (l.doOps os).2 = .ret := by
  induction os generalizing l with
  | nil => exact ⟨.refl l, rfl⟩
  | cons o os ih =>
    have hop : ∃ l1, l.doOp o = (l1, .ret) ∧ Kept l l1 := by
      have ht : l.takeBuffer = ({ l with buffer := none }, .ret) := by
        unfold Log.takeBuffer
        rw [if_neg (by simp [h])]
      cases o with
      | getBuffer => exact ⟨_, ht, .drop l⟩
      | getTraceContext => exact ⟨_, ht, .drop l⟩
      | stop s => exact ⟨_, rfl, .refl l⟩
    obtain ⟨l1, h1, h2⟩ := hop
    have := ih l1 (by rw [h2.enabled]; exact h)
    simp only [Log.doOps, h1]
    exact ⟨h2.trans this.1, this.2⟩

theorem runCallback_kept (env : Env) (fuel : Nat) (l : Log) (cb : Callback)
    (h : l.enabled = false) : Kept l (l.runCallback env fuel cb).1 := by
  cases cb with
  | user n =>
    have := doOps_spec l (env.callback n).1 h
    simp only [Log.runCallback]
    generalize l.doOps (env.callback n).1 = r at this
    obtain ⟨l', r⟩ := r
    obtain ⟨h1, h2⟩ := this
    simp only at h1 h2
    subst h2
    simp only
    split <;> exact h1
  | file p =>
    simp only [Log.runCallback]
    split
    · exact .drop l
    · exact .refl l

/-- The log when the stopped callback of a stop runs. -/
def Log.stopping (l : Log) : Log :=
  { l with enabled := false, inForce := none, chunk := if l.initialised then none else l.chunk }

theorem stopLh_off (env : Env) (fuel : Nat) (l : Log) (sd : Bool) (h : l.enabled = false) :
    l.stopLh env fuel sd = (l, .ret) := by
  simp [Log.stopLh, h]

theorem stopLh_on (env : Env) (fuel : Nat) (l : Log) (sd : Bool) (h : l.enabled = true) :
    l.stopLh env fuel sd =
      match callbackDue l.config sd with
      | none => (l.stopping, .ret)
      | some cb => l.stopping.runCallback env fuel cb := by
  unfold Log.stopLh
  rw [if_pos h]
  rfl

theorem stopLh_kept (env : Env) (fuel : Nat) (l : Log) (sd : Bool) (h : l.enabled = true) :
    Kept l.stopping (l.stopLh env fuel sd).1 := by
  rw [stopLh_on env fuel l sd h]
  split
  · exact .refl _
  · exact runCallback_kept env fuel _ _ rfl

theorem stopLh_disabled (env : Env) (fuel : Nat) (l : Log) (sd : Bool) :
    (l.stopLh env fuel sd).1.enabled = false := by
  cases h : l.enabled with
  | false => rw [stopLh_off env fuel l sd h]; exact h
  | true => rw [(stopLh_kept env fuel l sd h).enabled]; rfl

/-- Under the mutex: `Settled` but for the mutex. -/
structure Inside (l : Log) : Prop where
  off : l.enabled = false → l.chunk = none
  unregistered : l.initialised = false → l.chunk = none

theorem Kept.inside {l l' : Log} (h : Kept l l') (hi : Inside l) : Inside l' :=
  ⟨fun e => by rw [h.chunk]; exact hi.off (by rw [← h.enabled]; exact e),
    fun e => by rw [h.chunk]; exact hi.unregistered (by rw [← h.initialised]; exact e)⟩

theorem stopping_inside {l : Log} (hi : Inside l) : Inside l.stopping := by
  have hc : l.stopping.chunk = none := by
    simp only [Log.stopping]
    split
    · rfl
    · next h => exact hi.unregistered (by simpa using h)
  exact ⟨fun _ => hc, fun _ => hc⟩

theorem stopLh_inside (env : Env) (fuel : Nat) (l : Log) (sd : Bool) (hi : Inside l) :
    Inside (l.stopLh env fuel sd).1 := by
  cases h : l.enabled with
  | false => rw [stopLh_off env fuel l sd h]; exact hi
  | true => exact (stopLh_kept env fuel l sd h).inside (stopping_inside hi)

theorem startLh_inside (env : Env) (fuel : Nat) (l : Log) (cfg : Cfg.Obj) (hi : Inside l) :
    Inside (l.startLh env fuel cfg).1 := by
  have hi' : Inside { l with config := cfg } := ⟨hi.off, hi.unregistered⟩
  unfold Log.startLh
  simp only
  split
  · exact hi'
  · have hs : Inside (if l.enabled = true then
        ({ l with config := cfg } : Log).stopLh env fuel false else ({ l with config := cfg }, .ret)).1 := by
      split
      · exact stopLh_inside env fuel _ false hi'
      · exact hi'
    have hd : (if l.enabled = true then
        ({ l with config := cfg } : Log).stopLh env fuel false
        else ({ l with config := cfg }, .ret)).1.enabled = false := by
      split
      · exact stopLh_disabled env fuel _ false
      · next h => simpa using h
    generalize (if l.enabled = true then
        ({ l with config := cfg } : Log).stopLh env fuel false
        else ({ l with config := cfg }, .ret)) = r at hs hd
    obtain ⟨l', r⟩ := r
    cases r with
    | ret =>
      have hc := hs.off hd
      simp only
      split <;> exact ⟨fun _ => hc, fun _ => hc⟩
    | raise x => exact hs
    | terminate => exact hs
    | ub => exact hs
    | hang => exact hs

/-- The log with the mutex held. -/
def Log.held (l : Log) : Log := { l with locked := true }

/-- The log with the mutex free. -/
def Log.freed (l : Log) : Log := { l with locked := false }

theorem guarded_eq (l : Log) (body : Log → Log × Ret) (h : l.locked = false) :
    l.guarded body = ((body l.held).1.freed, (body l.held).2) := by
  unfold Log.guarded
  rw [if_neg (by simp [h])]
  rfl

theorem guarded_settled (l : Log) (body : Log → Log × Ret) (h : Settled l)
    (hb : ∀ l, Inside l → Inside (body l).1) : Settled (l.guarded body).1 := by
  have := hb { l with locked := true } ⟨h.off, h.unregistered⟩
  unfold Log.guarded
  rw [if_neg (by simp [h.unlocked])]
  exact ⟨rfl, this.off, this.unregistered⟩

theorem takeBuffer_inside (l : Log) (h : Inside l) : Inside l.takeBuffer.1 := by
  unfold Log.takeBuffer
  split
  · exact h
  · exact ⟨h.off, h.unregistered⟩

theorem maybeStop_settled (env : Env) (fuel : Nat) (l : Log) (g : Nat) (h : Settled l) :
    Settled (l.maybeStop env fuel g).1 := by
  refine guarded_settled l _ h fun l hl => ?_
  split
  · exact hl
  · exact stopLh_inside env fuel l false hl

theorem store_settled (l : Log) (e : Event) (h : Settled l) : Settled (l.store e).1 := by
  unfold Log.store
  split
  · split <;> exact ⟨h.unlocked, h.off, h.unregistered⟩
  · exact h

theorem replaceChunk_settled (l : Log) (h : Settled l) (he : l.enabled = true)
    (hr : l.initialised = true) : Settled l.replaceChunk.1 := by
  have key : ∀ (b : Option (Buffer Event)) (c : Option Nat),
      Settled { l with buffer := b, chunk := c } := fun b c =>
    ⟨h.unlocked, fun e => by simp [he] at e, fun e => by simp [hr] at e⟩
  unfold Log.replaceChunk
  simp only
  cases hc : l.chunk with
  | none =>
    simp only [he, if_true]
    cases hb : l.buffer with
    | none => exact h
    | some b =>
      simp only
      split <;> exact ⟨h.unlocked, fun e => by simp at e, fun e => by simp [hr] at e⟩
  | some i =>
    cases hb : l.buffer with
    | none => exact h
    | some b =>
      simp only [he, if_true]
      split <;> exact ⟨h.unlocked, fun e => by simp at e, fun e => by simp [hr] at e⟩

theorem logEvent_settled (env : Env) (fuel : Nat) (l : Log) (e : Event) (h : Settled l) :
    Settled (l.logEvent env fuel e).1 := by
  unfold Log.logEvent
  split
  · next he =>
    split
    · next hr =>
      split
      · exact store_settled l e h
      · have := replaceChunk_settled l h he hr
        generalize l.replaceChunk = r at this
        obtain ⟨l', g⟩ := r
        cases g with
        | yes => exact store_settled l' e this
        | no => exact maybeStop_settled env fuel l' _ this
        | fails r => exact this
      · exact h
      · exact h
    · exact h
  · exact h

theorem call_settled (env : Env) (fuel : Nat) (l : Log) (c : Call) (h : Settled l) :
    Settled (l.call env fuel c).1 := by
  cases c with
  | start cfg => exact guarded_settled l _ h fun l hl => startLh_inside env fuel l cfg hl
  | stop sd => exact guarded_settled l _ h fun l hl => stopLh_inside env fuel l sd hl
  | log e => exact logEvent_settled env fuel l e h
  | getBuffer => exact guarded_settled l _ h takeBuffer_inside
  | register =>
    refine guarded_settled l _ h fun l hl => ?_
    split
    · exact hl
    · next hn => exact ⟨hl.off, fun e => by simp at e⟩
  | deregister =>
    refine guarded_settled l _ h fun l hl => ?_
    split
    · exact ⟨fun _ => rfl, fun _ => rfl⟩
    · exact hl

/-- A log that has been used in any way, by code that catches all exceptions, is settled. -/
theorem calls_settled (l l' : Log) (cs : List (Env × Nat × Call)) (h : Settled l)
    (hc : l.calls cs = some l') : Settled l' := by
  induction cs generalizing l with
  | nil => cases hc; exact h
  | cons c cs ih =>
    obtain ⟨env, fuel, c⟩ := c
    have hs := call_settled env fuel l c h
    rw [Log.calls] at hc
    generalize l.call env fuel c = r at hs hc
    obtain ⟨l1, r⟩ := r
    cases r with
    | ret => exact ih l1 hs hc
    | raise x => exact ih l1 hs hc
    | terminate => cases hc
    | ub => cases hc
    | hang => cases hc

theorem new_settled (tid : Nat) : Settled (Log.new tid) := ⟨rfl, fun _ => rfl, fun _ => rfl⟩

/-! ### Who gets the exception -/

/-- C78: whatever `stop` raises is what the callback raised, and tracing has stopped all the same:
`enabled` is false, no category is in force, the mutex is free, and the buffer is still there unless
the callback took it. -/
theorem C78_stop_partial (env : Env) (fuel : Nat) (l : Log) (sd : Bool) (h : Settled l)
    (he : l.enabled = true) (l' : Log) (r : Ret) (hr : l.stop env fuel sd = (l', r)) :
    l'.enabled = false ∧ l'.inForce = none ∧ l'.locked = false ∧ l'.generation = l.generation ∧
      l'.config = l.config ∧ (l'.buffer = l.buffer ∨ l'.buffer = none) ∧
      (∀ x, r = .raise x ↔ ∃ cb, callbackDue l.config sd = some cb ∧
        (l.held.stopping.runCallback env fuel cb).2 = .raise x) := by
  rw [Log.stop, guarded_eq l _ h.unlocked] at hr
  have hk := stopLh_kept env fuel l.held sd he
  have ho := stopLh_on env fuel l.held sd he
  have hc : l.held.config = l.config := rfl
  generalize l.held.stopLh env fuel sd = q at hr hk ho
  obtain ⟨l1, r1⟩ := q
  simp only [Prod.mk.injEq] at hr
  obtain ⟨rfl, rfl⟩ := hr
  refine ⟨hk.enabled, hk.inForce, rfl, hk.generation, hk.config, hk.buffer, fun x => ?_⟩
  rw [hc] at ho
  cases hd : callbackDue l.config sd with
  | none =>
    rw [hd] at ho
    cases ho
    simp
  | some cb =>
    rw [hd] at ho
    simp only at ho
    have h2 : r1 = (l.held.stopping.runCallback env fuel cb).2 := by rw [← ho]
    rw [h2]
    constructor
    · intro e; exact ⟨cb, rfl, e⟩
    · rintro ⟨cb', e1, e2⟩; cases e1; exact e2

/-- What a callback that raises raises: a user callback its own exception; the file saving one
`system_error` if the file cannot be opened, else what saving the document raises. -/
theorem C78_callback_partial (env : Env) (fuel : Nat) (l : Log) (cb : Callback) (h : l.enabled = false)
    (x : X) :
    (l.runCallback env fuel cb).2 = .raise x ↔
      (∃ n, cb = .user n ∧ (env.callback n).2 = some x) ∨
      (∃ p, cb = .file p ∧ env.file.canOpen = false ∧ x = .lib .systemError) ∨
      (∃ p, cb = .file p ∧ env.file.canOpen = true ∧
        saveOutcome env ⟨l.buffer, l.names⟩ fuel = .raise x) := by
  cases cb with
  | user n =>
    have := doOps_spec l (env.callback n).1 h
    simp only [Log.runCallback]
    generalize l.doOps (env.callback n).1 = r at this
    obtain ⟨l', r⟩ := r
    obtain ⟨-, h2⟩ := this
    simp only at h2
    subst h2
    cases hx : (env.callback n).2 with
    | none => simp [hx]
    | some y => simp [hx]
  | file p =>
    simp only [Log.runCallback]
    cases ho : env.file.canOpen with
    | true => simp
    | false =>
      simp only [Bool.false_eq_true, if_false, Ret.raise.injEq]
      constructor
      · intro e; exact Or.inr (Or.inl ⟨p, rfl, trivial, e.symm⟩)
      · rintro (⟨n, e, -⟩ | ⟨p', -, -, e⟩ | ⟨p', -, e, -⟩)
        · cases e
        · exact e.symm
        · cases e

/-- C78: if the file cannot be opened nothing is lost: the exception is `system_error`, and
`getBuffer` still gives the trace (here: leaves it to be given, and then takes it). -/
theorem C78_unopened_partial (env : Env) (fuel : Nat) (l : Log) (p : Str) (h : Settled l)
    (he : l.enabled = true) (hcb : l.config.callback = some (.file p))
    (ho : env.file.canOpen = false) (l' : Log) (r : Ret) (hr : l.stop env fuel false = (l', r)) :
    r = .raise (.lib .systemError) ∧ l'.buffer = l.buffer ∧ l'.getBuffer.2 = .ret := by
  rw [Log.stop, guarded_eq l _ h.unlocked, stopLh_on env fuel l.held false he] at hr
  have hd : callbackDue l.held.config false = some (.file p) := by
    simp [callbackDue, Cfg.Obj.getStoppedCallback, Log.held, hcb]
  simp only [hd, Log.runCallback, ho, Bool.false_eq_true, if_false, Prod.mk.injEq] at hr
  obtain ⟨rfl, rfl⟩ := hr
  refine ⟨rfl, rfl, ?_⟩
  rw [Log.getBuffer, guarded_eq _ _ rfl]
  rfl

/-! ### A failed start -/

/-- C78: a `start` that raises has either rejected the size, changing the configuration only (see
C38), or left tracing off, with the previous buffer still there unless the callback of the run that
ended took it. Categories are then as after a stop. -/
theorem C78_start_partial (env : Env) (fuel : Nat) (l : Log) (cfg : Cfg.Obj) (h : Settled l) (x : X)
    (l' : Log) (hr : l.start env fuel cfg = (l', .raise x)) :
    (cfg.size / sizeofTraceChunk = 0 ∧ x = .lib .invalidArgument ∧ l' = { l with config := cfg }) ∨
    (cfg.size / sizeofTraceChunk ≠ 0 ∧ l'.enabled = false ∧ l'.locked = false ∧
      l'.inForce = (if l.enabled then none else l.inForce) ∧
      (l'.buffer = l.buffer ∨ (l.enabled = true ∧ l'.buffer = none)) ∧
      (l.generation ≤ l'.generation ∧ l'.generation ≤ l.generation + 1)) := by
  rw [Log.start, guarded_eq l _ h.unlocked] at hr
  have hu := h.unlocked
  by_cases hz : cfg.size / sizeofTraceChunk = 0
  · left
    have hs : l.held.startLh env fuel cfg = ({ l.held with config := cfg }, .raise (.lib .invalidArgument)) := by
      simp [Log.startLh, Cfg.Obj.getBufferSize, hz]
    rw [hs] at hr
    simp only [Prod.mk.injEq, Ret.raise.injEq] at hr
    obtain ⟨rfl, rfl⟩ := hr
    refine ⟨hz, rfl, ?_⟩
    cases l; simp only at hu; subst hu; rfl
  · right
    refine ⟨hz, ?_⟩
    -- the part before the factory
    have pre : ∃ l1 r1, (if l.enabled = true then
        ({ l.held with config := cfg } : Log).stopLh env fuel false
        else ({ l.held with config := cfg }, .ret)) = (l1, r1) ∧
        l1.enabled = false ∧ l1.inForce = (if l.enabled then none else l.inForce) ∧
        (l1.buffer = l.buffer ∨ (l.enabled = true ∧ l1.buffer = none)) ∧
        l1.generation = l.generation := by
      cases he : l.enabled with
      | false => exact ⟨_, _, rfl, he, rfl, Or.inl rfl, rfl⟩
      | true =>
        have hk := stopLh_kept env fuel { l.held with config := cfg } false he
        refine ⟨_, _, rfl, hk.enabled, hk.inForce, ?_, hk.generation⟩
        rcases hk.buffer with e | e
        · exact Or.inl e
        · exact Or.inr ⟨rfl, e⟩
    obtain ⟨l1, r1, hp, p1, p2, p3, p4⟩ := pre
    have hs : l.held.startLh env fuel cfg =
        match (l1, r1) with
        | (l, .ret) =>
          let g := l.generation
          let l := { l with generation := g + 1 }
          match make env l.config.getBufferFactory g (cfg.getBufferSize / sizeofTraceChunk) with
          | .raises x => (l, .raise x)
          | .null => ({ l with
              buffer := none
              inForce := some (l.config.getEnabledCategories, l.config.getDisabledCategories)
              enabled := true }, .ret)
          | .buffer b => ({ l with
              buffer := some b
              inForce := some (l.config.getEnabledCategories, l.config.getDisabledCategories)
              enabled := true }, .ret)
        | r => r := by
      rw [← hp]
      unfold Log.startLh
      simp only
      rw [if_neg (show ¬ cfg.getBufferSize / sizeofTraceChunk = 0 from hz)]
      rfl
    rw [hs] at hr
    cases r1 with
    | ret =>
      simp only at hr
      split at hr
      · simp only [Prod.mk.injEq, Ret.raise.injEq] at hr
        obtain ⟨rfl, rfl⟩ := hr
        refine ⟨p1, rfl, p2, p3, ?_, ?_⟩ <;> simp only [Log.freed] <;> omega
      · simp at hr
      · simp at hr
    | raise y =>
      simp only [Prod.mk.injEq, Ret.raise.injEq] at hr
      obtain ⟨rfl, rfl⟩ := hr
      refine ⟨p1, rfl, p2, p3, ?_, ?_⟩ <;> simp only [Log.freed] <;> omega
    | terminate => simp at hr
    | ub => simp at hr
    | hang => simp at hr

/-! ### The log stays usable -/

/-- A new buffer of either kind. -/
def fresh (m : BufferMode) (g n : Nat) : Buffer Event := ⟨m, g, List.replicate n none, 0, 0, []⟩

/-- In a new buffer the first chunk takes the first event. -/
theorem fresh_holds (m : BufferMode) (g n tid : Nat) (hn : 0 < n) (hm : m = .fixed ∨ m = .ring)
    (e : Event) : ∃ b1 b2, (fresh m g n).getChunk tid = (b1, .chunk 0) ∧
      b1.pushAt 0 e = (b2, .ok ()) ∧ b2.Holds [(tid, [e])] := by
  obtain ⟨k, rfl⟩ : ∃ k, n = k + 1 := ⟨n - 1, by omega⟩
  have hres := Chunk.reset_holds (none : ChunkMem Event) tid (by decide)
  obtain ⟨c', h1, h2, h3⟩ := Chunk.push_ok _ [] e hres (by decide)
  have hget : (fresh m g (k + 1)).getChunk tid =
      (⟨m, g, some (Chunk.reset none tid) :: List.replicate k none, 1, 1, []⟩, .chunk 0) := by
    rcases hm with rfl | rfl
    · simp [fresh, Buffer.getChunk, Buffer.getChunkFixed, Buffer.size, Buffer.resetAt,
        List.replicate_succ]
    · simp [fresh, Buffer.getChunk, Buffer.getChunkRing, Buffer.ringClaim, Buffer.ringLoan,
        Buffer.size, Buffer.resetAt, List.replicate_succ]
  refine ⟨_, ⟨m, g, some c' :: List.replicate k none, 1, 1, []⟩, hget, ?_, ?_, ?_⟩
  · simp [Buffer.pushAt, h1]
  · rcases hm with rfl | rfl
    · simp only [Buffer.chunkCount, Buffer.size, List.length_cons, List.length_replicate,
        List.length_nil]
      split <;> omega
    · simp only [Buffer.chunkCount, Buffer.size, List.length_cons, List.length_replicate,
        List.length_nil]
      split <;> omega
  · intro i t evs hi
    match i with
    | 0 => cases hi; exact ⟨c', rfl, h3, h2⟩

/-- C78: no failure wedges the log. After any sequence of calls of which any may have raised, as soon
as tracing is off a `start` with enough memory succeeds, and the next event of a registered thread is
in the new buffer. -/
theorem C78_usable_partial (tid : Nat) (cs : List (Env × Nat × Call)) (l : Log)
    (hc : (Log.new tid).calls cs = some l) (hoff : l.enabled = false) (env : Env) (fuel : Nat)
    (cfg : Cfg.Obj) (hsize : sizeofTraceChunk ≤ cfg.size)
    (hf : cfg.container.factory = .makeFixed ∨ cfg.container.factory = .makeRing)
    (hm : env.memory (cfg.size / sizeofTraceChunk) = true) :
    ∃ l1, l.start env fuel cfg = (l1, .ret) ∧ l1.enabled = true ∧ l1.locked = false ∧
      (l.initialised = true → ∀ e, ∃ l2 b, l1.logEvent env fuel e = (l2, .ret) ∧
        l2.buffer = some b ∧ b.Holds [(l.tid, [e])]) := by
  have hs := calls_settled _ _ _ (new_settled tid) hc
  have hch : l.chunk = none := hs.off hoff
  have hpos : 0 < cfg.size / sizeofTraceChunk := Nat.div_pos hsize (by decide)
  have hz : cfg.size / sizeofTraceChunk ≠ 0 := by omega
  generalize hn : cfg.size / sizeofTraceChunk = n at hm hz hpos
  obtain ⟨m, hmk, hmode⟩ : ∃ m, make env cfg.container.factory l.generation n
      = .buffer (fresh m l.generation n) ∧ (m = .fixed ∨ m = .ring) := by
    rcases hf with hf | hf
    · exact ⟨.fixed, by simp only [make, hf, hm, if_true]; rfl, Or.inl rfl⟩
    · exact ⟨.ring, by simp only [make, hf, hm, if_true]; rfl, Or.inr rfl⟩
  refine ⟨⟨cfg, true, false, some (fresh m l.generation n), l.generation + 1,
    some (cfg.enabled, cfg.disabled), l.names, l.tid, l.initialised, l.chunk⟩, ?_, rfl, rfl, ?_⟩
  · rw [Log.start, guarded_eq l _ hs.unlocked]
    have : l.held.startLh env fuel cfg = (⟨cfg, true, true, some (fresh m l.generation n),
        l.generation + 1, some (cfg.enabled, cfg.disabled), l.names, l.tid, l.initialised, l.chunk⟩,
        .ret) := by
      simp only [Log.startLh, Log.held, Cfg.Obj.getBufferSize, hn, hz, hoff, Bool.false_eq_true,
        if_false, Cfg.Obj.getBufferFactory, hmk, Cfg.Obj.getEnabledCategories,
        Cfg.Obj.getDisabledCategories]
    rw [this]
    rfl
  · intro hinit e
    obtain ⟨b1, b2, g1, g2, g3⟩ := fresh_holds m l.generation n l.tid hpos hmode e
    refine ⟨⟨cfg, true, false, some b2, l.generation + 1, some (cfg.enabled, cfg.disabled), l.names,
      l.tid, l.initialised, some 0⟩, b2, ?_, rfl, g3⟩
    simp only [Log.logEvent, hinit, if_true, Log.needsChunk, hch, Log.replaceChunk, g1, Log.store, g2]

/-! ### Traced code -/

/-- The thread needs another chunk and there is none: the log has no buffer (a user factory
returned null), or the buffer is a fixed one that is used up. -/
def Log.Exhausted (l : Log) : Prop :=
  (l.chunk = none ∧ l.buffer = none) ∨
  ∃ b, l.buffer = some b ∧ b.mode ≠ .ring ∧ b.size ≤ b.counter ∧
    (l.chunk = none ∨ ∃ i c, l.chunk = some i ∧ b.chunkAt i = .ok c ∧ c.isFull = true)

/-- The log of an exhausted thread when it calls `maybe_stop`: its chunk is back and one more chunk
has been asked for. -/
def Log.afterAsking (l : Log) : Log :=
  match l.buffer with
  | none => l
  | some b =>
    { l with
      chunk := none
      buffer := some ((match l.chunk with | none => b | some i => b.returnChunk i).getChunk l.tid).1 }

theorem getChunk_null (b : Buffer Event) (tid : Nat) :
    (b.getChunk tid).2 = .null ↔ b.mode ≠ .ring ∧ b.size ≤ b.counter := by
  have hfix : (b.getChunkFixed tid).2 = .null ↔ b.size ≤ b.counter := by
    unfold Buffer.getChunkFixed
    simp only
    split
    · next h => simp only [Buffer.size] at h ⊢; simp [h]
    · next h => simp only [Buffer.size] at h ⊢; simp; omega
  have hring : (b.getChunkRing tid).2 ≠ .null := by
    unfold Buffer.getChunkRing
    split
    · simp
    · split <;> simp
  unfold Buffer.getChunk
  cases hm : b.mode with
  | ring => simpa using hring
  | fixed => simpa using hfix
  | custom => simpa using hfix
  | invalid n => simpa using hfix

theorem pushAt_throw (b : Buffer Event) (i : Nat) (e : Event) (y : Exn)
    (h : ∀ c, b.chunks[i]? = some (some c) → c.isFull = false) : (b.pushAt i e).2 ≠ .throw y := by
  unfold Buffer.pushAt
  split
  · next c hc =>
    have hf := h c hc
    simp only [Chunk.push, Chunk.addEvent, hf, Bool.false_eq_true, if_false]
    unfold Chunk.assign
    split
    · next h => split at h <;> simp at h ⊢
    · next h => split at h <;> simp at h
    · simp
  · simp

theorem resetAt_room (b : Buffer Event) (i tid : Nat) (c : Chunk Event)
    (h : (b.resetAt i tid).chunks[i]? = some (some c)) : c.isFull = false := by
  unfold Buffer.resetAt at h
  simp only [List.getElem?_set_self'] at h
  cases hb : b.chunks[i]? with
  | none => simp [hb] at h
  | some m =>
    simp [hb] at h
    subst h
    rfl

theorem getChunk_room (b b' : Buffer Event) (i tid : Nat) (h : b.getChunk tid = (b', .chunk i))
    (c : Chunk Event) (hc : b'.chunks[i]? = some (some c)) : c.isFull = false := by
  have hfix : b.getChunkFixed tid = (b', .chunk i) → c.isFull = false := by
    intro h
    unfold Buffer.getChunkFixed at h
    simp only at h
    split at h
    · simp at h
    · simp only [Prod.mk.injEq, GetChunk.chunk.injEq] at h
      obtain ⟨rfl, rfl⟩ := h
      exact resetAt_room _ _ tid c hc
  have hring : b.getChunkRing tid = (b', .chunk i) → c.isFull = false := by
    intro h
    unfold Buffer.getChunkRing Buffer.ringClaim at h
    simp only at h
    split at h
    · next hq =>
      split at hq
      · simp at hq
      · simp only [Prod.mk.injEq, Option.some.injEq] at hq
        obtain ⟨rfl, rfl⟩ := hq
        cases h
        exact resetAt_room _ _ tid c hc
    · unfold Buffer.ringTake at h
      split at h
      · next hq =>
        split at hq
        · cases hq
        · cases hq
          cases h
          exact resetAt_room _ _ tid c hc
      · simp at h
  unfold Buffer.getChunk at h
  split at h
  · exact hring h
  · exact hfix h

/-- A stored event raises nothing: the chunk has room. -/
theorem store_raises (l : Log) (e : Event) (x : X)
    (h : ∀ i b, l.chunk = some i → l.buffer = some b → ∀ c, b.chunks[i]? = some (some c) →
      c.isFull = false) : (l.store e).2 ≠ .raise x := by
  unfold Log.store
  split
  · next i b hi hb =>
    have := fun y => pushAt_throw b i e y (h i b hi hb)
    generalize b.pushAt i e = q at this
    obtain ⟨b', r⟩ := q
    cases r with
    | ok u => simp
    | throw y => exact absurd rfl (this y)
    | ub => simp
  · simp

theorem maybeStop_raises (env : Env) (fuel : Nat) (l : Log) (h : l.locked = false)
    (he : l.enabled = true) (x : X) :
    (l.maybeStop env fuel l.generation).2 = .raise x ↔
      ∃ cb, callbackDue l.config false = some cb ∧
        (l.held.stopping.runCallback env fuel cb).2 = .raise x := by
  rw [Log.maybeStop, guarded_eq l _ h]
  have hg : ¬ l.held.generation ≠ l.generation := by simp [Log.held]
  simp only [if_neg hg]
  rw [stopLh_on env fuel l.held false he]
  have hc : l.held.config = l.config := rfl
  rw [hc]
  cases hd : callbackDue l.config false with
  | none => simp
  | some cb =>
    simp only
    constructor
    · intro e; exact ⟨cb, rfl, e⟩
    · rintro ⟨cb', e1, e2⟩; cases e1; exact e2

/-- Asking for another chunk: refused exactly when exhausted. -/
theorem replaceChunk_cases (l : Log) (he : l.enabled = true)
    (hn : l.needsChunk = .ok true) :
    (l.Exhausted ∧ l.replaceChunk = (l.afterAsking, .no)) ∨
    (¬ l.Exhausted ∧ ∃ l1 g, l.replaceChunk = (l1, g) ∧
      ((∃ r, g = .fails r ∧ ∀ x, r ≠ .raise x) ∨
       (g = .yes ∧ ∀ i b, l1.chunk = some i → l1.buffer = some b → ∀ c,
          b.chunks[i]? = some (some c) → c.isFull = false))) := by
  -- what becomes of a request to a buffer `b`
  have ask : ∀ (l0 : Log) (b : Buffer Event), l0.enabled = true → l0.chunk = none →
      l0.buffer = some b →
      (((b.mode ≠ .ring ∧ b.size ≤ b.counter) ∧
        l0.replaceChunk = ({ l0 with buffer := some (b.getChunk l0.tid).1 }, .no)) ∨
      (¬ (b.mode ≠ .ring ∧ b.size ≤ b.counter) ∧ ∃ l1 g, l0.replaceChunk = (l1, g) ∧
        ((∃ r, g = .fails r ∧ ∀ x, r ≠ .raise x) ∨
         (g = .yes ∧ ∀ i b, l1.chunk = some i → l1.buffer = some b → ∀ c,
          b.chunks[i]? = some (some c) → c.isFull = false)))) := by
    intro l0 b h1 h2 h3
    have hnull := getChunk_null b l0.tid
    have hroom := fun b' i => getChunk_room b b' i l0.tid
    unfold Log.replaceChunk
    simp only [h2, h1, if_true, h3]
    generalize b.getChunk l0.tid = q at hnull hroom
    obtain ⟨b', g⟩ := q
    cases g with
    | chunk i =>
      right
      refine ⟨fun hx => by simpa using hnull.2 hx, _, _, rfl, Or.inr ⟨rfl, ?_⟩⟩
      intro j b'' e1 e2 c hc
      cases e1; cases e2
      exact hroom b' i rfl c hc
    | null => left; exact ⟨hnull.1 rfl, rfl⟩
    | spins =>
      right
      exact ⟨fun hx => by simpa using hnull.2 hx, _, _, rfl, Or.inl ⟨_, rfl, by simp⟩⟩
  cases hc : l.chunk with
  | none =>
    cases hb : l.buffer with
    | none =>
      left
      refine ⟨Or.inl ⟨hc, hb⟩, ?_⟩
      unfold Log.replaceChunk Log.afterAsking
      simp only [hc, he, if_true, hb]
    | some b =>
      rcases ask l b he hc hb with ⟨hx, hq⟩ | ⟨hx, hq⟩
      · left
        refine ⟨Or.inr ⟨b, hb, hx.1, hx.2, Or.inl hc⟩, ?_⟩
        rw [hq]
        unfold Log.afterAsking
        cases l
        simp only at hc hb
        subst hc hb
        rfl
      · right
        refine ⟨?_, hq⟩
        rintro (⟨-, h2⟩ | ⟨b', h1, h2, h3, -⟩)
        · rw [hb] at h2; cases h2
        · rw [hb] at h1; cases h1; exact hx ⟨h2, h3⟩
  | some i =>
    cases hb : l.buffer with
    | none => simp [Log.needsChunk, hc, hb] at hn
    | some b =>
      have hfull : ∃ c, b.chunkAt i = .ok c ∧ c.isFull = true := by
        simp only [Log.needsChunk, hc, hb] at hn
        cases hca : b.chunkAt i with
        | ok c => simp [hca] at hn; exact ⟨c, rfl, hn⟩
        | throw e => simp [hca] at hn
        | ub => simp [hca] at hn
      obtain ⟨c, hf1, hf2⟩ := hfull
      have hret : (b.returnChunk i).mode = b.mode ∧ (b.returnChunk i).size = b.size ∧
          (b.returnChunk i).counter = b.counter := by
        unfold Buffer.returnChunk
        split <;> exact ⟨rfl, rfl, rfl⟩
      have hrep : l.replaceChunk =
          ({ l with buffer := some (b.returnChunk i), chunk := none } : Log).replaceChunk := by
        unfold Log.replaceChunk
        simp only [hc, hb]
      rw [hrep]
      rcases ask { l with buffer := some (b.returnChunk i), chunk := none } (b.returnChunk i) he rfl
        rfl with ⟨hx, hq⟩ | ⟨hx, hq⟩
      · left
        rw [hret.1, hret.2.1, hret.2.2] at hx
        refine ⟨Or.inr ⟨b, hb, hx.1, hx.2, Or.inr ⟨i, c, hc, hf1, hf2⟩⟩, ?_⟩
        rw [hq]
        unfold Log.afterAsking
        simp only [hb, hc]
      · right
        rw [hret.1, hret.2.1, hret.2.2] at hx
        refine ⟨?_, hq⟩
        rintro (⟨h1, -⟩ | ⟨b', h1, h2, h3, -⟩)
        · rw [hc] at h1; cases h1
        · rw [hb] at h1; cases h1; exact hx ⟨h2, h3⟩

/-- C78, what a trace point can do to the traced code, exactly: `logEvent` raises `x` if and only if
tracing is on, the thread is registered and out of chunks, and the stopped callback, which
`logEvent` then calls, raises `x`. -/
theorem C78_log_partial (env : Env) (fuel : Nat) (l : Log) (e : Event) (h : Settled l) (x : X) :
    (l.logEvent env fuel e).2 = .raise x ↔
      l.enabled = true ∧ l.initialised = true ∧ l.Exhausted ∧
      ∃ cb, callbackDue l.config false = some cb ∧
        (l.afterAsking.held.stopping.runCallback env fuel cb).2 = .raise x := by
  unfold Log.logEvent
  cases he : l.enabled with
  | false => simp
  | true =>
    cases hr : l.initialised with
    | false => simp
    | true =>
      simp only [if_true, true_and]
      have hex : l.Exhausted → l.needsChunk = .ok true := by
        rintro (⟨h1, -⟩ | ⟨b, h1, -, -, h2 | ⟨i, c, h2, h3, h4⟩⟩)
        · simp [Log.needsChunk, h1]
        · simp [Log.needsChunk, h2]
        · simp [Log.needsChunk, h1, h2, h3, h4]
      cases hn : l.needsChunk with
      | ok need =>
        cases need with
        | false =>
          simp only
          constructor
          · intro hx
            refine absurd hx (store_raises l e x ?_)
            intro i b h1 h2 c h3
            simp only [Log.needsChunk, h1, h2, Buffer.chunkAt, h3] at hn
            simpa using hn
          · rintro ⟨h1, -⟩
            rw [hex h1] at hn
            cases hn
        | true =>
          rcases replaceChunk_cases l he hn with ⟨h1, h2⟩ | ⟨h1, l1, g, h2, h3⟩
          · rw [h2]
            simp only
            have ha : l.afterAsking.locked = false ∧ l.afterAsking.enabled = true ∧
                l.afterAsking.config = l.config := by
              unfold Log.afterAsking
              split <;> exact ⟨h.unlocked, he, rfl⟩
            rw [maybeStop_raises env fuel _ ha.1 ha.2.1, ha.2.2]
            exact ⟨fun hx => ⟨h1, hx⟩, fun hx => hx.2⟩
          · rw [h2]
            refine ⟨fun hx => ?_, fun hx => absurd hx.1 h1⟩
            rcases h3 with ⟨r, rfl, hq⟩ | ⟨rfl, hq⟩
            · exact absurd hx (hq x)
            · exact absurd hx (store_raises l1 e x hq)
      | throw y =>
        exfalso
        unfold Log.needsChunk at hn
        split at hn
        · cases hn
        · split at hn
          · cases hn
          · split at hn
            · cases hn
            · next hq => unfold Buffer.chunkAt at hq; split at hq <;> cases hq
            · cases hn
      | ub =>
        simp only
        constructor
        · intro hx; cases hx
        · rintro ⟨h1, -⟩
          rw [hex h1] at hn
          cases hn

theorem runCallback_terminate (env : Env) (fuel : Nat) (l : Log) (cb : Callback)
    (h : l.enabled = false) : (l.runCallback env fuel cb).2 ≠ .terminate := by
  cases cb with
  | user n =>
    have := doOps_spec l (env.callback n).1 h
    simp only [Log.runCallback]
    generalize l.doOps (env.callback n).1 = r at this
    obtain ⟨l', r⟩ := r
    obtain ⟨-, h2⟩ := this
    simp only at h2
    subst h2
    simp only
    split <;> simp
  | file p =>
    simp only [Log.runCallback]
    split
    · simp only [saveOutcome]
      split <;> simp
    · simp

theorem stopLh_terminate (env : Env) (fuel : Nat) (l : Log) (sd : Bool) :
    (l.stopLh env fuel sd).2 ≠ .terminate := by
  cases h : l.enabled with
  | false => rw [stopLh_off env fuel l sd h]; simp
  | true =>
    rw [stopLh_on env fuel l sd h]
    split
    · simp
    · exact runCallback_terminate env fuel _ _ rfl

theorem store_terminate (l : Log) (e : Event) : (l.store e).2 ≠ .terminate := by
  unfold Log.store
  split
  · split <;> simp
  · simp

theorem maybeStop_terminate (env : Env) (fuel : Nat) (l : Log) (g : Nat) (h : l.locked = false) :
    (l.maybeStop env fuel g).2 ≠ .terminate := by
  rw [Log.maybeStop, guarded_eq l _ h]
  simp only
  split
  · simp
  · exact stopLh_terminate env fuel _ false

theorem replaceChunk_terminate (l l1 : Log) (r : Ret) (h : l.replaceChunk = (l1, .fails r)) :
    r ≠ .terminate := by
  unfold Log.replaceChunk at h
  simp only at h
  repeat' split at h
  all_goals first
    | (simp only [Prod.mk.injEq, Got.fails.injEq] at h; rw [← h.2]; simp)
    | simp at h

theorem logEvent_terminate (env : Env) (fuel : Nat) (l : Log) (e : Event) (h : Settled l) :
    (l.logEvent env fuel e).2 ≠ .terminate := by
  unfold Log.logEvent
  split
  · next he =>
    split
    · next hr =>
      split
      · exact store_terminate l e
      · have hs := replaceChunk_settled l h he hr
        have ht := replaceChunk_terminate l
        generalize l.replaceChunk = r at hs ht
        obtain ⟨l', g⟩ := r
        cases g with
        | yes => exact store_terminate l' e
        | no => exact maybeStop_terminate env fuel l' _ hs.unlocked
        | fails r => exact ht l' r rfl
      · simp
      · simp
    · simp
  · simp

theorem noexcept_terminate (q : Log × Ret) (h : q.2 ≠ .terminate) :
    (noexcept q).2 = .terminate ↔ ∃ x, q.2 = .raise x := by
  obtain ⟨l, r⟩ := q
  cases r with
  | terminate => exact absurd rfl h
  | raise x => simp [noexcept]
  | ret => simp [noexcept]
  | ub => simp [noexcept]
  | hang => simp [noexcept]

/-- C78: a scoped trace event ends the program (`std::terminate`) exactly when its `logEvent` raises
an exception, because the guard logs in its destructor. -/
theorem C78_scope_partial (env : Env) (fuel : Nat) (l : Log) (e : Event) (h : Settled l) :
    (l.leaveScope env fuel e).2 = .terminate ↔
      l.enabled = true ∧ l.initialised = true ∧ l.Exhausted ∧
      ∃ cb x, callbackDue l.config false = some cb ∧
        (l.afterAsking.held.stopping.runCallback env fuel cb).2 = .raise x := by
  rw [Log.leaveScope, noexcept_terminate _ (logEvent_terminate env fuel l e h)]
  constructor
  · rintro ⟨x, hx⟩
    obtain ⟨h1, h2, h3, cb, h4, h5⟩ := (C78_log_partial env fuel l e h x).1 hx
    exact ⟨h1, h2, h3, cb, x, h4, h5⟩
  · rintro ⟨h1, h2, h3, cb, x, h4, h5⟩
    exact ⟨x, (C78_log_partial env fuel l e h x).2 ⟨h1, h2, h3, cb, h4, h5⟩⟩

/-- C78: destroying the log ends the program exactly when tracing is on, the configuration asks for
the callback on destruction, and the callback raises. -/
theorem C78_destroy_partial (env : Env) (fuel : Nat) (l : Log) (h : Settled l) :
    (l.destroy env fuel).2 = .terminate ↔
      l.enabled = true ∧ ∃ cb x, l.config.callback = some cb ∧ l.config.stopTracing = true ∧
        (l.held.stopping.runCallback env fuel cb).2 = .raise x := by
  have ht : (l.stop env fuel true).2 ≠ .terminate := by
    rw [Log.stop, guarded_eq l _ h.unlocked]
    exact stopLh_terminate env fuel _ true
  rw [Log.destroy, noexcept_terminate _ ht]
  cases he : l.enabled with
  | false =>
    have : (l.stop env fuel true).2 = .ret := by
      rw [Log.stop, guarded_eq l _ h.unlocked, stopLh_off env fuel l.held true he]
    rw [this]
    simp
  | true =>
    have hs := C78_stop_partial env fuel l true h he _ _ rfl
    have hd : ∀ cb, callbackDue l.config true = some cb ↔
        l.config.callback = some cb ∧ l.config.stopTracing = true := by
      intro cb
      unfold callbackDue Cfg.Obj.getStoppedCallback Cfg.Obj.getStopTracingOnDestruct
      cases l.config.callback with
      | none => simp
      | some c => cases l.config.stopTracing <;> simp
    constructor
    · rintro ⟨x, hx⟩
      obtain ⟨cb, h1, h2⟩ := (hs.2.2.2.2.2.2 x).1 hx
      exact ⟨rfl, cb, x, ((hd cb).1 h1).1, ((hd cb).1 h1).2, h2⟩
    · rintro ⟨-, cb, x, h1, h2, h3⟩
      exact ⟨x, (hs.2.2.2.2.2.2 x).2 ⟨cb, (hd cb).2 ⟨h1, h2⟩, h3⟩⟩

/-! ### Witnesses -/

/-- A program that cannot write its trace: the directory does not exist. -/
def noDirectory : Env where
  pid := 42
  file := { canOpen := false, accepts := fun _ s => s.length, keeps := fun s => s.length }
  callback := fun _ => ([], none)
  memory := fun _ => true
  factory := fun _ g n => .buffer (.makeFixed g n)

/-- What `save-on-stop:/no/such/directory/f` and a buffer of one chunk make of a configuration. -/
def saving : Cfg.Obj :=
  match Cfg.Obj.fromString "buffer-size:4096;save-on-stop:/no/such/directory/f".toList with
  | .ok c => c
  | _ => Cfg.Obj.new

/-- C78 is refuted. A registered thread, tracing into one chunk, configured to save the trace when it
stops; the file cannot be written. The event that finds the buffer full raises `system_error` in the
traced code; as a scoped event it ends the program. -/
theorem C78_refuted :
    ((Log.new 7).calls ((noDirectory, 0, .register) :: (noDirectory, 0, .start saving) ::
        List.replicate chunkSize (noDirectory, 0, .log exampleEvent))).map (fun l =>
      ((l.logEvent noDirectory 0 exampleEvent).2, (l.leaveScope noDirectory 0 exampleEvent).2)) =
    some (.raise (.lib .systemError), .terminate) := by
  decide +kernel

/-- C78 is refuted also for the end of the program: with the same configuration, leaving `main`
while tracing is on destroys the log, which ends in `std::terminate`. -/
theorem C78_refuted_exit :
    ((Log.new 7).calls [(noDirectory, 0, .start saving)]).map (fun l =>
      (l.destroy noDirectory 0).2) = some .terminate := by
  decide +kernel

/-- The disk is full. -/
def noSpace : Env := { noDirectory with
  file := { canOpen := true, accepts := fun _ _ => 0, keeps := fun _ => 0 } }

/-- C78 is refuted for failures to write: `stop` raises `runtime_error`, and the trace is gone,
unlike in `C78_unopened_partial`. -/
theorem C78_refuted_lost :
    ((Log.new 7).calls [(noSpace, 0, .register), (noSpace, 0, .start saving),
        (noSpace, 0, .log exampleEvent)]).map (fun l =>
      ((l.stop noSpace 10 false).2, (l.stop noSpace 10 false).1.buffer.isSome, l.buffer.isSome)) =
    some (.raise (.lib .runtimeError), false, true) := by
  decide +kernel

/-- A user factory that returns null. -/
def nullFactory : Env := { noSpace with factory := fun _ _ _ => .null }

/-- C78: a user factory may return null; the first event then stops tracing, and the file saving
callback uses the null buffer. -/
theorem C78_refuted_null :
    ((Log.new 7).calls [(nullFactory, 0, .register),
        (nullFactory, 0, .start { saving with container := .ofFactory (.user 0) })]).map (fun l =>
      (l.enabled, (l.logEvent nullFactory 10 exampleEvent).2)) = some (true, .ub) := by
  decide +kernel

/-- No memory for the second run: `start` raises `bad_alloc`, tracing is off, the first run's buffer
is still there (`C78_start_partial`), and the log can be used again (`C78_usable_partial`). -/
example :
    let noMemory : Env := { noDirectory with memory := fun _ => false }
    let quiet : Cfg.Obj := { saving with callback := none }
    ((Log.new 7).calls [(noDirectory, 0, .register), (noDirectory, 0, .start quiet),
        (noDirectory, 0, .log exampleEvent)]).map (fun l =>
      let r := l.start noMemory 0 quiet
      (r.2, r.1.enabled, r.1.buffer.isSome, r.1.generation)) =
      some (.raise .badAlloc, false, true, 2) ∧
    ((Log.new 7).calls [(noDirectory, 0, .register), (noDirectory, 0, .start quiet),
        (noDirectory, 0, .log exampleEvent), (noMemory, 0, .start quiet),
        (noDirectory, 0, .start quiet)]).map (fun l =>
      ((l.logEvent noDirectory 0 exampleEvent).2, l.enabled)) = some (.ret, true) := by
  decide +kernel

/-- A user callback that takes the buffer and then raises. -/
example :
    let env : Env := { noDirectory with callback := fun _ => ([.getBuffer, .stop false], some (.user 3)) }
    let cfg : Cfg.Obj := { saving with callback := some (.user 0), stopTracing := false }
    ((Log.new 7).calls [(env, 0, .start cfg)]).map (fun l =>
      let r := l.stop env 0 false
      (r.2, r.1.enabled, r.1.buffer.isSome, (l.destroy env 0).2)) =
      some (.raise (.user 3), false, false, .ret) := by
  decide +kernel

end Phosphor.Exc
