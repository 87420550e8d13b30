import Verif.Proof.CustomBufferSteps
/-
C92: which calls a buffer made by the user receives from the log.
-/
namespace Phosphor.Custom
open TLog
variable {ε : Type} {tid : Nat → Nat} {s : CSt ε}

/-- C92: whatever the threads do and whatever the buffers answer, every call a buffer receives is
one the protocol of Spec/CustomBuffer allows. -/
theorem C92_protocol (h : Reachable tid s) : Legal s.calls := h.inv.legal

/-- C92: and no step is undefined: no null or dangling buffer or chunk is used, no chunk is given to
a buffer it does not come from, no full chunk is written. -/
theorem C92_defined (h : Reachable tid s) (t : Nat) (a : Act ε) : s.next tid t a ≠ .ub := by
  have hi := h.inv
  have hlift : ∀ o : Out (St ε), o ≠ .ub → s.lift o ≠ .ub := by
    intro o ho; cases o <;> simp_all [CSt.lift]
  intro hs
  unfold CSt.next at hs
  split at hs
  · unfold CSt.result at hs
    split at hs
    · split at hs
      · cases hs
      · split at hs <;> cases hs
    · cases hs
  · unfold CSt.stats at hs
    split at hs
    · split at hs
      · rename_i p hb
        rw [mapped_buffer hi.ctl hb] at hs
        simp only [if_true] at hs
        split at hs <;> cases hs
      · cases hs
    · cases hs
  · rename_i c
    split at hs
    · rename_i p hin
      split at hs
      · unfold CSt.leave at hs
        split at hs
        · rename_i hp
          split at hs
          · cases hs
          · rename_i hc; exact hi.retChunk t p hin (by simp [hp, returning]) hc
        · rename_i hp
          split at hs
          · cases hs
          · rename_i hc; exact hi.retChunk t p hin (by simp [hp, returning]) hc
        · cases hs
        · cases hs
      · cases hs
    · split at hs
      · exact hi.stepDefined hs
      · exact hi.stepDefined hs
      · unfold CSt.start at hs
        split at hs
        · split at hs
          · cases hs
          · dsimp only at hs
            split at hs
            · cases hs
            · split at hs <;> cases hs
        · cases hs
      · split at hs
        · cases hs
        · rename_i hx
          simp only [St.next] at hx
          split at hx <;> cases hx
        · cases hs
      · unfold CSt.moveOut at hs
        split at hs
        · cases hs
        · rename_i hx
          simp only [St.next] at hx
          split at hx
          · split at hx <;> cases hx
          · cases hx
        · cases hs
      · unfold CSt.moveOut at hs
        split at hs
        · cases hs
        · rename_i hx
          simp only [St.next] at hx
          split at hx
          · split at hx <;> cases hx
          · cases hx
        · cases hs
      · refine hlift _ ?_ hs
        intro hx
        cases c <;> simp only [St.next] at hx <;> simp_all <;>
          (split at hx <;> first | cases hx | (split at hx <;> cases hx))

/-- A configuration with a user's factory. -/
def cfgC : TraceConfig := TraceConfig.makeCustom 0 sizeofTraceChunk

/-- `n` steps of thread `t`. -/
def go (t n : Nat) : List (Nat × Act ε) := List.replicate n (t, .act .step)

/-- Thread 0 starts tracing, threads 1 and 2 register and each logs an event up to the middle of
`getChunk`. -/
def bothIn : List (Nat × Act Nat) :=
  [(0, .act .lock), (0, .act (.start cfgC))] ++ go 0 2 ++ [(0, .act .ret)] ++ go 0 1
    ++ [(1, .act (.register []))] ++ go 1 2 ++ [(2, .act (.register []))] ++ go 2 2
    ++ [(1, .act (.log 7))] ++ go 1 9 ++ [(2, .act (.log 8))] ++ go 2 9

/-- They get their chunks and store, then thread 0 looks at the statistics, stops tracing and takes
the buffer out, and thread 1 deregisters. -/
def toEnd : List (Nat × Act Nat) :=
  [(2, .result (some 0))] ++ go 2 2 ++ [(1, .result (some 1))] ++ go 1 2
    ++ [(0, .act .lock), (0, .stats)] ++ go 0 1 ++ [(0, .act (.stop false))] ++ go 0 7
    ++ [(0, .act .getBuffer), (0, .act .ret)] ++ go 0 1
    ++ [(1, .act .deregister)] ++ go 1 2 ++ [(0, .act (.free 0))]

/-- The calls of a run. -/
def callsOf (l : List (Nat × Act Nat)) : List Call :=
  match (CSt.init.run id l : Out (CSt Nat)) with
  | .to s => s.calls
  | _ => []

theorem run_reachable {s s' : CSt ε} (h : Reachable tid s) (l : List (Nat × Act ε))
    (hl : s.run tid l = .to s') : Reachable tid s' := by
  induction l generalizing s with
  | nil => cases hl; exact h
  | cons x l ih =>
    obtain ⟨t, a⟩ := x
    simp only [CSt.run] at hl
    split at hl
    · rename_i s1 h1; exact ih (h.step h1) hl
    · cases hl
    · cases hl

theorem calls_reachable {l : List (Nat × Act Nat)} {x : Call} {h : List Call}
    (hc : callsOf l = x :: h) : ∃ s : CSt Nat, Reachable id s ∧ s.calls = x :: h := by
  unfold callsOf at hc
  split at hc
  · rename_i s hs; exact ⟨s, run_reachable .init l hs, hc⟩
  · cases hc

/-- C92, refuted as documented: trace_buffer.h:145-147 says that a buffer need not be thread-safe,
as it is used under the lock of the log or after tracing. Two threads are inside `getChunk` of the
same buffer, and nobody holds the lock. -/
theorem C92_refuted_alone : ∃ s : CSt Nat, Reachable id s ∧
    busy s.calls 1 = some 0 ∧ busy s.calls 2 = some 0 ∧ s.log.owner = none := by
  have h : ∃ s : CSt Nat, (CSt.init.run id bothIn : Out (CSt Nat)) = .to s ∧
      s.calls = [.getBegin 2 0, .getBegin 1 0] ∧ s.log.owner = none := by
    refine ⟨_, rfl, ?_, ?_⟩ <;> rfl
  obtain ⟨s, h1, h2, h3⟩ := h
  exact ⟨s, run_reachable .init _ h1, by rw [h2]; rfl, by rw [h2]; rfl, h3⟩

/-- C92, a chunk lent need not come back: a buffer is handed out, and destroyed, while two of its
chunks are still on loan (`evictThreads` only clears the pointers). -/
theorem C92_refuted_returned : ∃ s : CSt Nat, Reachable id s ∧
    dead s.calls 0 ∧ holder s.calls 0 0 = some 2 ∧ holder s.calls 0 1 = some 1 ∧
    ∀ t c, .retBegin t 0 c ∉ s.calls := by
  have hc : callsOf (bothIn ++ toEnd) = [.destroyed 0, .handed 0, .statsEnd 0 0, .statsBegin 0 0,
      .add 1 0 1, .getEnd 1 0 (some 1), .add 2 0 0, .getEnd 2 0 (some 0),
      .getBegin 2 0, .getBegin 1 0] := by decide +kernel
  obtain ⟨s, h1, h2⟩ := calls_reachable hc
  refine ⟨s, h1, ?_, ?_, ?_, ?_⟩ <;> rw [h2]
  · simp [dead]
  · rfl
  · rfl
  · simp

/-- The protocol is not met by every history: a chunk given back twice, to another buffer, after
the buffer is gone, or an event on a chunk of another thread. -/
example : ¬ Legal [.retBegin 1 0 3, .retEnd 1 0 3, .retBegin 1 0 3, .getEnd 1 0 (some 3),
    .getBegin 1 0] := by
  simp [Legal, Allowed, holder]
example : ¬ Legal [.retBegin 1 1 3, .getEnd 1 0 (some 3), .getBegin 1 0] := by
  simp [Legal, Allowed, holder]
example : ¬ Legal [.retBegin 1 0 3, .handed 0, .getEnd 1 0 (some 3), .getBegin 1 0] := by
  simp [Legal, Allowed, gone]
example : ¬ Legal [.add 2 0 3, .getEnd 1 0 (some 3), .getBegin 1 0] := by
  simp [Legal, Allowed, holder]
example : ¬ Legal [.destroyed 0, .getBegin 1 0] := by
  simp [Legal, Allowed, busy]

/-- Giving back a chunk: thread 1 deregisters while tracing is on. -/
example : callsOf (bothIn ++ [(1, .result (some 5))] ++ go 1 2 ++ [(1, .act .deregister)]
    ++ go 1 4) = [.retEnd 1 0 5, .retBegin 1 0 5, .add 1 0 5, .getEnd 1 0 (some 5),
      .getBegin 2 0, .getBegin 1 0] := by decide +kernel

/-- A buffer without chunks: the thread that finds it full stops tracing. -/
example : callsOf (bothIn ++ [(1, .result none), (2, .result none)]) =
    [.getEnd 2 0 none, .getEnd 1 0 none, .getBegin 2 0, .getBegin 1 0] := by decide +kernel

end Phosphor.Custom
