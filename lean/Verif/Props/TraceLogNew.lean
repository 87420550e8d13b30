import Verif.Model.TraceLogNew
import Verif.Props.Config
import Verif.Props.TraceLogFull
/-
Property C58: start-up tracing.
-/
namespace Phosphor.TLog
variable {ε : Type} {tid : Nat → Nat}

theorem fromString_mode {str : Str} {c : TraceConfig} (h : TraceConfig.fromString str = .ok c) :
    c.mode = .fixed ∨ c.mode = .ring := by
  have key : ∀ kvs, (TraceConfig.default.expected kvs).mode = .fixed ∨
      (TraceConfig.default.expected kvs).mode = .ring := by
    intro kvs
    simp only [TraceConfig.expected]
    split
    · exact Or.inl rfl
    · split
      · exact Or.inl rfl
      · exact Or.inr rfl
  unfold TraceConfig.fromString at h
  rcases C11_update TraceConfig.default str with ⟨kvs, _, e⟩ | ⟨_, _, _, kvs, _, _, _, e⟩
  · rw [e] at h; cases h; exact key kvs
  · rw [e] at h; cases h

/-- Thread 0 holds the log. -/
def St.held0 : St ε := { (St.init : St ε) with owner := some 0 }.goto 0 (.held .user [])

theorem run_two {c : TraceConfig} {s' : St ε} (h : St.held0.next true tid 0 (.start c) = .to s') :
    (St.init : St ε).run true tid [(0, .lock), (0, .start c)] = .to s' := by
  have h1 : (St.init : St ε).next true tid 0 .lock = .to St.held0 := rfl
  simp only [St.run, h1, h]

/-- C58: with the variable unset or empty the log is constructed and does not trace. -/
theorem C58_off {env : Option Str} (h : env = none ∨ ∃ v, env = some v ∧ cstr v = []) :
    St.construct (ε := ε) tid env = .ok St.init := by
  simp only [St.construct, (C58_startup_trace env).1 h]

/-- C58: a value that does not parse makes the constructor throw the parse error. -/
theorem C58_parse_error {v : Str} (hv : cstr v ≠ []) {e : Exn}
    (h : TraceConfig.fromString (cstr v) = .throw e) :
    St.construct (ε := ε) tid (some v) = .throw e := by
  simp only [St.construct, ((C58_startup_trace (some v)).2 v rfl hv).2 e h]

/-- C58: a value asking for less than a chunk makes the constructor throw `invalid_argument`. -/
theorem C58_size_error {v : Str} (hv : cstr v ≠ []) {c : TraceConfig}
    (h : TraceConfig.fromString (cstr v) = .ok c) (hz : c.size < sizeofTraceChunk) :
    St.construct (ε := ε) tid (some v) = .throw .invalidArgument := by
  simp only [St.construct, ((C58_startup_trace (some v)).2 v rfl hv).1 c h]
  have hm := fromString_mode h
  have h0 : c.size / sizeofTraceChunk = 0 := Nat.div_eq_of_lt hz
  have h1 : (St.held0 : St ε).next true tid 0 (.start c) =
      .to { (St.held0 : St ε) with config := c, hist := [.reject, .configure c] } := by
    show (if _ then _ else _) = _
    rw [if_pos hm]
    show (if _ then _ else _) = _
    rw [if_pos h0]; rfl
  rw [run_two h1]

/-- C58: any other value makes the log trace, from construction on, with the parsed
configuration and into a buffer of its size. -/
theorem C58_on {v : Str} (hv : cstr v ≠ []) {c : TraceConfig}
    (h : TraceConfig.fromString (cstr v) = .ok c) (hz : sizeofTraceChunk ≤ c.size) :
    ∃ s : St ε, St.construct tid (some v) = .ok s ∧ Reachable true tid s ∧ s.enabled = true ∧
      s.config = c ∧ s.owner = none ∧ s.hist = [.run 0 c, .configure c] ∧
      s.buffer = some 0 ∧ (s.heap 0).chunks.length = c.size / sizeofTraceChunk ∧
      (s.heap 0).mode = c.mode := by
  simp only [St.construct, ((C58_startup_trace (some v)).2 v rfl hv).1 c h]
  have hm := fromString_mode h
  have h0 : c.size / sizeofTraceChunk ≠ 0 := by
    have : 0 < sizeofTraceChunk := by decide
    have := Nat.div_pos hz this
    omega
  have h1 : (St.held0 : St ε).next true tid 0 (.start c) =
      .to ({ (St.held0 : St ε) with config := c, hist := [.configure c] }.goto 0
        (.held (.startCreate (c.size / sizeofTraceChunk)) [.resumeUser])) := by
    show (if _ then _ else _) = _
    rw [if_pos hm]
    show (if _ then _ else _) = _
    rw [if_neg h0]; rfl
  generalize c.size / sizeofTraceChunk = n at h1 ⊢
  have hr := run_reachable .init (run_two h1)
  rw [run_two h1]
  generalize e : ({ (St.held0 : St ε) with config := c, hist := [.configure c] }.goto 0
        (.held (.startCreate n) [.resumeUser])).run true tid
        [(0, .step), (0, .step), (0, .ret), (0, .step)] = o
  have e' : o = .to _ := e.symm.trans rfl
  subst e'
  refine ⟨_, rfl, run_reachable hr e, rfl, rfl, rfl, rfl, rfl, ?_, ?_⟩
  · rcases hm with hm | hm
    · show (makeBuffer c 0 n).chunks.length = n
      simp [makeBuffer, hm, Buffer.makeFixed]
    · show (makeBuffer c 0 n).chunks.length = n
      simp [makeBuffer, hm, Buffer.makeRing]
  · rcases hm with hm | hm
    · show (makeBuffer c 0 n).mode = c.mode
      simp [makeBuffer, hm, Buffer.makeFixed]
    · show (makeBuffer c 0 n).mode = c.mode
      simp [makeBuffer, hm, Buffer.makeRing]

example : ∃ s : St Nat, St.construct id (some "buffer-mode:ring;buffer-size:9000".toList) = .ok s ∧
    (s.heap 0).chunks.length = 2 ∧ (s.heap 0).mode = .ring :=
  ⟨_, rfl, rfl, rfl⟩
example : St.construct (ε := Nat) id (some "buffer-size:4007".toList) = .throw .invalidArgument := rfl
example : St.construct (ε := Nat) id (some "buffer-size".toList) = .throw .invalidArgument := rfl

end Phosphor.TLog
