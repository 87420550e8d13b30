import Verif.Proof.TraceLogSafe
import Verif.Proof.TraceLogMore
/-
Properties of TraceLog under any number of threads and any interleaving (C32, C33, C36-C46).

`Reachable false tid s`: `s` is reached by any interleaving of any calls by any threads, with
stopped callbacks that do anything, restarting included. `Reachable true tid s`: the same except
that a stopped callback run by `start` (while it restarts tracing) does not call `start` itself.
-/
namespace Phosphor.TLog
variable {ε : Type} {tid : Nat → Nat} {s s' : St ε} {t : Nat} {pol : Bool}

/-! ### Executions for the examples -/

theorem run_reachable {l : List (Nat × Choice ε)} (h : Reachable pol tid s) (hr : s.run pol tid l = .to s') :
    Reachable pol tid s' := by
  induction l generalizing s with
  | nil => cases hr; exact h
  | cons p l ih =>
    obtain ⟨t, c⟩ := p
    simp only [St.run] at hr
    split at hr
    · exact ih (h.step (by assumption)) hr
    · cases hr
    · cases hr

/-- The execution `l` is possible and ends in a state satisfying `p`. -/
def check (pol : Bool) (tid : Nat → Nat) (l : List (Nat × Choice Nat)) (p : St Nat → Bool) : Bool :=
  match (St.init : St Nat).run pol tid l with
  | .to s => p s
  | _ => false

theorem check_sound {l : List (Nat × Choice Nat)} {p : St Nat → Bool} (h : check pol tid l p = true) :
    ∃ s, Reachable pol tid s ∧ p s = true := by
  unfold check at h
  split at h
  · exact ⟨_, run_reachable .init (by assumption), h⟩
  · cases h

/-- `n` steps of thread `t`. -/
def steps (t n : Nat) : List (Nat × Choice Nat) := List.replicate n (t, .step)

/-- Thread 0 locks, runs the calls, and unlocks. -/
def locked (l : List (Nat × Choice Nat)) : List (Nat × Choice Nat) :=
  (0, .lock) :: l ++ (0, .ret) :: steps 0 1

/-- Thread `t` registers with name `n`. -/
def registers (t : Nat) (n : Str) : List (Nat × Choice Nat) := (t, .register n) :: steps t 2

def fixed1 : TraceConfig := { mode := .fixed, size := 4008, callback := some (.user 1) }
def fixed2 : TraceConfig := { mode := .fixed, size := 8100, callback := some (.user 2), stopTracing := true }
def ring1 : TraceConfig := { mode := .ring, size := 4008 }

/-- Start with a configuration, from a stopped log. -/
def starts (cfg : TraceConfig) : List (Nat × Choice Nat) := locked ((0, .start cfg) :: steps 0 2)

/-! ### C32 retrieval -/

/-- C32: `getBuffer` is refused with no other effect iff tracing is on; otherwise it hands over
the buffer of the last run unless that was retrieved before. Any callbacks. -/
theorem C32_getBuffer (h : Reachable pol tid s) {st : List Frame} (hp : s.pc t = .held .user st) :
    s.next pol tid t .getBuffer = .to (if on s.hist then { s with hist := .refuse :: s.hist } else
      { s with
        buffer := none
        status := fun b => if available s.hist = some b then .handed else s.status b
        hist := .retrieve (available s.hist) :: s.hist }) := by
  have hh := h.hist
  have hb := hh.buf
  rw [(hh.owns hp rfl).2.2] at hb
  have hb : s.buffer = available s.hist := hb
  simp only [St.next, hp, hh.en, St.retrieve, hb]
  split <;> rfl

/-- C32: `getTraceContext` likewise, with the thread names of this moment. -/
theorem C32_getTraceContext (h : Reachable pol tid s) {st : List Frame} (hp : s.pc t = .held .user st) :
    s.next pol tid t .getTraceContext = .to (if on s.hist then { s with hist := .refuse :: s.hist } else
      { s with
        buffer := none
        status := fun b => if available s.hist = some b then .handed else s.status b
        hist := .retrieve (available s.hist) :: s.hist
        contexts := (available s.hist, s.names) :: s.contexts }) := by
  have hh := h.hist
  have hb := hh.buf
  rw [(hh.owns hp rfl).2.2] at hb
  have hb : s.buffer = available s.hist := hb
  simp only [St.next, hp, hh.en, St.retrieve, hb]
  split <;> rfl

theorem handed_once {h : List Item} (hok : HistOk h) (hd : (runIds h).Pairwise (· > ·)) (b : Nat) :
    h.countP (Item.hands b) ≤ 1 ∧ (available h = some b → h.countP (Item.hands b) = 0 ∧ b ∈ runIds h) ∧
    (b ∉ runIds h → h.countP (Item.hands b) = 0) := by
  induction h with
  | nil => simp [available]
  | cons i h ih =>
    obtain ⟨hi, hok⟩ := hok
    have hd' : (runIds h).Pairwise (· > ·) := by
      cases i <;> simp_all [runIds]
    obtain ⟨h1, h2, h3⟩ := ih hok hd'
    cases i with
    | run c cfg =>
      simp only [runIds, List.pairwise_cons] at hd
      have hc : c ∉ runIds h := fun hm => Nat.lt_irrefl _ (hd.1 c hm)
      simp only [available, runIds, List.countP_cons, Item.hands]
      refine ⟨by simpa using h1, ?_, ?_⟩
      · intro e; cases e; exact ⟨by simpa using h3 hc, by simp⟩
      · intro hm; simpa using h3 (fun h => hm (by simp [h]))
    | retrieve r =>
      obtain ⟨_, _, rfl⟩ := hi
      simp only [available, runIds, List.countP_cons]
      refine ⟨?_, by simp, ?_⟩
      · cases ha : available h with
        | none => simpa [Item.hands] using h1
        | some c =>
          by_cases hcb : c = b
          · subst hcb; rw [(h2 ha).1]; split <;> simp
          · simp [Item.hands, hcb, h1]
      · intro hm
        cases ha : available h with
        | none => simpa [Item.hands] using h3 hm
        | some c =>
          have hcb : c ≠ b := by rintro rfl; exact hm (h2 ha).2
          simp [Item.hands, hcb, h3 hm]
    | _ => simp only [available, runIds, List.countP_cons, Item.hands]; exact ⟨by simpa using h1, by simpa using h2, by simpa using h3⟩

/-- C32: no buffer is ever handed over twice. Any callbacks. -/
theorem C32_once (h : Reachable pol tid s) (b : Nat) : s.hist.countP (Item.hands b) ≤ 1 :=
  (handed_once h.hist.ok h.runs.dec b).1

/-- A run stopped, retrieved (once with its buffer, then without), and a refused retrieval. -/
example : ∃ s : St Nat, Reachable false id s ∧ (s.hist == [.refuse, .run 1 fixed2, .configure fixed2,
    .retrieve none, .retrieve (some 0), .call (.user 1), .stop false none, .run 0 fixed1,
    .configure fixed1]) = true :=
  check_sound (l := starts fixed1 ++ (0, .lock) :: (0, .stop false) :: steps 0 1 ++ [(0, .ret), (0, .getBuffer),
    (0, .getTraceContext), (0, .start fixed2)] ++ steps 0 2 ++ [(0, .getBuffer)]) (by decide +kernel)

/-! ### C36 the stopped callback -/

theorem HistOk.at {pre post : List Item} {i : Item} (h : HistOk (pre ++ i :: post)) :
    ItemOk i post ∧ HistOk post := by
  induction pre with
  | nil => exact h
  | cons j pre ih => exact ih h.2

/-- C36: a stop only happens while tracing is on; it is followed at once by the decision about
the callback, before anything else happens to the log: the callback is called iff there is one
and this is not a destruction with stop-on-destruct off. Any callbacks. -/
theorem C36_stop (h : Reachable pol tid s) {pre post : List Item} {shutdown : Bool}
    {full : Option (Option Nat)} (hh : s.hist = pre ++ .stop shutdown full :: post) :
    on post = true ∧
    ((pre = [] ∧ ∃ t, (s.pc t).stopPhase = some shutdown) ∨
     (∃ later cb, pre = later ++ [.call cb] ∧ CallDue (configOf post) shutdown cb) ∨
     (∃ later, pre = later ++ [.noCall] ∧ ∀ cb, ¬ CallDue (configOf post) shutdown cb)) := by
  have hok := h.hist.ok
  have hst := h.hist.stop
  rw [hh] at hok hst
  refine ⟨hok.at.1.2, ?_⟩
  rcases List.eq_nil_or_concat pre with rfl | ⟨later, i, rfl⟩
  · left
    refine ⟨rfl, ?_⟩
    simp only [List.nil_append, stopping, St.phase] at hst
    split at hst
    · cases hst
    · exact ⟨_, hst.symm⟩
  · right
    rw [List.concat_eq_append, List.append_assoc] at hok
    have hi := (HistOk.at hok).1
    cases i with
    | call cb =>
      obtain ⟨sh, h1, h2⟩ := hi
      have h1 : some shutdown = some sh := h1
      cases h1
      exact Or.inl ⟨later, cb, by simp, h2⟩
    | noCall =>
      obtain ⟨sh, h1, h2⟩ := hi
      have h1 : some shutdown = some sh := h1
      cases h1
      exact Or.inr ⟨later, by simp, h2⟩
    | reject => exact absurd hi.1 (by simp [stopping])
    | configure c => exact absurd hi (by simp [ItemOk, stopping])
    | _ => exact absurd hi.1 (by simp [stopping])

/-- C36: the callback is only ever called right after a stop. Any callbacks. -/
theorem C36_call (h : Reachable pol tid s) {pre post : List Item} {cb : Callback}
    (hh : s.hist = pre ++ .call cb :: post) : ∃ sh full rest, post = .stop sh full :: rest := by
  have hok := h.hist.ok
  rw [hh] at hok
  obtain ⟨sh, h1, _⟩ := hok.at.1
  unfold stopping at h1
  split at h1
  · exact ⟨_, _, _, rfl⟩
  · cases h1

theorem on_plain {new h : List Item} (hp : ∀ i ∈ new, i.plain = true)
    (hns : ∀ sh full, Item.stop sh full ∉ new) : on (new ++ h) = on h := by
  induction new with
  | nil => rfl
  | cons i new ih =>
    have hi := hp i (by simp)
    have ih := ih (fun j hj => hp j (by simp [hj])) (fun a b hm => hns a b (by simp [hm]))
    cases i with
    | stop a b => exact absurd (by simp) (hns a b)
    | run a b => cases hi
    | _ => exact ih

/-- C36: a step that turns tracing off records a stop. Any callbacks. -/
theorem C36_off (h : Reachable pol tid s) {c : Choice ε} (hs : s.next pol tid t c = .to s')
    (h1 : s.enabled = true) (h2 : s'.enabled = false) :
    ∃ new sh full, s'.hist = new ++ s.hist ∧ .stop sh full ∈ new := by
  have e1 := h.hist.en
  have e2 := (h.step hs).hist.en
  rw [h1] at e1
  rw [h2] at e2
  cases next_book hs with
  | calm new hn ha hd hb hst hh hp _ _ hk =>
    refine Classical.byContradiction fun hno => ?_
    have := on_plain (h := s.hist) hp (fun sh full hm => hno ⟨new, sh, full, hh, hm⟩)
    rw [hh, this, ← e1] at e2
    cases e2
  | free b hb e => subst e; rw [h1] at h2; cases h2
  | retrieve cs st hp he e => rw [h1] at he; cases he
  | create n st hp e => subst e; rw [show ((s.createBuffer n).goto t _).enabled = s.enabled from rfl, h1] at h2; cases h2
  | enable st hp e =>
    subst e
    obtain ⟨q, _, e⟩ := pop_goto s.enable t st
    rw [e] at h2
    cases h2
  | reg n hp hi e =>
    subst e
    have : (s.registerBody tid t n).enabled = s.enabled := by
      unfold St.registerBody
      split
      · rfl
      · dsimp only; split <;> rfl
    rw [show ((s.registerBody tid t n).goto t .release).enabled = s.enabled from this, h1] at h2
    cases h2
  | dereg x hp hi hx e =>
    subst e
    obtain ⟨hp', rfl⟩ := deregisterBody_eq hi hx
    have h2 : s.enabled = false := h2
    rw [h1] at h2
    cases h2

/-- C36: stopping a stopped log does nothing. -/
theorem C36_idle {st : List Frame} (hp : s.pc t = .held .user st) (he : s.enabled = false) (sh : Bool) :
    s.next pol tid t (.stop sh) = .to s := by
  simp [St.next, hp, he]

/-- A stop with a callback, one on destruction without, and one on destruction with. -/
example : ∃ s : St Nat, Reachable false id s ∧ (s.hist == [.call (.user 2), .stop true none, .run 1 fixed2,
    .configure fixed2, .noCall, .stop true none, .run 0 fixed1, .configure fixed1]) = true :=
  check_sound (l := starts fixed1 ++ (0, .lock) :: (0, .stop true) :: steps 0 1 ++ [(0, .start fixed2)] ++
    steps 0 2 ++ [(0, .stop true)] ++ steps 0 1) (by decide +kernel)

/-! ### C37 restarting -/

theorem configOf_run {mid post : List Item} {b : Nat} {cfg : TraceConfig}
    (hok : HistOk (mid ++ .run b cfg :: post)) (hn : ∀ c, Item.configure c ∉ mid) :
    configOf (mid ++ .run b cfg :: post) = cfg := by
  induction mid with
  | nil => exact hok.1.2.symm
  | cons i mid ih =>
    have ih := ih hok.2 (fun c hm => hn c (by simp [hm]))
    cases i with
    | configure c => exact absurd (by simp) (hn c)
    | _ => exact ih

/-- C37, the part that holds: if no `start` was called since the run began, the callback of the
run's own configuration is the one called when it is stopped. Missing: a stop made by `start`
itself. Any callbacks. -/
theorem C37_stopped_partial (h : Reachable pol tid s) {pre mid post : List Item} {shutdown : Bool}
    {full : Option (Option Nat)} {b : Nat} {cfg : TraceConfig} {i : Item}
    (hh : s.hist = pre ++ i :: .stop shutdown full :: (mid ++ .run b cfg :: post))
    (hn : ∀ c, Item.configure c ∉ mid) :
    (∃ cb, i = .call cb ∧ CallDue cfg shutdown cb) ∨ (i = .noCall ∧ ∀ cb, ¬ CallDue cfg shutdown cb) := by
  have hok := h.hist.ok
  rw [hh] at hok
  have hc := configOf_run hok.at.2.2 hn
  have hh' : s.hist = (pre ++ [i]) ++ .stop shutdown full :: (mid ++ .run b cfg :: post) := by
    rw [hh]; simp
  obtain ⟨_, h1 | ⟨later, cb, h1, h2⟩ | ⟨later, h1, h2⟩⟩ := C36_stop h hh'
  · simp at h1
  · have := List.append_inj' h1 rfl
    simp only [List.cons.injEq, and_true] at this
    rw [hc] at h2
    exact Or.inl ⟨cb, this.2, h2⟩
  · have := List.append_inj' h1 rfl
    simp only [List.cons.injEq, and_true] at this
    rw [hc] at h2
    exact Or.inr ⟨this.2, h2⟩

/-- C37 is violated: a run whose configuration has callback 1 is ended by `start` with a
configuration with callback 2; callback 2 is called and callback 1 is not. -/
theorem C37_refuted : ∃ s : St Nat, Reachable true id s ∧ (s.hist == [.call (.user 2), .stop false none,
    .configure fixed2, .run 0 fixed1, .configure fixed1]) = true :=
  check_sound (l := starts fixed1 ++ (0, .lock) :: (0, .start fixed2) :: steps 0 1) (by decide +kernel)

/-! ### C38 rejected start -/

/-- C38, the part that holds: a rejected `start` changes nothing but the configuration. Missing:
the configuration. -/
theorem C38_rejected_partial {st : List Frame} (hp : s.pc t = .held .user st) {cfg : TraceConfig}
    (hm : cfg.mode = .fixed ∨ cfg.mode = .ring) (hz : cfg.size / sizeofTraceChunk = 0) :
    s.next false tid t (.start cfg) =
      .to { s with config := cfg, hist := .reject :: .configure cfg :: s.hist } := by
  simp [St.next, hp, hm, hz]

/-- C38 is violated: after a rejected `start` the reported configuration is the rejected one,
and when the run is then stopped the callback of the run is not called. -/
theorem C38_refuted : ∃ s : St Nat, Reachable true id s ∧ (s.enabled == false &&
    s.hist == [.noCall, .stop false none, .reject, .configure { mode := .fixed, size := 10 },
      .run 0 fixed1, .configure fixed1]) = true :=
  check_sound (l := starts fixed1 ++ (0, .lock) :: (0, .start { mode := .fixed, size := 10 }) ::
    (0, .stop false) :: steps 0 1) (by decide +kernel)

/-! ### C39 generations -/

/-- C39: the buffers ever created are numbered 0, 1, 2, … in order of creation and carry their
number as generation. Any callbacks. -/
theorem C39_generation (h : Reachable pol tid s) {b : Nat} (hb : b < s.nextBuf) :
    (s.heap b).generation = b := h.data.gens b hb

/-- C39: a new buffer has a larger generation than every buffer created before. -/
theorem C39_new (h : Reachable pol tid s) {n : Nat} {st : List Frame} (hp : s.pc t = .held (.startCreate n) st) :
    ∃ s' c, s.next pol tid t .step = .to s' ∧ s'.buffer = some c ∧
      ∀ b, b < s.nextBuf → (s'.heap b).generation < (s'.heap c).generation := by
  have hs : s.next pol tid t .step = .to ((s.createBuffer n).goto t (.held .startEnable st)) := by
    simp [St.next, St.logStep, St.heldStep, hp]
  have h' := h.step hs
  refine ⟨_, s.nextBuf, hs, rfl, fun b hb => ?_⟩
  rw [C39_generation h' (b := b) (Nat.lt_succ_of_lt hb), C39_generation h' (b := s.nextBuf) (Nat.lt_succ_self _)]
  exact hb

/-- C39: the runs of a history have strictly increasing buffers. -/
theorem C39_runs (h : Reachable pol tid s) : (runIds s.hist).Pairwise (· > ·) := h.runs.dec

example : ∃ s : St Nat, Reachable true id s ∧
    ((s.heap 0).generation == 0 && (s.heap 1).generation == 1 && s.nextBuf == 2 && s.enabled) = true :=
  check_sound (l := starts fixed1 ++ (0, .lock) :: (0, .start fixed2) :: steps 0 1 ++ (0, .ret) :: steps 0 2)
    (by decide +kernel)

/-! ### C40 names of the threads of the trace -/

/-- Thread `t` has been registered under name `n` at some point since the last run began:
`mid` is what happened since, `post` what happened before. -/
def NamedDuring (t : Nat) (n : Str) (mid post : List Item) : Prop :=
  n ≠ [] ∧ (.regOk t n ∈ mid ∨
    ∃ a b, post = a ++ .regOk t n :: b ∧ ∀ m, Item.regOk t m ∉ a ∧ Item.deregOk t ∉ a)

/-- Thread `t` did not deregister after the run was stopped. -/
def StaysAfterStop (t : Nat) : List Item → Prop
  | [] => True
  | .deregOk u :: h => (u = t → on h = true) ∧ StaysAfterStop t h
  | .run _ _ :: _ => True
  | _ :: h => StaysAfterStop t h

theorem record_stay {n : Str} {a b : List Item} (hn : n ≠ [])
    (ha : ∀ m, Item.regOk t m ∉ a ∧ Item.deregOk t ∉ a) : record t (a ++ .regOk t n :: b) = (some n, false) := by
  induction a with
  | nil => simp [record, hn]
  | cons i a ih =>
    have ih := ih (fun m => ⟨fun h => (ha m).1 (by simp [h]), fun h => (ha m).2 (by simp [h])⟩)
    cases i with
    | regOk u m =>
      have : u ≠ t := by rintro rfl; exact (ha m).1 (by simp)
      simp [record, this, ih]
    | deregOk u =>
      have : u ≠ t := by rintro rfl; exact (ha []).2 (by simp)
      simp [record, this, ih]
    | run c cfg => simp [record, ih]
    | _ => exact ih

theorem record_during {n : Str} {mid post : List Item} {b : Nat} {cfg : TraceConfig}
    (hr : ∀ c d, Item.run c d ∉ mid) (hs : StaysAfterStop t (mid ++ .run b cfg :: post))
    (hn : NamedDuring t n mid post) : ∃ m, m ≠ [] ∧ (record t (mid ++ .run b cfg :: post)).1 = some m := by
  induction mid with
  | nil =>
    obtain ⟨hn, h1 | ⟨a, c, rfl, ha⟩⟩ := hn
    · simp at h1
    · exact ⟨n, hn, by simp [record, record_stay hn ha]⟩
  | cons i mid ih =>
    have hr' : ∀ c d, Item.run c d ∉ mid := fun c d hm => hr c d (by simp [hm])
    obtain ⟨hne, h1⟩ := hn
    cases i with
    | run c d => exact absurd (by simp) (hr c d)
    | regOk u m =>
      by_cases hu : u = t ∧ m ≠ []
      · exact ⟨m, hu.2, by simp [record, hu]⟩
      · have hs' : StaysAfterStop t (mid ++ .run b cfg :: post) := hs
        obtain ⟨m', hm', e⟩ := ih hr' hs' ⟨hne, by
          rcases h1 with h1 | h1
          · rcases List.mem_cons.1 h1 with e | h1
            · cases e; exact absurd ⟨rfl, hne⟩ hu
            · exact Or.inl h1
          · exact Or.inr h1⟩
        exact ⟨m', hm', by simp only [List.cons_append, record, if_neg hu]; exact e⟩
    | deregOk u =>
      obtain ⟨hon, hs'⟩ : (u = t → on (mid ++ .run b cfg :: post) = true) ∧
        StaysAfterStop t (mid ++ .run b cfg :: post) := hs
      obtain ⟨m', hm', e⟩ := ih hr' hs' ⟨hne, by
          rcases h1 with h1 | h1
          · rcases List.mem_cons.1 h1 with e | h1
            · cases e
            · exact Or.inl h1
          · exact Or.inr h1⟩
      refine ⟨m', hm', ?_⟩
      simp only [List.cons_append, record]
      by_cases hu : u = t
      · rw [if_pos hu, if_pos (hon hu)]; exact e
      · rw [if_neg hu]; exact e
    | _ =>
      obtain ⟨m', hm', e⟩ := ih hr' hs ⟨hne, by
          rcases h1 with h1 | h1
          · rcases List.mem_cons.1 h1 with e | h1
            · cases e
            · exact Or.inl h1
          · exact Or.inr h1⟩
      exact ⟨m', hm', e⟩

/-- C40, the part that holds: when thread ids are not reused, the names cover every thread that
was registered with a name at some point since the run began, except those that deregister
after the stop. Missing: those, and reused ids. Any callbacks. -/
theorem C40_names_partial (hinj : ∀ u v, tid u = tid v → u = v) (h : Reachable pol tid s)
    {mid post : List Item} {b : Nat} {cfg : TraceConfig} (hh : s.hist = mid ++ .run b cfg :: post)
    (hr : ∀ c d, Item.run c d ∉ mid) {t : Nat} {n : Str} (hn : NamedDuring t n mid post)
    (hs : StaysAfterStop t s.hist) : ∃ m, m ≠ [] ∧ s.names (tid t) = some m := by
  rw [hh] at hs
  obtain ⟨m, hm, e⟩ := record_during hr hs hn
  exact ⟨m, hm, by rw [(h.names hinj).name t, hh, e]⟩

/-- C40, the part that holds, precisely: when thread ids are not reused the names are exactly
what the history of registrations says. -/
theorem C40_exact (hinj : ∀ u v, tid u = tid v → u = v) (h : Reachable pol tid s) (t : Nat) :
    s.names (tid t) = (record t s.hist).1 := (h.names hinj).name t

/-- C40 is violated: thread 1 is registered as "a" throughout the run and deregisters after the
stop but before the trace is retrieved; the context has no name for it. -/
theorem C40_refuted : ∃ s : St Nat, Reachable true id s ∧ (s.hist == [.retrieve (some 0), .deregOk 1,
    .call (.user 1), .stop false none, .run 0 fixed1, .configure fixed1, .regOk 1 ['a']] &&
    (s.contexts.head?.bind (fun c => c.2 1)) == none && (s.contexts.head?.map (·.1)) == some (some 0)) = true :=
  check_sound (l := registers 1 ['a'] ++ starts fixed1 ++ (0, .lock) :: (0, .stop false) :: steps 0 2 ++
    [(0, .step), (0, .step), (0, .ret), (0, .ret)] ++ steps 0 1 ++ (1, .deregister) :: steps 1 2 ++
    [(0, .lock), (0, .getTraceContext)]) (by decide +kernel)

/-- C40 is violated when a thread id is reused: thread 1 departs during the run and thread 2
gets its id; the name of thread 1 is gone though its events may be in the trace. -/
theorem C40_refuted_reuse : ∃ s : St Nat, Reachable true (fun _ => 7) s ∧
    (s.enabled && s.names 7 == some ['b'] && s.hist == [.regOk 2 ['b'], .deregOk 1, .run 0 fixed1,
      .configure fixed1, .regOk 1 ['a']]) = true :=
  check_sound (l := registers 1 ['a'] ++ starts fixed1 ++ (1, .deregister) :: steps 1 2 ++ registers 2 ['b'])
    (by decide +kernel)

/-- Thread 1 departs during the run, thread 2 stays: both are named in the context. -/
example : ∃ s : St Nat, Reachable true id s ∧ (s.hist == [.retrieve (some 0), .call (.user 1),
    .stop false none, .deregOk 1, .regOk 2 ['b'], .run 0 fixed1, .configure fixed1, .regOk 1 ['a']] &&
    (s.contexts.head?.bind (fun c => c.2 1)) == some ['a'] &&
    (s.contexts.head?.bind (fun c => c.2 2)) == some ['b']) = true :=
  check_sound (l := registers 1 ['a'] ++ starts fixed1 ++ registers 2 ['b'] ++ (1, .deregister) :: steps 1 2 ++
    (0, .lock) :: (0, .stop false) :: steps 0 4 ++ [(0, .getTraceContext)]) (by decide +kernel)

/-! ### C41 departed threads -/

/-- C41, the part that holds: when a run starts, only registered threads have names. Missing:
the set of departed threads is never emptied. Any callbacks, any thread ids. -/
theorem C41_names_partial (h : Reachable pol tid s) {st : List Frame} (hp : s.pc t = .held .startEnable st) :
    ∃ s', s.next pol tid t .step = .to s' ∧ s'.enabled = true ∧
      ∀ i, s'.names i ≠ none → ∃ u, isReg u s'.hist = true ∧ tid u = i := by
  have hs : s.next pol tid t .step = .to (s.enable.pop t st) := by
    simp [St.next, St.logStep, St.heldStep, hp]
  obtain ⟨q, _, e⟩ := pop_goto s.enable t st
  refine ⟨_, hs, by rw [e]; rfl, fun i hi => ?_⟩
  rw [e] at hi ⊢
  simp only [St.goto, St.enable] at hi ⊢
  split at hi
  · exact absurd rfl hi
  · rename_i hd
    rcases h.nameOwner i hi with h1 | ⟨u, hu, e⟩
    · exact absurd h1 hd
    · refine ⟨u, ?_, e⟩
      show isReg u s.hist = true
      rw [← h.hist.reg]; exact (h.ctl0.reg u).1 hu

/-- C41 is violated: two runs later thread 1, which departed in the first run, is still in the
set of departed threads. -/
theorem C41_refuted : ∃ s : St Nat, Reachable true id s ∧ (s.enabled && s.dereg == [1] && s.registered == [] &&
    runIds s.hist == [2, 1, 0]) = true :=
  check_sound (l := registers 1 ['a'] ++ starts fixed1 ++ (1, .deregister) :: steps 1 2 ++
    locked ((0, .start ring1) :: steps 0 3) ++ locked ((0, .start ring1) :: steps 0 3)) (by decide +kernel)

/-! ### C42 registration -/

/-- C42: `registerThread` is refused, without effect, iff the thread is registered. -/
theorem C42_register (h : Reachable pol tid s) {n : Str} (hp : s.pc t = .regBody n) :
    (isReg t s.hist = true → s.next pol tid t .step =
      .to ({ s with hist := .regRefused t :: s.hist }.goto t .release)) ∧
    (isReg t s.hist = false → ∃ s', s.next pol tid t .step = .to s' ∧ s'.hist = .regOk t n :: s.hist) := by
  have hr := h.hist.reg t
  have hs : s.next pol tid t .step = .to ((s.registerBody tid t n).goto t .release) := by
    simp [St.next, St.logStep, St.heldStep, hp]
  rw [hs, ← hr]
  constructor
  · intro hi; simp [St.registerBody, hi]
  · intro hi
    refine ⟨_, rfl, ?_⟩
    simp only [St.registerBody, hi, St.goto]
    split <;> first | contradiction | (split <;> rfl) | rfl

/-- C42: `deregisterThread` is refused, without effect, iff the thread is not registered. -/
theorem C42_deregister (h : Reachable pol tid s) (hp : s.pc t = .deregBody) :
    (isReg t s.hist = false → s.next pol tid t .step =
      .to ({ s with hist := .deregRefused t :: s.hist }.goto t .release)) ∧
    (isReg t s.hist = true → ∀ s', s.next pol tid t .step = .to s' → s'.hist = .deregOk t :: s.hist) := by
  have hr := h.hist.reg t
  rw [← hr]
  constructor
  · intro hi; simp [St.next, St.logStep, St.heldStep, hp, St.deregisterBody, hi]
  · intro hi s' hs
    simp only [St.next, St.logStep, St.heldStep, hp] at hs
    split at hs
    · rename_i x hx
      cases hs
      obtain ⟨hp', rfl⟩ := deregisterBody_eq hi hx
      rfl
    · cases hs

/-- C42: the registered tenants are exactly the threads whose last successful call was
`registerThread`, each once. Any callbacks. -/
theorem C42_registered (h : Reachable pol tid s) :
    (∀ t, t ∈ s.registered ↔ isReg t s.hist = true) ∧ s.registered.Nodup :=
  ⟨fun t => by rw [← h.hist.reg]; exact h.ctl0.reg t, h.ctl0.nodup⟩

example : ∃ s : St Nat, Reachable true id s ∧ (s.registered == [2] && s.hist == [.deregRefused 1, .deregOk 1,
    .regRefused 1, .regOk 2 [], .regOk 1 ['a'], .deregRefused 1]) = true :=
  check_sound (l := (1, .deregister) :: steps 1 2 ++ registers 1 ['a'] ++ registers 2 [] ++ registers 1 ['b'] ++
    (1, .deregister) :: steps 1 2 ++ (1, .deregister) :: steps 1 2) (by decide +kernel)

/-! ### C43 a retrieved buffer -/

/-- C43: when a buffer is in the user's hands no thread has a pointer to it or holds one of its
chunks. Any callbacks. -/
theorem C43_unreferenced (h : Reachable pol tid s) {b : Nat} (hb : s.status b = .handed) (u : Nat) :
    (s.pc u).bufPtr ≠ some b ∧ (∀ i, (s.tenant u).chunk ≠ some (b, i)) ∧ s.buffer ≠ some b := by
  refine ⟨fun e => ?_, fun i e => ?_, fun e => ?_⟩
  · rcases h.ctl0.ptr u b e with h' | h' <;> rw [hb] at h' <;> cases h'
  · rcases h.ctl0.chunk u b i e with h' | h' <;> rw [hb] at h' <;> cases h'
  · have := (h.ctl0.status b).2 e; rw [hb] at this; cases this

/-- C43: no step by any thread writes to a buffer that has been handed out (or destroyed), takes
or returns a chunk of it, or makes it the log's again. Any callbacks. -/
theorem C43_step (h : Reachable pol tid s) {b : Nat} (hb : s.status b = .handed ∨ s.status b = .freed)
    {c : Choice ε} (hs : s.next pol tid t c = .to s') :
    s'.heap b = s.heap b ∧ s'.contents b = s.contents b ∧ s'.stored b = s.stored b ∧
    (s'.status b = .handed ∨ s'.status b = .freed) := by
  have h0 := h.ctl0
  have hnb : s.buffer ≠ some b := fun e => by
    have := (h0.status b).2 e; rw [this] at hb; rcases hb with hb | hb <;> cases hb
  have hnn : b ≠ s.nextBuf := fun e => by
    have := (h0.fresh b).2 (by omega); rw [this] at hb; rcases hb with hb | hb <;> cases hb
  have hsame := h0.next_writes hs b hnb hnn
  refine ⟨hsame.1, hsame.2, hsame.3, ?_⟩
  cases next_book hs with
  | calm new hn ha hd hb' hst hh hp _ _ hk => rw [hst]; exact hb
  | free c hc e =>
    subst e
    by_cases hbc : b = c
    · subst hbc; right; simp
    · simpa [setf, hbc] using hb
  | retrieve cs st hp he e =>
    subst e
    show (if s.buffer = some b then Status.handed else s.status b) = .handed ∨ _ = _
    rw [if_neg hnb]; simpa [St.retrieve, hnb] using hb
  | create n st hp e =>
    subst e
    simpa [St.goto, St.createBuffer, setf, hnn, hnb] using hb
  | enable st hp e =>
    subst e
    obtain ⟨q, _, e⟩ := pop_goto s.enable t st
    rw [e]; exact hb
  | reg n hp hi e =>
    subst e
    obtain ⟨_, e2, _⟩ := registerBody_frame (s := s) (tid := tid) (t := t) n
    show (s.registerBody tid t n).status b = .handed ∨ (s.registerBody tid t n).status b = .freed
    rw [e2]; exact hb
  | dereg x hp hi hx e =>
    subst e
    obtain ⟨hp', rfl⟩ := deregisterBody_eq hi hx
    exact hb

/-- C43: from the moment a buffer is handed out, its chunks and events are the same in every
later state, whatever any threads do. Any callbacks. -/
theorem C43_never_written (h : Reachable pol tid s) {b : Nat} (hb : s.status b = .handed ∨ s.status b = .freed)
    {l : List (Nat × Choice ε)} (hr : s.run pol tid l = .to s') :
    s'.heap b = s.heap b ∧ s'.contents b = s.contents b := by
  induction l generalizing s with
  | nil => cases hr; exact ⟨rfl, rfl⟩
  | cons p l ih =>
    obtain ⟨t, c⟩ := p
    simp only [St.run] at hr
    split at hr
    · rename_i s1 hs
      obtain ⟨h1, h2, _, h4⟩ := C43_step h hb hs
      obtain ⟨h5, h6⟩ := ih (h.step hs) h4 hr
      exact ⟨h5.trans h1, h6.trans h2⟩
    · cases hr
    · cases hr

/-- Thread 1 is in the middle of logging a second event when the run is stopped and its buffer
retrieved; the buffer keeps its one event. -/
example : ∃ s : St Nat, Reachable true id s ∧ (s.status 0 == .handed && s.contents 0 == [(1, [5])] &&
    s.pc 1 == .idle) = true :=
  check_sound (l := registers 1 ['a'] ++ starts fixed1 ++ (1, .log 5) :: steps 1 11 ++ (1, .log 6) :: steps 1 1 ++
    (0, .lock) :: (0, .stop false) :: steps 0 2 ++ steps 1 1 ++ steps 0 2 ++ [(0, .getBuffer)])
    (by decide +kernel)

/-! ### C44 chunks are not shared -/

/-- C44: two threads never hold the same chunk. Any callbacks. -/
theorem C44_exclusive (h : Reachable pol tid s) {t u b i : Nat} (ht : (s.tenant t).chunk = some (b, i))
    (hu : (s.tenant u).chunk = some (b, i)) : t = u := by
  obtain ⟨e1, h1⟩ := h.data.owns t b i ht
  obtain ⟨e2, h2⟩ := h.data.owns u b i hu
  rw [h1] at h2
  cases h2; rfl

/-- C44: the events of a chunk are events of one thread, consecutive and in the order that
thread stored them, and the chunk is tagged with that thread's id. Any callbacks. -/
theorem C44_unmixed (h : Reachable pol tid s) {b i t : Nat} {evs : List ε}
    (hc : (s.contents b)[i]? = some (t, evs)) :
    evs <:+: s.stored b t ∧ ∃ c, (s.heap b).chunks[i]? = some (some c) ∧ c.threadId = tid t ∧ c.Holds evs :=
  ⟨h.data.chunkInfix b i t evs hc, (h.data.bufs b).chunkAt hc⟩

/-- Two threads logging concurrently in a buffer of two chunks. -/
example : ∃ s : St Nat, Reachable true (· + 100) s ∧ (s.contents 0 == [(2, [6]), (1, [5, 7])] &&
    (s.tenant 1).chunk == some (0, 1) && (s.tenant 2).chunk == some (0, 0)) = true :=
  check_sound (l := registers 1 ['a'] ++ registers 2 ['b'] ++ starts fixed2 ++ (1, .log 5) :: steps 1 8 ++
    (2, .log 6) :: steps 2 9 ++ steps 1 3 ++ (1, .log 7) :: steps 1 5 ++ steps 2 1) (by decide +kernel)

/-! ### C45 no freed memory -/

/-- C45, the part that holds: if no stopped callback restarts tracing while `start` is
restarting it, no step of any thread uses a null or destroyed buffer, a chunk of another
buffer, or lacks room in its chunk. Missing: callbacks that do restart. -/
theorem C45_safe_partial (h : Reachable true tid s) (c : Choice ε) : s.next true tid t c ≠ .ub :=
  h.inv.next_safe

/-- C45 is violated: thread 0 restarts tracing and the stopped callback starts a run itself;
thread 1 gets a chunk of the callback's buffer, which the restart then destroys; the next event
of thread 1 is written to freed memory. -/
theorem C45_refuted : ∃ (s : St Nat) (t : Nat), Reachable false id s ∧
    (match s.next false id t .step with | .ub => true | _ => false) = true := by
  obtain ⟨s, h1, h2⟩ := check_sound (pol := false) (tid := id)
    (l := registers 1 ['a'] ++ starts fixed1 ++ (0, .lock) :: (0, .start fixed2) :: steps 0 4 ++
      (0, .start fixed2) :: steps 0 2 ++ (1, .log 5) :: steps 1 11 ++ (0, .ret) :: steps 0 1 ++
      (1, .log 6) :: steps 1 3)
    (p := fun s => match s.next false id 1 .step with | .ub => true | _ => false) (by decide +kernel)
  exact ⟨s, 1, h1, h2⟩

/-- A stopped callback (of a plain stop) that retrieves the buffer and restarts tracing. -/
example : ∃ s : St Nat, Reachable true id s ∧ (s.enabled && s.status 0 == .handed && s.status 1 == .inLog &&
    s.contents 1 == [(1, [6])]) = true :=
  check_sound (l := registers 1 ['a'] ++ starts fixed1 ++ (1, .log 5) :: steps 1 11 ++
    (0, .lock) :: (0, .stop false) :: steps 0 4 ++ [(0, .getBuffer), (0, .start fixed2)] ++ steps 0 2 ++
    (1, .log 6) :: steps 1 11) (by decide +kernel)

end Phosphor.TLog
