import Verif.Proof.Memory
/-
C93 The memory of the tracer.

docs/design/Requirements.md: "M.7: The size of the Event Log must be Application-configurable. It
must at least allow a range of 1MB to 1GB." "M.8: The amount of RAM used by the Event Tracer must not
exceed 110% of the configured log size when event tracing is enabled." "M.9: The event log can be
cleared." "M.10: When the event log is empty […] the amount of RAM used by the Event Tracer must be
less than 100KB."
-/
namespace Phosphor.Mem

/-- The layout rules give the sizes used everywhere else. -/
theorem C93_sizes : tEvent.size = sizeofTraceEvent ∧ tChunk.size = sizeofTraceChunk := by decide

/-- Every `start` of the program asks for a supported size, of at most `M` bytes. -/
def Within (M : Nat) (ops : List Op) : Prop :=
  ∀ memory conf, Op.start memory conf ∈ ops → Supported conf.size.toNat ∧ conf.size.toNat ≤ M

/-- Every `start` of the program finds the log without buffer, or takes the buffer of the run it
ends out of the log by its stopped callback. -/
def Retrieved : St → List Op → Prop
  | _, [] => True
  | s, o :: os =>
    (match o with
      | .start _ conf => s.buffer = none ∨ s.enabled = true ∧ conf.takes = true
      | _ => True) ∧ Retrieved (s.after o) os

theorem Ok.op {M : Nat} {s : St} (h : Ok M s) {o : Op} (hw : Within M [o]) :
    (∀ m ∈ s.moments o, Mid M m ∧ (Retrieved s [o] → m.held + m.fresh.sum ≤ cost M)) ∧
      Ok M (s.after o) := by
  have one : ∀ s' : St, Ok M s' → (∀ m ∈ [s'], Mid M m ∧ (Retrieved s [o] →
      m.held + m.fresh.sum ≤ cost M)) ∧ Ok M (lastOf s [s']) := by
    intro s' h'
    refine ⟨?_, h'⟩
    intro m hm
    rw [List.mem_singleton.1 hm]
    exact ⟨h'.mid, fun _ => by rw [h'.fresh]; simpa using h'.held⟩
  cases o with
  | start memory conf =>
    obtain ⟨hs, hM⟩ := hw memory conf (List.mem_singleton.2 rfl)
    obtain ⟨a, b⟩ := start_spec h memory conf hs hM
    exact ⟨fun m hm => ⟨(a m hm).1, fun hr => (a m hm).2 hr.1⟩, b⟩
  | stop =>
    obtain ⟨a, b, _⟩ := stop_spec h
    refine ⟨fun m hm => ⟨(a m hm).1.mid, fun _ => ?_⟩, b⟩
    have := (a m hm).1.held
    rw [(a m hm).1.fresh]; simpa using this
  | getBuffer =>
    apply one
    unfold St.getBuffer
    split
    · exact h
    · exact ⟨h.fresh, by simp [St.held], fun he => absurd he ‹_›⟩
  | register t named =>
    apply one
    unfold St.register
    split
    · exact h
    · cases named
      · exact ⟨h.fresh, h.held, h.on⟩
      · exact ⟨h.fresh, h.held, h.on⟩
  | deregister t =>
    apply one
    unfold St.deregister
    split
    · dsimp only
      split
      · exact ⟨h.fresh, h.held, h.on⟩
      · exact ⟨h.fresh, h.held, h.on⟩
    · exact h

theorem Ok.history {M : Nat} {ops : List Op} : ∀ {s : St}, Ok M s → Within M ops →
    (∀ m ∈ s.history ops, Mid M m ∧ (Retrieved s ops → m.held + m.fresh.sum ≤ cost M)) ∧
      Ok M (s.run ops) := by
  induction ops with
  | nil =>
    intro s h _
    refine ⟨?_, h⟩
    intro m hm
    rw [List.mem_singleton.1 hm]
    exact ⟨h.mid, fun _ => by rw [h.fresh]; simpa using h.held⟩
  | cons o os ih =>
    intro s h hw
    have hw1 : Within M [o] := fun a b hm => hw a b (by rw [List.mem_singleton.1 hm]; simp)
    have hw2 : Within M os := fun a b hm => hw a b (List.mem_cons_of_mem _ hm)
    obtain ⟨a, b⟩ := h.op hw1
    obtain ⟨c, d⟩ := ih b hw2
    refine ⟨?_, d⟩
    intro m hm
    simp only [St.history, List.cons_append, List.mem_cons, List.mem_append] at hm
    rcases hm with rfl | hm | hm
    · exact ⟨h.mid, fun _ => by rw [h.fresh]; simpa using h.held⟩
    · exact ⟨(a m hm).1, fun hr => (a m hm).2 ⟨hr.1, trivial⟩⟩
    · exact ⟨(c m hm).1, fun hr => (c m hm).2 hr.2⟩

theorem logSize : tLog.size = 8696 := by decide

/-- C93, M.8 as written: at every moment at which tracing is enabled, the tracer takes at most 110%
of the size given to the `start` of the run, whatever was called before, whatever requests for memory
failed, and up to 80000 bytes of bookkeeping for threads included. -/
theorem C93_enabled (ops : List Op) (h : Within (2 ^ 43) ops) (k : Nat) {m : St}
    (hm : m ∈ St.new.history ops) (he : m.enabled = true) (hk : k * m.entries ≤ 80000) :
    100 * m.bytes k ≤ 110 * m.budget := by
  obtain ⟨h1, h2, h3⟩ := ((Ok.new _).history h).1 m hm |>.1.on he
  unfold St.bytes St.own
  rw [h1, logSize]
  have h3' : (m.buffer.getD []).sum ≤ cost m.budget := h3
  simp only [List.sum_nil]
  unfold cost at h3'
  omega

/-- C93 for every moment, also during `start` and while tracing is disabled, when every buffer is
retrieved before the next run: at most 110% of the largest size asked for. Missing for the full claim:
programs that start again without retrieving the buffer (`C93_refuted_restart`). -/
theorem C93_always_partial {M : Nat} (hM : Supported M) (ops : List Op) (h : Within M ops)
    (hr : Retrieved St.new ops) (k : Nat) {m : St} (hm : m ∈ St.new.history ops)
    (hk : k * m.entries ≤ 80000) : 100 * m.bytes k ≤ 110 * M := by
  have h3 := (((Ok.new M).history h).1 m hm).2 hr
  unfold St.bytes St.own
  rw [logSize]
  have h3' : (m.buffer.getD []).sum + m.fresh.sum ≤ cost M := h3
  unfold cost at h3'
  have := hM.1
  omega

/-- C93 without that condition: never more than twice that. -/
theorem C93_twice {M : Nat} (hM : Supported M) (ops : List Op) (h : Within M ops) (k : Nat) {m : St}
    (hm : m ∈ St.new.history ops) (hk : k * m.entries ≤ 80000) : 100 * m.bytes k ≤ 220 * M := by
  have h3 := (((Ok.new M).history h).1 m hm).1.held
  unfold St.bytes St.own
  rw [logSize]
  have h3' : (m.buffer.getD []).sum + m.fresh.sum ≤ 2 * cost M := h3
  unfold cost at h3'
  have := hM.1
  omega

/-- `start`, on a log that is not tracing and with memory available, reaches a moment at which the
complete new buffer and the old one both exist. -/
theorem start_peak (s : St) (he : s.enabled = false) (hf : s.fresh = []) (conf : Conf)
    (hs : Supported conf.size.toNat) :
    ∃ l : List Nat, 4008 * (conf.size.toNat / 4008) ≤ l.sum ∧
      (∃ m ∈ s.start (fun _ => true) conf, m.buffer = s.buffer ∧ m.fresh = l ∧ m.enabled = false) ∧
      lastOf s (s.start (fun _ => true) conf) = { s with
        conf, buffer := some l, names := s.names.filter (· ∉ s.gone), enabled := true,
        budget := conf.size.toNat } := by
  obtain ⟨en, cf, bu, bf, fr, na, go, te⟩ := s
  dsimp only at he hf
  subst he hf
  have hn : (conf.size / BitVec.ofNat 64 tChunk.size).toNat = conf.size.toNat / 4008 := size_div _
  have hn1 : 1 ≤ conf.size.toNat / 4008 := by omega
  have hn2 : conf.size.toNat / 4008 ≤ 2 ^ 32 := by omega
  have hne : ¬ conf.size / BitVec.ofNat 64 tChunk.size = 0 := by
    intro h0; rw [h0] at hn; simp at hn; omega
  obtain ⟨l, hl, hl0, _, hge⟩ := requests_spec conf.mode _ (hn ▸ hn1) (hn ▸ hn2)
  rw [hn] at hge
  refine ⟨l, hge, ?_⟩
  have hok : ∀ (l : List Nat) (s : St), (s.build (fun _ => true) (l.map some)).2 = true := by
    intro l
    induction l with
    | nil => intro s; rfl
    | cons b l ih => intro s; simp only [List.map, St.build, if_true]; exact ih _
  have hmem : ∀ (l : List Nat) (s : St), l ≠ [] →
      lastOf s (s.build (fun _ => true) (l.map some)).1 ∈ (s.build (fun _ => true) (l.map some)).1 := by
    intro l
    induction l with
    | nil => intro s h; exact absurd rfl h
    | cons b l ih =>
      intro s _
      simp only [List.map, St.build, if_true, lastOf_cons]
      by_cases h0 : l = []
      · subst h0; simp [St.build]
      · exact List.mem_cons_of_mem _ (ih _ h0)
  have hlast := (build_spec (fun _ => true) l ⟨false, conf, bu, bf, [], na, go, te⟩).2.1 (hok l _)
  have hin := hmem l ⟨false, conf, bu, bf, [], na, go, te⟩ hl0
  have hko := hok l ⟨false, conf, bu, bf, [], na, go, te⟩
  simp only [St.start, if_neg hne, hl, Bool.false_eq_true, if_false, lastOf_nil]
  generalize hbb : St.build (fun _ => true) ⟨false, conf, bu, bf, [], na, go, te⟩ (l.map some) = bb at *
  obtain ⟨building, ok⟩ := bb
  subst hko
  simp only [List.nil_append] at hlast
  simp only [if_true]
  refine ⟨⟨⟨false, conf, bu, bf, l, na, go, te⟩, ?_, rfl, rfl, rfl⟩, ?_⟩
  · rw [hlast] at hin
    simp only [List.cons_append, List.nil_append, List.mem_cons, List.mem_append]
    exact .inr (.inl hin)
  · rw [lastOf_append]
    simp only [lastOf_cons, lastOf_nil]
    rw [hlast]

/-- C93 is violated at other moments: whatever the size and mode, a program that starts, stops and
starts again without retrieving the buffer passes a moment at which the tracer takes more than 199% of
the size it asked for both times. -/
theorem C93_refuted_restart (conf : Conf) (hs : Supported conf.size.toNat) (k : Nat) :
    ∃ ops, (∀ memory c, Op.start memory c ∈ ops → c = { conf with takes := false }) ∧
      ∃ m ∈ St.new.history ops, 100 * m.bytes k > 199 * conf.size.toNat := by
  refine ⟨[.start (fun _ => true) { conf with takes := false }, .stop,
    .start (fun _ => true) { conf with takes := false }], ?_, ?_⟩
  · intro memory c hm
    simp only [List.mem_cons, List.not_mem_nil, or_false, reduceCtorEq, false_or,
      Op.start.injEq] at hm
    rcases hm with ⟨_, h⟩ | ⟨_, h⟩ <;> exact h
  obtain ⟨l, hl, _, e1⟩ := start_peak St.new rfl rfl { conf with takes := false } hs
  have e1' := e1
  generalize hs1 : lastOf St.new (St.new.start (fun _ => true) { conf with takes := false }) = s1 at e1'
  have e2 : s1.after .stop = { s1 with enabled := false } := by
    rw [e1']; rfl
  obtain ⟨l', hl', ⟨m, hm, hb, hfr, hen⟩, _⟩ := start_peak (s1.after .stop) (by rw [e2])
    (by rw [e2, e1']; rfl) { conf with takes := false } hs
  refine ⟨m, ?_, ?_⟩
  · have hs1' : St.new.after (.start (fun _ => true) { conf with takes := false }) = s1 := hs1
    simp only [St.history, List.cons_append, List.mem_cons, List.mem_append, hs1']
    exact .inr (.inr (.inr (.inr (.inr (.inl hm)))))
  · have hb' : m.buffer = some l := by rw [hb, e2, e1']
    unfold St.bytes St.own
    rw [hb', hfr, logSize]
    simp only [Option.getD_some]
    have hl1 : 4008 * (conf.size.toNat / 4008) ≤ l.sum := hl
    have hl2 : 4008 * (conf.size.toNat / 4008) ≤ l'.sum := hl'
    have := hs.1
    generalize k * m.entries = z
    omega

/-- C93, M.9 and M.10: after `stop()` and `getBuffer()`, whatever was called before, the log owns its
own 8696 bytes and the entries of its maps and sets: no trace of the event log remains. -/
theorem C93_cleared (ops : List Op) (h : Within (2 ^ 43) ops) (k : Nat) :
    (St.new.run (ops ++ [.stop, .getBuffer])).bytes k =
      8696 + k * (St.new.run (ops ++ [.stop, .getBuffer])).entries := by
  have hrun : ∀ (ops : List Op) (s : St), s.run (ops ++ [.stop, .getBuffer]) =
      ((s.run ops).after .stop).after .getBuffer := by
    intro ops
    induction ops with
    | nil => intro s; rfl
    | cons o os ih => intro s; exact ih _
  rw [hrun]
  have hok := ((Ok.new (2 ^ 43)).history h).2
  obtain ⟨_, b, c, _⟩ := stop_spec hok
  generalize hs2 : (St.new.run ops).after .stop = s2
  have hs2' : lastOf (St.new.run ops) (St.new.run ops).stop = s2 := hs2
  rw [hs2'] at b c
  have : s2.after .getBuffer = { s2 with buffer := none } := by
    show (if s2.enabled then s2 else _) = _
    rw [c]; rfl
  rw [this]
  unfold St.bytes St.own
  simp [b.fresh, logSize]

/-- C93, M.10, at the beginning: before the first `start` the log has just its own object and
entries. -/
theorem C93_before (ops : List Op) (h : ∀ memory conf, Op.start memory conf ∉ ops) (k : Nat) {m : St}
    (hm : m ∈ St.new.history ops) : m.bytes k = 8696 + k * m.entries := by
  have hw : ∀ M, Within M ops := fun M a b hx => absurd hx (h a b)
  have key : ∀ (ops : List Op) (s : St), s.buffer = none → s.fresh = [] →
      (∀ memory conf, Op.start memory conf ∉ ops) →
      ∀ m ∈ s.history ops, m.buffer = none ∧ m.fresh = [] := by
    intro ops
    induction ops with
    | nil => intro s hb hf _ m hm; rw [List.mem_singleton.1 hm]; exact ⟨hb, hf⟩
    | cons o os ih =>
      intro s hb hf hn m hm
      have hmom : (∀ m ∈ s.moments o, m.buffer = none ∧ m.fresh = []) := by
        cases o with
        | start a b => exact absurd (List.mem_cons_self) (hn a b)
        | stop =>
          intro m hm
          simp only [St.moments, St.stop] at hm
          split at hm
          · split at hm <;> simp only [List.mem_cons, List.not_mem_nil, or_false] at hm <;>
              rcases hm with rfl | rfl <;> first | exact ⟨hb, hf⟩ | exact ⟨rfl, hf⟩
          · rw [List.mem_singleton.1 hm]; exact ⟨hb, hf⟩
        | getBuffer =>
          intro m hm
          rw [List.mem_singleton.1 hm]
          unfold St.getBuffer
          split
          · exact ⟨hb, hf⟩
          · exact ⟨rfl, hf⟩
        | register t named =>
          intro m hm
          rw [List.mem_singleton.1 hm]
          unfold St.register
          split
          · exact ⟨hb, hf⟩
          · cases named <;> exact ⟨hb, hf⟩
        | deregister t =>
          intro m hm
          rw [List.mem_singleton.1 hm]
          unfold St.deregister
          split
          · dsimp only; split <;> exact ⟨hb, hf⟩
          · exact ⟨hb, hf⟩
      have hlast : ∀ (ms : List St) (s : St), s.buffer = none ∧ s.fresh = [] →
          (∀ m ∈ ms, m.buffer = none ∧ m.fresh = []) →
          (lastOf s ms).buffer = none ∧ (lastOf s ms).fresh = [] := by
        intro ms
        induction ms with
        | nil => intro s h _; exact h
        | cons x xs ih =>
          intro s _ h
          rw [lastOf_cons]
          exact ih x (h x (by simp)) fun m hm => h m (by simp [hm])
      have ha := hlast (s.moments o) s ⟨hb, hf⟩ hmom
      simp only [St.history, List.cons_append, List.mem_cons, List.mem_append] at hm
      rcases hm with rfl | hm | hm
      · exact ⟨hb, hf⟩
      · exact hmom m hm
      · exact ih (s.after o) ha.1 ha.2 (fun a b hx => hn a b (by simp [hx])) m hm
  obtain ⟨hb, hf⟩ := key ops St.new rfl rfl h m hm
  unfold St.bytes St.own
  simp [hb, hf, logSize]

/-- `n` threads register with a name and deregister. -/
def visits : Nat → List Op
  | 0 => []
  | n + 1 => visits n ++ [.register n true, .deregister n]

theorem run_append (s : St) (a b : List Op) : s.run (a ++ b) = (s.run a).run b := by
  induction a generalizing s with
  | nil => rfl
  | cons o os ih => exact ih _

theorem visits_run (n : Nat) : ∀ s : St, s.enabled = true → s.names = [] → s.gone = [] →
    s.tenants = [] →
    s.run (visits n) = { s with
      names := (List.range n).reverse, gone := (List.range n).reverse } := by
  induction n with
  | zero => intro s _ h1 h2 _; cases s; simp_all [visits, St.run]
  | succ n ih =>
    intro s he h1 h2 h3
    rw [visits, run_append, ih s he h1 h2 h3]
    have hgone : List.filter (fun x => !decide (x = n)) (List.range n).reverse
        = (List.range n).reverse := by
      rw [List.filter_eq_self]
      intro a ha
      simp only [List.mem_reverse, List.mem_range] at ha
      simp; omega
    simp [St.run, St.after, St.moments, St.register, St.deregister, h3, he, List.range_succ, hgone]

/-- C93, M.10 is violated when threads come and go during tracing: the entries of threads that
deregister while tracing is enabled stay, in `deregistered_threads` also over later runs (C41). With
tracing over, the buffer retrieved and no thread registered, the memory in use has no bound, if an
entry takes any; with the 8 bytes of its key, 6000 threads exceed 100 kilobytes. -/
theorem C93_refuted_empty (n : Nat) :
    ∃ ops, Within (2 ^ 20) ops ∧
      let s := St.new.run ops
      s.enabled = false ∧ s.buffer = none ∧ s.tenants = [] ∧
        ∀ k, s.bytes k = 8696 + k * (2 * n) := by
  let conf : Conf := ⟨.fixed, BitVec.ofNat 64 (2 ^ 20), false⟩
  have hsz : conf.size.toNat = 2 ^ 20 := by decide
  have hs : Supported conf.size.toNat := by rw [hsz]; exact ⟨Nat.le_refl _, by decide⟩
  refine ⟨.start (fun _ => true) conf :: visits n ++ [.stop, .getBuffer], ?_, ?_⟩
  · intro memory c hm
    have hv : ∀ n, Op.start memory c ∉ visits n := by
      intro n
      induction n with
      | zero => simp [visits]
      | succ n ih => simp [visits, ih]
    simp only [List.cons_append, List.mem_cons, List.mem_append, hv, List.not_mem_nil, or_false,
      reduceCtorEq, Op.start.injEq] at hm
    rw [hm.2]
    exact ⟨hs, Nat.le_of_eq hsz⟩
  · obtain ⟨l, _, _, e⟩ := start_peak St.new rfl rfl conf hs
    have e' : St.new.after (.start (fun _ => true) conf) = _ := e
    simp only [St.run, List.cons_append]
    rw [e', run_append, visits_run n _ rfl rfl rfl rfl]
    refine ⟨rfl, rfl, rfl, ?_⟩
    intro k
    simp only [St.run, St.after, St.moments, St.stop, St.getBuffer, if_true, lastOf_cons, lastOf_nil]
    unfold St.bytes St.own St.entries
    rw [logSize]
    simp [conf, St.new, Nat.two_mul]

/-- C93, M.8 is violated for small logs: one of 64 kilobytes takes more than 110% of it while tracing
is enabled, because of the category registry inside the log. -/
theorem C93_refuted_small :
    ∃ m ∈ St.new.history [.start (fun _ => true) ⟨.fixed, 65536#64, false⟩],
      m.enabled = true ∧ m.budget = 65536 ∧ 100 * m.bytes 0 > 110 * m.budget := by
  refine ⟨lastOf St.new (St.new.start (fun _ => true) ⟨.fixed, 65536#64, false⟩), ?_, ?_⟩
  · decide +kernel
  · decide +kernel

/-! ### Cases -/

/-- A program of four calls meeting the conditions of the theorems, with a run that ends by a restart
whose callback takes the buffer. -/
def demo : List Op :=
  [.start (fun _ => true) ⟨.ring, BitVec.ofNat 64 (2 ^ 20), true⟩, .register 7 true,
    .start (fun b => b < 2 ^ 30) ⟨.fixed, BitVec.ofNat 64 (2 ^ 21), true⟩, .stop]

example : Within (2 ^ 21) demo := by
  intro memory c hm
  simp only [demo, List.mem_cons, List.not_mem_nil, or_false, reduceCtorEq, false_or,
    Op.start.injEq] at hm
  rcases hm with ⟨_, rfl⟩ | ⟨_, rfl⟩ <;> decide

example : Retrieved St.new demo := by
  refine ⟨.inl rfl, trivial, .inr ⟨?_, rfl⟩, trivial, trivial⟩
  decide +kernel

/-- A moment of the second run: 2096184 + 48 bytes of buffer for 2097152 asked for. -/
example : ∃ m ∈ St.new.history demo, m.enabled = true ∧ m.budget = 2 ^ 21 ∧ m.own = 2104928 := by
  refine ⟨(St.new.run (demo.take 3)), ?_, ?_⟩
  · decide +kernel
  · decide +kernel

/-- Failing requests: the moments of a `start` that does not get memory for its chunks. -/
example : (St.new.start (fun b => b < 1000) ⟨.ring, BitVec.ofNat 64 (2 ^ 20), false⟩).map
    (fun m => (m.own, m.enabled)) = [(8696, false), (9040, false), (8696, false)] := by
  decide +kernel

end Phosphor.Mem
