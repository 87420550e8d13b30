import Verif.Proof.Window
import Verif.Props.TraceLogEvents
import Verif.Props.TraceLogRingMany
import Mathlib.Tactic.ByContra
/-
C34: which events of a thread a run loses. What a thread stores in the buffer of a run is the
beginning of what it logs while it is registered: once one of its events is lost, no later event of
it is stored in this buffer.
-/
namespace Phosphor.TLog
variable {ε : Type} {tid : Nat → Nat} {s s' : St ε} {t : Nat} {pol : Bool}

/-- The run of `b` has begun: nobody is about to enable the log with it. -/
def Begun (b : Nat) (s : St ε) : Prop := s.buffer = some b → ∀ o, (s.pc o).isEnable = false

/-- Why thread `t` stores nothing more in buffer `b`. -/
inductive Dead (b t : Nat) (s : St ε) : Prop
  | gone (h : s.buffer ≠ some b)
  | off (h : s.enabled = false) (hp : (s.pc t).event = none ∨ ∃ e, s.pc t = .readEnabled e)
  | full (hm : (s.heap b).mode = .fixed) (hf : (s.heap b).chunks.length ≤ (s.heap b).counter)
      (hc : ∀ i, (s.tenant t).chunk ≠ some (b, i))

theorem Begun.step {b u : Nat} (h : Begun b s) {c : Choice ε} (hs : s.next pol tid u c = .to s') (hb : b < s.nextBuf) :
    Begun b s' := by
  intro hb' o
  have hsb : s.buffer = some b := by
    by_contra hn
    exact buffer_gone hs hb hn hb'
  have h := h hsb
  cases next_book hs with
  | calm new hn ha hd hbb hst hh hp _ _ hk =>
    rcases ho : (s'.pc o).isEnable with _ | _
    · rfl
    · have := hk o ho; rw [h o] at this; cases this
  | free b' hb' e => subst e; exact h o
  | retrieve cs st hp he e => subst e; simp [St.retrieve] at hb'
  | create n st hp e =>
    subst e
    simp only [St.goto, St.createBuffer] at hb'
    cases hb'; exact absurd hb (Nat.lt_irrefl _)
  | enable st hp e =>
    have := h u
    rw [hp] at this; cases this
  | reg n hp hi e =>
    by_cases hou : o = u
    · subst hou; rw [e, goto_pc]; rfl
    · rw [next_pc hs hou]; exact h o
  | dereg x hp hi hx e =>
    by_cases hou : o = u
    · subst hou; rw [e, goto_pc]; rfl
    · rw [next_pc hs hou]; exact h o

theorem off_step (hr : Reachable pol tid s) {b u : Nat} (h : Begun b s) {c : Choice ε} (hs : s.next pol tid u c = .to s')
    (hb : b < s.nextBuf) (he : s.enabled = false) : s'.enabled = false ∨ s'.buffer ≠ some b := by
  rw [(hr.step hs).hist.en]
  have ho : on s.hist = false := by rw [← hr.hist.en]; exact he
  cases next_book hs with
  | calm new hn ha hd hbb hst hh hp _ _ hk => left; rw [hh]; exact on_plain_off hp ho
  | free b' hb' e => subst e; exact Or.inl ho
  | retrieve cs st hp he e => subst e; right; simp [St.retrieve]
  | create n st hp e =>
    right
    subst e
    simp only [St.goto, St.createBuffer]
    intro e; cases e; exact absurd hb (Nat.lt_irrefl _)
  | enable st hp e =>
    right
    refine buffer_gone hs hb (fun hsb => ?_)
    have := h hsb u
    rw [hp] at this; cases this
  | reg n hp hi e =>
    left; subst e
    simp only [St.goto, St.registerBody, hi]
    split
    · contradiction
    · split <;> exact ho
  | dereg x hp hi hx e =>
    left; subst e
    obtain ⟨hp', rfl⟩ := deregisterBody_eq hi hx
    exact ho

theorem read_off {e : ε} (hp : s.pc t = .readEnabled e) (he : s.enabled = false) {c : Choice ε}
    (hs : s.next pol tid t c = .to s') : s'.pc t = .idle ∨ s'.pc t = .readEnabled e := by
  unfold St.next at hs
  cases c with
  | step => simp only [St.logStep, hp, he] at hs; cases hs; left; rw [goto_pc]; rfl
  | spurious => simp only [St.logStep, hp, he] at hs; cases hs; left; rw [goto_pc]; rfl
  | free b => dsimp only at hs; split at hs <;> cases hs; exact Or.inr hp
  | log e => simp [St.isIdle, hp] at hs
  | lock => simp [St.isIdle, hp] at hs
  | register n => simp [St.isIdle, hp] at hs
  | deregister => simp [St.isIdle, hp] at hs
  | _ => simp [hp] at hs

/-- A step that changes what `t` has stored in `b` finds `b` in the log and `t` with a chunk of it. -/
theorem stored_by (h : Reachable pol tid s) {b u : Nat} {c : Choice ε} (hs : s.next pol tid u c = .to s')
    (hb : b < s.nextBuf) : s'.stored b t = s.stored b t ∨
      (u = t ∧ s.buffer = some b ∧ ∃ e i, s.pc t = .store e ∧ (s.tenant t).chunk = some (b, i)) := by
  rcases next_fate hs with ⟨e, rfl, hp, rfl⟩ | ⟨hl, hf⟩
  · exact Or.inl rfl
  · cases hf with
    | keep he hst => exact Or.inl (by rw [hst b (by omega)])
    | store e b' i hp hch hm he hst =>
      by_cases hh : b = b' ∧ t = u
      · obtain ⟨rfl, rfl⟩ := hh
        have : s.status b = .inLog := by
          rcases h.ctl0.chunk t b i hch with h' | h'
          · exact h'
          · simp [St.mapped, h'] at hm
        exact Or.inr ⟨rfl, (h.ctl0.status b).1 this, e, i, hp, hch⟩
      · left
        rw [hst]
        simp only [setf]
        split
        · rename_i hb; subst hb
          have : t ≠ u := fun e => hh ⟨rfl, e⟩
          simp [setf, this]
        · rfl
    | drop hd he hst => exact Or.inl (by rw [hst])

theorem Dead.step (hr : Reachable pol tid s) {b u : Nat} (hb : b < s.nextBuf) (hn : Begun b s) (h : Dead b t s) {c : Choice ε}
    (hs : s.next pol tid u c = .to s') : Dead b t s' ∧ s'.stored b t = s.stored b t := by
  cases h with
  | gone h =>
    refine ⟨.gone (buffer_gone hs hb h), ?_⟩
    rcases stored_by (t := t) hr hs hb with e | ⟨_, e, _⟩
    · exact e
    · exact absurd e h
  | off he hp =>
    constructor
    · rcases off_step hr hn hs hb he with he' | hg
      · refine .off he' ?_
        by_cases hu : u = t
        · subst hu
          rcases hp with hp | ⟨e, hp⟩
          · rcases next_fate hs with ⟨e, rfl, _, rfl⟩ | ⟨_, hf⟩
            · right; exact ⟨e, by rw [goto_pc]⟩
            · left
              cases hf with
              | keep hk _ => rw [hk, hp]
              | store e b' i hp' _ _ hk _ => exact hk
              | drop _ hk _ => exact hk
          · rcases read_off hp he hs with h' | h'
            · left; rw [h']; rfl
            · right; exact ⟨e, h'⟩
        · rw [next_pc hs (Ne.symm hu)]; exact hp
      · exact .gone hg
    · rcases stored_by (t := t) hr hs hb with e | ⟨_, _, e, i, hst, _⟩
      · exact e
      · rw [hst] at hp
        rcases hp with hp | ⟨e, hp⟩ <;> cases hp
  | full hm hf hc =>
    have hop := next_bufop hs b (by omega)
    refine ⟨.full (hop.shape.2.2.trans hm) ?_ (fun i hi => ?_), ?_⟩
    · rw [hop.shape.2.1]; exact Nat.le_trans hf hop.counter
    · rcases next_gain hs hi with h' | h' | h' | h'
      · exact hc i h'
      · rw [hm] at h'; cases h'
      · omega
      · exact h' ((hr.data.bufs b).qfixed hm)
    · rcases stored_by (t := t) hr hs hb with e | ⟨_, _, e, i, _, hst⟩
      · exact e
      · exact absurd hst (hc i)

theorem Dead.run (hr : Reachable pol tid s) {b : Nat} (hb : b < s.nextBuf) (hn : Begun b s) (h : Dead b t s)
    {l : List (Nat × Choice ε)} (hs : s.run pol tid l = .to s') : s'.stored b t = s.stored b t := by
  induction l generalizing s with
  | nil => cases hs; rfl
  | cons p l ih =>
    obtain ⟨u, c⟩ := p
    simp only [St.run] at hs
    split at hs
    · rename_i s1 h1
      have hmono := nextBuf_mono h1
      obtain ⟨hd, e⟩ := h.step hr hb hn h1
      rw [ih (hr.step h1) (by omega) (hn.step h1 hb) hd hs, e]
    · cases hs
    · cases hs

/-- What a step of anyone does while `t` has lost nothing: it loses nothing, or nothing is stored from now on. -/
theorem live_step (hr : Reachable pol tid s) {b u : Nat} (hb : b < s.nextBuf) (hn : Begun b s) (hreg : isReg t s.hist = true)
    {c : Choice ε} (hs : s.next pol tid u c = .to s') :
    s'.stored b t ++ (s'.pc t).event.toList =
        s.stored b t ++ (s.pc t).event.toList ++ (if u = t then calls c else []) ∨
    (s'.stored b t = s.stored b t ∧ Dead b t s') := by
  by_cases hu : u = t
  · subst hu
    rw [if_pos rfl]
    rcases next_fate hs with ⟨e, rfl, hp, rfl⟩ | ⟨hl, hfate⟩
    · left; rw [goto_pc, hp]; simp [St.goto, Pc.event, calls]
    · have hcl : calls c = [] := by
        cases c <;> first | rfl | exact absurd rfl (hl _)
      rw [hcl, List.append_nil]
      cases hfate with
      | keep he hst => left; rw [he, hst b (by omega)]
      | store e b' i hp hch hm he hst =>
        have : s.status b' = .inLog := by
          rcases hr.ctl0.chunk u b' i hch with h' | h'
          · exact h'
          · simp [St.mapped, h'] at hm
        have hb' := (hr.ctl0.status b').1 this
        by_cases hbb : b = b'
        · subst hbb
          left; rw [he, hst, hp]; simp [setf, Pc.event]
        · right
          refine ⟨by rw [hst]; simp [setf, hbb], .gone (buffer_gone hs hb ?_)⟩
          rw [hb']; intro e; cases e; exact hbb rfl
      | drop hdr he hst =>
        right
        refine ⟨by rw [hst], ?_⟩
        rcases hdr.why hr.hist hr.ctl0 hr.data with h' | h' | ⟨p, hp, hmode, hfull, e, hpc⟩
        · rcases off_step hr hn hs hb (by rw [hr.hist.en]; exact h') with h' | h'
          · exact .off h' (Or.inl he)
          · exact .gone h'
        · rw [hreg] at h'; cases h'
        · by_cases hbp : p = b
          · subst hbp
            have hc : (s.tenant u).chunk = none := hr.ctl0.noChunk u (by rw [hpc]; rfl)
            exact (Dead.step hr hb hn (.full hmode hfull (fun i hi => by rw [hc] at hi; cases hi)) hs).1
          · refine .gone (buffer_gone hs hb ?_)
            rw [hp]; intro e; cases e; exact hbp rfl
  · left
    rw [if_neg hu, List.append_nil, next_pc hs (Ne.symm hu)]
    rcases C48_stored hs b t hb with e | ⟨e, _⟩
    · rw [e]
    · exact absurd e.symm hu

/-- C34: while `t` stays registered the buffer `b`, once its run has begun, takes the first events
of `t` from now on, and none after the first that is lost. Any callbacks. -/
theorem C34_window (h : Reachable pol tid s) {l : List (Nat × Choice ε)} (hr : s.run pol tid l = .to s')
    {b : Nat} (hb : b < s.nextBuf) (hn : s.buffer = some b → ∀ o st, s.pc o ≠ .held .startEnable st)
    (hreg : isReg t s.hist = true) {new : List Item} (hh : s'.hist = new ++ s.hist) (hnd : Item.deregOk t ∉ new) :
    s'.stored b t <+: s.stored b t ++ (s.pc t).event.toList ++ logged t l := by
  replace hn : Begun b s := by
    intro e o
    have := hn e o
    generalize s.pc o = p at this
    cases p with
    | held w st =>
      cases w with
      | startEnable => exact absurd rfl (this st)
      | _ => rfl
    | _ => rfl
  induction l generalizing s new with
  | nil => cases hr; exact ⟨_, by simp [logged]; rfl⟩
  | cons p l ih =>
    obtain ⟨u, c⟩ := p
    simp only [St.run] at hr
    split at hr
    · rename_i s1 hs
      have h1 := h.step hs
      obtain ⟨n1, e1⟩ := next_hist hs
      obtain ⟨n2, e2⟩ := run_hist hr
      have hnew : new = n2 ++ n1 := by
        rw [e2, e1, ← List.append_assoc] at hh
        exact (List.append_cancel_right hh).symm
      subst hnew
      have hreg1 : isReg t s1.hist = true := by
        rw [e1]; exact isReg_keep (fun hm => hnd (by simp [hm])) hreg
      have hmono := nextBuf_mono hs
      have hl : logged t ((u, c) :: l) = (if u = t then calls c else []) ++ logged t l := by simp [logged]
      rcases live_step h hb hn hreg hs with e | ⟨e, hd⟩
      · rw [hl, ← List.append_assoc, ← e]
        exact ih h1 hr (by omega) hreg1 e2 (fun hm => hnd (by simp [hm])) (hn.step hs hb)
      · rw [hd.run h1 (by omega) (hn.step hs hb) hr, e, List.append_assoc]
        exact List.prefix_append _ _
    · cases hr
    · cases hr

/-- C34: a run begins (state `s`, by thread `o`); thread `t` is registered and between calls. As long
as `t` stays registered, whatever happens — the buffer fills up, tracing is stopped and started
again, the buffer is taken away — the events of `t` in the buffer of the run are the first events
that `t` logged since the run began: those it loses are the last ones. -/
theorem C34_prefix (h : Reachable true tid s) {o : Nat} {st : List Frame}
    (hp : s.pc o = .held .startEnable st) (hi : (s.pc t).event = none) (hreg : isReg t s.hist = true)
    {l : List (Nat × Choice ε)} (hr : s.run true tid ((o, .step) :: l) = .to s') {new : List Item} {b : Nat}
    {cfg : TraceConfig} (hh : s'.hist = new ++ .run b cfg :: s.hist) (hnd : Item.deregOk t ∉ new) :
    s'.stored b t <+: logged t l := by
  obtain ⟨s1, b1, hs, hb, hon, hst⟩ := C34_begins h hp
  have hs' : s.next true tid o .step = .to (s.enable.pop o st) := by
    simp [St.next, St.logStep, St.heldStep, hp]
  have es : s1 = s.enable.pop o st := by rw [hs] at hs'; cases hs'; rfl
  obtain ⟨q, hq, eq⟩ := pop_goto s.enable o st
  have e1 : s1.hist = .run (s.nextBuf - 1) s.config :: s.hist := by rw [es, eq]; rfl
  have hev : (s1.pc t).event = none := by
    by_cases hto : t = o
    · subst hto
      rw [es, eq, goto_pc]
      revert hq
      cases q <;> simp [Pc.calm, Pc.event, Pc.holdsMutex]
    · rw [next_pc hs hto]; exact hi
  simp only [St.run, hs] at hr
  have hl := (h.step hs).ctl.last b1 hb
  have hb1 : b1 = s.nextBuf - 1 := by
    have h2 : s1.nextBuf = s.nextBuf := by rw [es, eq]; rfl
    omega
  obtain ⟨n2, e2⟩ := run_hist hr
  have : n2 ++ .run (s.nextBuf - 1) s.config :: s.hist = new ++ .run b cfg :: s.hist := by
    rw [← hh, e2, e1]
  have hlen : n2.length = new.length := by
    have := congrArg List.length this
    simp at this; exact this
  obtain ⟨rfl, h4⟩ := List.append_inj this hlen
  cases h4
  have key := C34_window (t := t) (b := b1) (h.step hs) hr (by omega) ?_ (by rw [e1]; exact hreg) e2 hnd
  · rw [hst, hev, hb1] at key
    simpa using key
  · intro _ v stk hv
    have h1 := (h.step hs).ctl.off v (by rw [hv]; rfl)
    rw [hon] at h1; cases h1

/-- Thread 1 registers and thread 0 is about to begin a run. -/
def aboutToRun : List (Nat × Choice Nat) :=
  registers 1 ['a'] ++ [(0, .lock), (0, .start { mode := .fixed, size := 8100 }), (0, .step)]

/-- The call of `start` ends, thread 1 logs 5, thread 0 stops tracing, thread 1 logs 6, thread 0
starts a run and thread 1 logs 7. -/
def twoRuns : List (Nat × Choice Nat) :=
  (0, .ret) :: steps 0 1 ++ logs 1 5 11 ++ locked ((0, .stop false) :: steps 0 4) ++ logs 1 6 1 ++
  locked ((0, .start fixed2) :: steps 0 2) ++ logs 1 7 11

/-- The hypotheses of `C34_prefix` hold, two of three events are not in the buffer of the first run. -/
example : ∃ (s s' : St Nat) (new : List Item), Reachable true (· + 100) s ∧
    s.pc 0 = .held .startEnable [.resumeUser] ∧ (s.pc 1).event = none ∧ isReg 1 s.hist = true ∧
    s.run true (· + 100) ((0, .step) :: twoRuns) = .to s' ∧
    s'.hist = new ++ .run 0 { mode := .fixed, size := 8100 } :: s.hist ∧ Item.deregOk 1 ∉ new ∧
    logged 1 twoRuns = [5, 6, 7] ∧ s'.stored 0 1 = [5] := by
  obtain ⟨s, h3, h4⟩ := check_run (pol := true) (tid := (· + 100)) (p := fun s =>
      s.pc 0 == .held .startEnable [.resumeUser] && (s.pc 1).event == none && isReg 1 s.hist && s.hist.length == 2)
    (l := aboutToRun) (by decide +kernel)
  obtain ⟨s', h1, h2⟩ := check_run (pol := true) (tid := (· + 100)) (p := fun s =>
      s.stored 0 1 == [5] && decide (Item.deregOk 1 ∉ s.hist) &&
      s.hist[4]? == some (.run 0 { mode := .fixed, size := 8100 }) && s.hist.length == 7)
    (l := aboutToRun ++ (0, .step) :: twoRuns) (by decide +kernel)
  simp only [Bool.and_eq_true, beq_iff_eq, decide_eq_true_eq] at h2 h4
  rw [run_split h3] at h1
  obtain ⟨n, e⟩ := run_hist h1
  obtain ⟨⟨⟨g1, g2⟩, g3⟩, g4⟩ := h2
  have hn : n.length = 5 := by rw [e, List.length_append] at g4; omega
  obtain ⟨m, x, rfl⟩ : ∃ m x, n = m ++ [x] := by
    rcases List.eq_nil_or_concat n with rfl | ⟨m, x, rfl⟩
    · simp at hn
    · exact ⟨m, x, by simp⟩
  have hm : m.length = 4 := by simp at hn; omega
  have hx : x = .run 0 { mode := .fixed, size := 8100 } := by
    rw [e, List.append_assoc, List.getElem?_append_right (by omega), hm] at g3
    simpa using g3
  subst hx
  refine ⟨s, s', m, run_reachable .init h3, h4.1.1.1, h4.1.1.2, h4.1.2, h1, ?_, fun hd => g2 ?_, by decide +kernel, g1⟩
  · rw [e]; simp
  · rw [e]; simp [hd]

/-- Thread 1 logs 0 and 2, deregisters, logs 3, registers and logs 1. -/
def leftInBetween : List (Nat × Choice Nat) :=
  (0, .ret) :: steps 0 1 ++ logs 1 0 11 ++ logs 1 2 6 ++ (1, .deregister) :: steps 1 2 ++ logs 1 3 4 ++
  registers 1 ['a'] ++ logs 1 1 11

/-- C34: a thread that deregisters and registers again loses an event in between. -/
theorem C34_gap : ∃ s s' : St Nat, Reachable true (· + 100) s ∧
    s.pc 0 = .held .startEnable [.resumeUser] ∧ (s.pc 1).event = none ∧ isReg 1 s.hist = true ∧
    s.run true (· + 100) ((0, .step) :: leftInBetween) = .to s' ∧ (s'.heap 0).mode = .fixed ∧
    logged 1 leftInBetween = [0, 2, 3, 1] ∧ s'.stored 0 1 = [0, 2, 1] := by
  obtain ⟨s, h3, h4⟩ := check_run (pol := true) (tid := (· + 100)) (p := fun s =>
      s.pc 0 == .held .startEnable [.resumeUser] && (s.pc 1).event == none && isReg 1 s.hist)
    (l := aboutToRun) (by decide +kernel)
  obtain ⟨s', h1, h2⟩ := check_run (pol := true) (tid := (· + 100)) (p := fun s =>
      s.stored 0 1 == [0, 2, 1] && (s.heap 0).mode == .fixed)
    (l := aboutToRun ++ (0, .step) :: leftInBetween) (by decide +kernel)
  simp only [Bool.and_eq_true, beq_iff_eq] at h2 h4
  rw [run_split h3] at h1
  exact ⟨s, s', run_reachable .init h3, h4.1.1, h4.1.2, h4.2, h1, h2.2, by decide +kernel, h2.1⟩

end Phosphor.TLog
