import Verif.Proof.TraceLog
import Verif.Spec.TraceLog
/-
The history of a TraceLog agrees with its state, whatever the callbacks do.
-/
namespace Phosphor.TLog
variable {ε : Type} {tid : Nat → Nat} {s s' : St ε} {t : Nat}

/-- Steps of `logEvent` outside the mutex: what they leave alone. -/
structure Outside (t : Nat) (s s' : St ε) : Prop where
  config : s'.config = s.config
  enabled : s'.enabled = s.enabled
  owner : s'.owner = s.owner
  buffer : s'.buffer = s.buffer
  generation : s'.generation = s.generation
  registered : s'.registered = s.registered
  names : s'.names = s.names
  dereg : s'.dereg = s.dereg
  status : s'.status = s.status
  nextBuf : s'.nextBuf = s.nextBuf
  hist : s'.hist = s.hist
  contexts : s'.contexts = s.contexts
  pc : ∀ u, u ≠ t → s'.pc u = s.pc u
  tenant : ∀ u, u ≠ t → s'.tenant u = s.tenant u
  init : (s'.tenant t).initialised = (s.tenant t).initialised
  before : (s.pc t).holdsMutex = false
  after : (s'.pc t).holdsMutex = false
  gens : ∀ b, (s'.heap b).generation = (s.heap b).generation
  sizes : ∀ b, (s'.heap b).chunks.length = (s.heap b).chunks.length
  modes : ∀ b, (s'.heap b).mode = (s.heap b).mode

theorem Outside.goto {p q : Pc ε} (hp : s.pc t = p) (h1 : p.holdsMutex = false)
    (h2 : q.holdsMutex = false) : Outside t s (s.goto t q) := by
  refine ⟨rfl, rfl, rfl, rfl, rfl, rfl, rfl, rfl, rfl, rfl, rfl, rfl, ?_, fun _ _ => rfl, rfl,
    by rw [hp]; exact h1, by rw [goto_pc]; exact h2, fun _ => rfl, fun _ => rfl, fun _ => rfl⟩
  intro u hu; simp [St.goto, setf, hu]

/-- Like `goto`, after a change of the tenant of `t` and of a buffer. -/
theorem Outside.mk' {p q : Pc ε} (hp : s.pc t = p) (h1 : p.holdsMutex = false)
    (h2 : q.holdsMutex = false) {x : St ε} (e1 : x.config = s.config) (e2 : x.enabled = s.enabled)
    (e3 : x.owner = s.owner) (e4 : x.buffer = s.buffer) (e5 : x.generation = s.generation)
    (e6 : x.registered = s.registered) (e7 : x.names = s.names) (e8 : x.dereg = s.dereg)
    (e9 : x.status = s.status) (e10 : x.nextBuf = s.nextBuf) (e11 : x.hist = s.hist)
    (e12 : x.contexts = s.contexts) (e13 : x.pc = s.pc)
    (e14 : ∀ u, u ≠ t → x.tenant u = s.tenant u)
    (e15 : (x.tenant t).initialised = (s.tenant t).initialised)
    (e16 : ∀ b, (x.heap b).generation = (s.heap b).generation ∧
      (x.heap b).chunks.length = (s.heap b).chunks.length ∧ (x.heap b).mode = (s.heap b).mode) :
    Outside t s (x.goto t q) := by
  refine ⟨e1, e2, e3, e4, e5, e6, e7, e8, e9, e10, e11, e12, ?_, e14, e15,
    by rw [hp]; exact h1, by rw [goto_pc]; exact h2, fun b => (e16 b).1, fun b => (e16 b).2.1,
    fun b => (e16 b).2.2⟩
  intro u hu; simp [St.goto, setf, hu, e13]

/-- What every buffer operation keeps. -/
def SameShape (x y : Buffer ε) : Prop :=
  x.generation = y.generation ∧ x.chunks.length = y.chunks.length ∧ x.mode = y.mode

theorem SameShape.refl (x : Buffer ε) : SameShape x x := ⟨rfl, rfl, rfl⟩

theorem SameShape.returnChunk (x : Buffer ε) (i : Nat) : SameShape (x.returnChunk i) x := by
  unfold Buffer.returnChunk
  split
  · exact ⟨rfl, rfl, rfl⟩
  · exact ⟨rfl, rfl, rfl⟩

theorem SameShape.ringClaim (x : Buffer ε) (n : Nat) : SameShape (x.ringClaim n).1 x := by
  unfold Buffer.ringClaim
  dsimp only
  split
  · exact ⟨rfl, rfl, rfl⟩
  · exact ⟨rfl, by simp [Buffer.ringLoan, Buffer.resetAt], rfl⟩

theorem SameShape.getChunkFixed (x : Buffer ε) (n : Nat) : SameShape (x.getChunkFixed n).1 x := by
  unfold Buffer.getChunkFixed
  dsimp only
  split
  · exact ⟨rfl, rfl, rfl⟩
  · exact ⟨rfl, by simp [Buffer.resetAt], rfl⟩

theorem SameShape.ringTake {x x' : Buffer ε} {n i : Nat} (h : x.ringTake n = some (x', i)) :
    SameShape x' x := by
  unfold Buffer.ringTake at h
  split at h
  · cases h
  · cases h
    exact ⟨rfl, by simp [Buffer.ringLoan, Buffer.resetAt], rfl⟩

theorem SameShape.pushAt (x : Buffer ε) (i : Nat) (e : ε) : SameShape (x.pushAt i e).1 x := by
  unfold Buffer.pushAt
  split
  · exact ⟨rfl, by simp, rfl⟩
  · exact ⟨rfl, rfl, rfl⟩

theorem SameShape.setf {h : Nat → Buffer ε} {p : Nat} {x : Buffer ε} (hx : SameShape x (h p)) (b : Nat) :
    SameShape (setf h p x b) (h b) := by
  simp only [Phosphor.setf]
  split
  · subst_vars; exact hx
  · exact SameShape.refl _

/-- A step of `logEvent` is outside the mutex, or takes it, or uses it. -/
theorem logStep_cases {sp : Bool} (hs : s.logStep tid t sp = .to s') :
    s' = s ∨ Outside t s s' ∨
    (∃ f g, s.pc t = .tryMutex f g ∧ s.owner = none ∧ s' = { s with owner := some t }.goto t (.compare f g)) ∨
    (∃ f g, s.pc t = .compare f g ∧ (s.generation ≠ g ∨ s.enabled = false) ∧ s' = s.goto t .release) ∨
    (∃ f g, s.pc t = .compare f g ∧ s.generation = g ∧ s.enabled = true ∧
      s' = s.beginStop t false (some f) []) := by
  have tenLock : ∀ l u, u ≠ t → (s.setLock t l).tenant u = s.tenant u := by
    intro l u hu; simp [St.setLock, setf, hu]
  have tenChunk : ∀ (x : St ε) c u, u ≠ t → (x.setChunk t c).tenant u = x.tenant u := by
    intro x c u hu; simp [St.setChunk, setf, hu]
  unfold St.logStep at hs
  split at hs
  case h_1 e hp =>
    cases hs; right; left
    split <;> exact .goto hp rfl rfl
  case h_2 e hp =>
    split at hs
    · cases hs; right; left
      exact .mk' hp rfl rfl rfl rfl rfl rfl rfl rfl rfl rfl rfl rfl rfl rfl rfl (tenLock _)
        (by simp [St.setLock]) (fun _ => ⟨rfl, rfl, rfl⟩)
    · cases hs; right; left; exact .goto hp rfl rfl
    · cases hs; left; rfl
  case h_3 e hp => cases hs; right; left; split <;> exact .goto hp rfl rfl
  case h_4 e hp =>
    split at hs
    · cases hs; right; left; exact .goto hp rfl rfl
    · split at hs
      · split at hs
        · cases hs; right; left; split <;> exact .goto hp rfl rfl
        · cases hs
      · cases hs
  case h_5 e hp =>
    split at hs
    · cases hs; right; left; split <;> exact .goto hp rfl rfl
    · cases hs; right; left; exact .goto hp rfl rfl
  case h_6 e hp =>
    split at hs
    · cases hs
    · cases hs; right; left; exact .goto hp rfl rfl
  case h_7 e p hp =>
    split at hs
    · cases hs
    · split at hs
      · cases hs; right; left
        exact .mk' hp rfl rfl rfl rfl rfl rfl rfl rfl rfl rfl rfl rfl rfl rfl rfl
          (fun u hu => tenChunk _ _ u hu) (by simp [St.setChunk, St.setBuf])
          (fun b => SameShape.setf (SameShape.returnChunk _ _) b)
      · cases hs
  case h_8 e hp => cases hs; right; left; split <;> exact .goto hp rfl rfl
  case h_9 e hp => cases hs; right; left; split <;> exact .goto hp rfl rfl
  case h_10 e hp =>
    split at hs
    · cases hs
    · cases hs; right; left; exact .goto hp rfl rfl
  case h_11 e p hp =>
    split at hs
    · split at hs
      · split at hs
        · rename_i x i hx
          cases hs; right; left
          have := SameShape.ringClaim (s.heap p) (tid t)
          rw [hx] at this
          exact .mk' hp rfl rfl rfl rfl rfl rfl rfl rfl rfl rfl rfl rfl rfl rfl rfl
            (fun u hu => tenChunk _ _ u hu) (by simp [St.setChunk, St.setBuf, St.loaned])
            (fun b => SameShape.setf this b)
        · rename_i x hx
          cases hs; right; left
          have := SameShape.ringClaim (s.heap p) (tid t)
          rw [hx] at this
          exact .mk' hp rfl rfl rfl rfl rfl rfl rfl rfl rfl rfl rfl rfl rfl rfl rfl
            (fun u hu => rfl) rfl (fun b => SameShape.setf this b)
      · split at hs
        · rename_i x i hx
          cases hs; right; left
          have := SameShape.getChunkFixed (s.heap p) (tid t)
          rw [hx] at this
          exact .mk' hp rfl rfl rfl rfl rfl rfl rfl rfl rfl rfl rfl rfl rfl rfl rfl
            (fun u hu => tenChunk _ _ u hu) (by simp [St.setChunk, St.setBuf, St.loaned])
            (fun b => SameShape.setf this b)
        · rename_i x r _ hx
          cases hs; right; left
          have := SameShape.getChunkFixed (s.heap p) (tid t)
          rw [hx] at this
          exact .mk' hp rfl rfl rfl rfl rfl rfl rfl rfl rfl rfl rfl rfl rfl rfl rfl
            (fun u hu => rfl) rfl (fun b => SameShape.setf this b)
    · cases hs
  case h_12 e p hp =>
    split at hs
    · split at hs
      · rename_i x i hx
        cases hs; right; left
        exact .mk' hp rfl rfl rfl rfl rfl rfl rfl rfl rfl rfl rfl rfl rfl rfl rfl
          (fun u hu => tenChunk _ _ u hu) (by simp [St.setChunk, St.setBuf, St.loaned])
          (fun b => SameShape.setf (SameShape.ringTake hx) b)
      · cases hs; left; rfl
    · cases hs
  case h_13 f hp => cases hs; right; left; exact .goto hp rfl rfl
  case h_14 f g hp =>
    cases hs; right; left
    exact .mk' hp rfl rfl rfl rfl rfl rfl rfl rfl rfl rfl rfl rfl rfl rfl rfl (tenLock _)
      (by simp [St.setLock]) (fun _ => ⟨rfl, rfl, rfl⟩)
  case h_15 f g hp =>
    split at hs
    · rename_i ho; cases hs; right; right; left; exact ⟨f, g, hp, ho.1, rfl⟩
    · cases hs; right; left; exact .goto hp rfl rfl
  case h_16 f g hp =>
    split at hs
    · rename_i hg; cases hs; right; right; right; left; exact ⟨f, g, hp, Or.inl hg, rfl⟩
    · rename_i hg
      split at hs
      · rename_i he; cases hs; right; right; right; right
        exact ⟨f, g, hp, by simpa using hg, he, rfl⟩
      · rename_i he; cases hs; right; right; right; left
        exact ⟨f, g, hp, Or.inr (by simpa using he), rfl⟩
  case h_17 e hp =>
    split at hs
    · cases hs
    · rename_i b i hc
      split at hs
      · split at hs
        · rename_i x hx
          cases hs; right; left
          have := SameShape.pushAt (s.heap b) i e
          rw [hx] at this
          exact .mk' hp rfl rfl rfl rfl rfl rfl rfl rfl rfl rfl rfl rfl rfl rfl rfl
            (fun u hu => rfl) rfl (fun b => SameShape.setf this b)
        · cases hs
      · cases hs
  case h_18 hp =>
    cases hs; right; left
    exact .mk' hp rfl rfl rfl rfl rfl rfl rfl rfl rfl rfl rfl rfl rfl rfl rfl (tenLock _)
      (by simp [St.setLock]) (fun _ => ⟨rfl, rfl, rfl⟩)
  case h_19 => cases hs

/-- The thread is between a stop and its decision about the callback. -/
def Pc.stopPhase : Pc ε → Option Bool
  | .held (.evict _ sh) _ | .held (.evictClear _ _ sh) _ | .held (.evictUnlock _ _ sh) _ => some sh
  | _ => none

def St.phase (s : St ε) : Option Bool :=
  match s.owner with
  | none => none
  | some o => (s.pc o).stopPhase

def St.creating (s : St ε) : Bool :=
  match s.owner with
  | none => false
  | some o => (s.pc o).isEnable

/-- The state is what the history says. -/
structure Hist (s : St ε) : Prop where
  own : ∀ u, s.owner = some u ↔ (s.pc u).holdsMutex = true
  ok : HistOk s.hist
  en : s.enabled = on s.hist
  cfg : s.config = configOf s.hist
  reg : ∀ u, (s.tenant u).initialised = isReg u s.hist
  stop : stopping s.hist = s.phase
  buf : s.buffer = if s.creating then some (s.nextBuf - 1) else available s.hist

theorem Hist.init : Hist (St.init : St ε) := by
  constructor <;> simp [St.init, Pc.holdsMutex, HistOk, on, configOf, isReg, stopping, St.phase,
    available, St.creating]

theorem Pc.stopPhase_holds {p : Pc ε} (h : p.holdsMutex = false) : p.stopPhase = none ∧ p.isEnable = false := by
  unfold Pc.holdsMutex at h; split at h <;> simp_all [stopPhase, isEnable]

theorem Hist.outside (h : Hist s) (ho : Outside t s s') : Hist s' := by
  have hown : s.owner ≠ some t := fun e => by
    have := (h.own t).1 e; rw [ho.before] at this; cases this
  have hpc : ∀ o, s.owner = some o → s'.pc o = s.pc o := fun o e =>
    ho.pc o (fun e' => hown (e' ▸ e))
  refine ⟨?_, ho.hist ▸ h.ok, by rw [ho.enabled, ho.hist]; exact h.en,
    by rw [ho.config, ho.hist]; exact h.cfg, ?_, ?_, ?_⟩
  · intro u
    rw [ho.owner]
    by_cases hu : u = t
    · subst hu; rw [ho.after]; simpa using hown
    · rw [ho.pc u hu]; exact h.own u
  · intro u
    rw [ho.hist, ← h.reg]
    by_cases hu : u = t
    · subst hu; exact ho.init
    · rw [ho.tenant u hu]
  · rw [ho.hist, h.stop]
    unfold St.phase
    rw [ho.owner]
    split
    · rfl
    · rw [hpc _ (by assumption)]
  · rw [ho.hist, ho.buffer, ho.nextBuf, h.buf]
    congr 1
    unfold St.creating
    rw [ho.owner]
    split
    · rfl
    · rw [hpc _ (by assumption)]

/-- A step of the thread that holds, takes or releases the mutex. -/
theorem Hist.move (h : Hist s) {q : Pc ε} (hpc : ∀ u, u ≠ t → s'.pc u = s.pc u) (hq : s'.pc t = q)
    (ho : s.owner = none ∨ s.owner = some t)
    (ho' : s'.owner = if q.holdsMutex then some t else none)
    (hok : HistOk s'.hist) (hen : s'.enabled = on s'.hist) (hcfg : s'.config = configOf s'.hist)
    (hreg : ∀ u, (s'.tenant u).initialised = isReg u s'.hist)
    (hst : stopping s'.hist = q.stopPhase)
    (hbuf : s'.buffer = if q.isEnable then some (s'.nextBuf - 1) else available s'.hist) : Hist s' := by
  refine ⟨?_, hok, hen, hcfg, hreg, ?_, ?_⟩
  · intro u
    by_cases hu : u = t
    · subst hu; rw [ho', hq]; cases q.holdsMutex <;> simp
    · rw [hpc u hu, ho', ← h.own u]
      rcases ho with e | e <;> rw [e] <;> cases q.holdsMutex <;> simp [Ne.symm hu]
  · rw [hst, St.phase, ho']
    cases hm : q.holdsMutex
    · simp [Pc.stopPhase_holds hm]
    · simp [hq]
  · rw [hbuf, St.creating, ho']
    cases hm : q.holdsMutex
    · simp [Pc.stopPhase_holds hm]
    · simp [hq]

/-- `Hist.move` when nothing is added to the history. -/
theorem Hist.quiet (h : Hist s) {q : Pc ε} (hpc : ∀ u, u ≠ t → s'.pc u = s.pc u) (hq : s'.pc t = q)
    (ho : s.owner = none ∨ s.owner = some t)
    (ho' : s'.owner = if q.holdsMutex then some t else none)
    (hh : s'.hist = s.hist) (hen : s'.enabled = s.enabled) (hcfg : s'.config = s.config)
    (hreg : ∀ u, (s'.tenant u).initialised = (s.tenant u).initialised)
    (hst : s.phase = q.stopPhase)
    (hbuf : s'.buffer = if q.isEnable then some (s'.nextBuf - 1) else available s.hist) : Hist s' :=
  h.move hpc hq ho ho' (hh ▸ h.ok) (by rw [hen, hh, h.en]) (by rw [hcfg, hh, h.cfg])
    (fun u => by rw [hreg, hh, h.reg]) (by rw [hh, h.stop, hst]) (by rw [hh]; exact hbuf)

theorem Hist.owns (h : Hist s) {p : Pc ε} (hp : s.pc t = p) (hm : p.holdsMutex = true) :
    s.owner = some t ∧ s.phase = p.stopPhase ∧ s.creating = p.isEnable := by
  have : s.owner = some t := (h.own t).2 (by rw [hp]; exact hm)
  simp [this, St.phase, St.creating, hp]

theorem goto_other (s : St ε) (t : Nat) (p : Pc ε) (u : Nat) (hu : u ≠ t) : (s.goto t p).pc u = s.pc u := by
  simp [St.goto, setf, hu]

theorem Hist.beginStop (h : Hist s) {p : Pc ε} (hp : s.pc t = p) (hm : p.holdsMutex = true)
    (h0 : p.stopPhase = none) (h1 : p.isEnable = false) (he : s.enabled = true) {sh : Bool}
    {full : Option (Option Nat)} {st : List Frame} : Hist (s.beginStop t sh full st) := by
  obtain ⟨ho, hf, hc⟩ := h.owns hp hm
  refine h.move (goto_other _ t _) (goto_pc _ t _) (Or.inr ho) ho ?_ rfl ?_ ?_ rfl ?_
  · exact ⟨⟨by rw [h.stop, hf, h0], by rw [← h.en, he]⟩, h.ok⟩
  · exact h.cfg
  · exact h.reg
  · have := h.buf; rw [hc, h1] at this; exact this

/-- `goto` of the owner between points that are neither in a stop nor in a start. -/
theorem Hist.goto (h : Hist s) {p q : Pc ε} (hp : s.pc t = p) (hm : p.holdsMutex = true)
    (hm' : q.holdsMutex = true) (h0 : p.stopPhase = q.stopPhase) (h1 : p.isEnable = false)
    (h2 : q.isEnable = false) : Hist (s.goto t q) := by
  obtain ⟨ho, hf, hc⟩ := h.owns hp hm
  refine h.quiet (goto_other _ t _) (goto_pc _ t _) (Or.inr ho) (by rw [hm']; exact ho) rfl rfl rfl
    (fun _ => rfl) (by rw [hf, h0]) ?_
  have := h.buf
  rw [hc, h1] at this
  rw [h2]
  exact this

theorem Hist.take (h : Hist s) {q : Pc ε} (ho : s.owner = none) (hm : q.holdsMutex = true)
    (h0 : q.stopPhase = none) (h1 : q.isEnable = false) :
    Hist ({ s with owner := some t }.goto t q) := by
  refine h.quiet (goto_other _ t _) (goto_pc _ t _) (Or.inl ho) (by rw [hm]; rfl) rfl rfl rfl
    (fun _ => rfl) (by rw [h0]; simp [St.phase, ho]) ?_
  have := h.buf
  simp only [St.creating, ho] at this
  rw [h1]
  exact this

theorem Hist.logStep (h : Hist s) {sp : Bool} (hs : s.logStep tid t sp = .to s') : Hist s' := by
  rcases logStep_cases hs with e | e | ⟨f, g, hp, ho, e⟩ | ⟨f, g, hp, _, e⟩ | ⟨f, g, hp, _, he, e⟩
  · exact e ▸ h
  · exact h.outside e
  · rw [e]; exact h.take ho rfl rfl rfl
  · rw [e]; exact h.goto hp rfl rfl rfl rfl rfl
  · rw [e]; exact h.beginStop hp rfl rfl rfl he

/-- Where `pop` and `unwind` go. -/
def Pc.calm (q : Pc ε) : Prop := q.holdsMutex = true ∧ q.stopPhase = none ∧ q.isEnable = false

theorem pop_goto (s : St ε) (t : Nat) (st : List Frame) : ∃ q : Pc ε, q.calm ∧ s.pop t st = s.goto t q := by
  match st with
  | [] => exact ⟨.release, ⟨rfl, rfl, rfl⟩, rfl⟩
  | .resumeUser :: st => exact ⟨_, ⟨rfl, rfl, rfl⟩, rfl⟩
  | .finishStart n :: st => exact ⟨_, ⟨rfl, rfl, rfl⟩, rfl⟩

theorem unwind_goto (s : St ε) (t : Nat) (st : List Frame) :
    ∃ q : Pc ε, q.calm ∧ s.unwind t st = s.goto t q := by
  rw [unwind_eq]
  split
  · exact ⟨_, ⟨rfl, rfl, rfl⟩, rfl⟩
  · exact ⟨_, ⟨rfl, rfl, rfl⟩, rfl⟩

theorem callbackDue_some {cfg : TraceConfig} {sh : Bool} {cb : Callback}
    (h : callbackDue cfg sh = some cb) : CallDue cfg sh cb := by
  unfold callbackDue at h
  split at h
  · cases h
  · rename_i hc
    split at h
    · rename_i hs
      cases h
      exact ⟨hc, by simpa using hs⟩
    · cases h

theorem callbackDue_none {cfg : TraceConfig} {sh : Bool} (h : callbackDue cfg sh = none) (cb : Callback) :
    ¬ CallDue cfg sh cb := by
  rintro ⟨h1, h2⟩
  unfold callbackDue at h
  rw [h1] at h
  simp only at h
  split at h
  · cases h
  · rename_i hs; exact hs (by simpa using h2)

/-- An item is added by the owner, and nothing else changes but its program counter. -/
theorem Hist.item (h : Hist s) {p q : Pc ε} (hp : s.pc t = p) (hm : p.holdsMutex = true)
    (hm' : q.calm) (h1 : p.isEnable = false) {i : Item} (hi : ItemOk i s.hist)
    (e1 : on (i :: s.hist) = on s.hist) (e2 : configOf (i :: s.hist) = configOf s.hist)
    (e3 : ∀ u, isReg u (i :: s.hist) = isReg u s.hist) (e4 : stopping (i :: s.hist) = none)
    (e5 : available (i :: s.hist) = available s.hist) :
    Hist ({ s with hist := i :: s.hist }.goto t q) := by
  obtain ⟨ho, hf, hc⟩ := h.owns hp hm
  refine h.move (goto_other _ t _) (goto_pc _ t _) (Or.inr ho) (by rw [hm'.1]; exact ho) ⟨hi, h.ok⟩
    (h.en.trans e1.symm) (h.cfg.trans e2.symm) (fun u => (h.reg u).trans (e3 u).symm)
    (by rw [hm'.2.1]; exact e4) ?_
  have := h.buf
  rw [hc, h1] at this
  rw [hm'.2.2]
  exact this.trans e5.symm

theorem goto_self {p : Pc ε} (hp : s.pc t = p) : s.goto t p = s := by
  have : setf s.pc t p = s.pc := by
    funext u; by_cases hu : u = t
    · subst hu; simp [hp]
    · simp [setf, hu]
  simp only [St.goto, this]

theorem Hist.registerBody (h : Hist s) {n : Str} (hp : s.pc t = .regBody n) :
    Hist ((s.registerBody tid t n).goto t .release) := by
  obtain ⟨ho, hf, hc⟩ := h.owns hp rfl
  have hs : stopping s.hist = none := by rw [h.stop, hf]; rfl
  have hb := h.buf
  rw [hc] at hb
  unfold St.registerBody
  split
  · rename_i hi
    exact h.item hp rfl ⟨rfl, rfl, rfl⟩ rfl ⟨hs, by rw [← h.reg, hi]⟩ rfl rfl (fun _ => rfl) rfl rfl
  · rename_i hi
    have hok : HistOk (.regOk t n :: s.hist) :=
      ⟨⟨hs, by rw [← h.reg]; simpa using hi⟩, h.ok⟩
    have hreg : ∀ u, (setf s.tenant t { s.tenant t with initialised := true } u).initialised =
        isReg u (.regOk t n :: s.hist) := by
      intro u
      by_cases hu : u = t
      · subst hu; simp [isReg]
      · simp [setf, hu, isReg, Ne.symm hu, h.reg]
    dsimp only
    split
    · exact h.move (goto_other _ t _) (goto_pc _ t _) (Or.inr ho) ho hok h.en h.cfg hreg rfl hb
    · exact h.move (goto_other _ t _) (goto_pc _ t _) (Or.inr ho) ho hok h.en h.cfg hreg rfl hb

theorem Hist.deregisterBody (h : Hist s) (hp : s.pc t = .deregBody) {x : St ε}
    (hx : s.deregisterBody tid t = some x) : Hist (x.goto t .release) := by
  obtain ⟨ho, hf, hc⟩ := h.owns hp rfl
  have hs : stopping s.hist = none := by rw [h.stop, hf]; rfl
  have hb := h.buf
  rw [hc] at hb
  unfold St.deregisterBody at hx
  split at hx
  · rename_i hi
    have hok : HistOk (.deregOk t :: s.hist) := ⟨⟨hs, by rw [← h.reg]; exact hi⟩, h.ok⟩
    have hreg : ∀ u, (setf s.tenant t { s.tenant t with chunk := none, initialised := false } u).initialised =
        isReg u (.deregOk t :: s.hist) := by
      intro u
      by_cases hu : u = t
      · subst hu; simp [isReg]
      · simp [setf, hu, isReg, Ne.symm hu, h.reg]
    split at hx
    · cases hx
    · rename_i y hy
      have hsame : ∃ hp', y = { s with heap := hp' } := by
        unfold St.returnOwn at hy
        split at hy
        · cases hy; exact ⟨_, rfl⟩
        · split at hy
          · cases hy; exact ⟨_, rfl⟩
          · split at hy
            · cases hy; exact ⟨_, rfl⟩
            · cases hy
      obtain ⟨hp', rfl⟩ := hsame
      dsimp only at hx
      split at hx
      · cases hx
        exact h.move (goto_other _ t _) (goto_pc _ t _) (Or.inr ho) ho hok h.en h.cfg hreg rfl hb
      · cases hx
        exact h.move (goto_other _ t _) (goto_pc _ t _) (Or.inr ho) ho hok h.en h.cfg hreg rfl hb
  · rename_i hi
    cases hx
    exact h.item hp rfl ⟨rfl, rfl, rfl⟩ rfl ⟨hs, by rw [← h.reg]; simpa using hi⟩ rfl rfl (fun _ => rfl) rfl rfl

theorem Hist.heldStep (h : Hist s) {other : Bool} (hs : s.heldStep tid t other = .to s') : Hist s' := by
  unfold St.heldStep at hs
  split at hs
  case h_1 n hp => cases hs; exact h.registerBody hp
  case h_2 hp =>
    split at hs
    · cases hs; exact h.deregisterBody hp (by assumption)
    · cases hs
  case h_3 hp =>
    cases hs
    obtain ⟨ho, hf, hc⟩ := h.owns hp rfl
    have hb := h.buf
    rw [hc] at hb
    exact h.quiet (goto_other _ t _) (goto_pc _ t _) (Or.inr ho) rfl rfl rfl rfl (fun _ => rfl) hf hb
  case h_4 sh st hp =>
    obtain ⟨ho, hf, hc⟩ := h.owns hp rfl
    have hst : stopping s.hist = some sh := by rw [h.stop, hf]; rfl
    split at hs
    · rename_i cb hd
      cases hs
      exact h.item hp rfl ⟨rfl, rfl, rfl⟩ rfl ⟨sh, hst, h.cfg ▸ callbackDue_some hd⟩ rfl rfl (fun _ => rfl) rfl rfl
    · rename_i hd
      cases hs
      obtain ⟨q, hq, e⟩ := pop_goto { s with hist := .noCall :: s.hist } t st
      rw [e]
      exact h.item hp rfl hq rfl ⟨sh, hst, h.cfg ▸ callbackDue_none hd⟩ rfl rfl (fun _ => rfl) rfl rfl
  case h_5 u rest sh st hp =>
    split at hs
    · cases hs; exact h.goto hp rfl rfl rfl rfl rfl
    · split at hs
      · rename_i l hl
        cases hs
        obtain ⟨ho, hf, hc⟩ := h.owns hp rfl
        have hb := h.buf
        rw [hc] at hb
        refine h.quiet (goto_other _ t _) (goto_pc _ t _) (Or.inr ho) ho rfl rfl rfl (fun v => ?_) hf hb
        by_cases hv : v = u
        · subst hv; simp [St.goto, St.setLock]
        · simp [St.goto, St.setLock, setf, hv]
      · cases hs; exact h
  case h_6 u rest sh st hp =>
    cases hs
    obtain ⟨ho, hf, hc⟩ := h.owns hp rfl
    have hb := h.buf
    rw [hc] at hb
    refine h.quiet (goto_other _ t _) (goto_pc _ t _) (Or.inr ho) ho rfl rfl rfl (fun v => ?_) hf hb
    by_cases hv : v = u
    · subst hv; simp [St.goto, St.setChunk]
    · simp [St.goto, St.setChunk, setf, hv]
  case h_7 u rest sh st hp =>
    cases hs
    obtain ⟨ho, hf, hc⟩ := h.owns hp rfl
    have hb := h.buf
    rw [hc] at hb
    refine h.quiet (goto_other _ t _) (goto_pc _ t _) (Or.inr ho) ho rfl rfl rfl (fun v => ?_) hf hb
    by_cases hv : v = u
    · subst hv; simp [St.goto, St.setLock]
    · simp [St.goto, St.setLock, setf, hv]
  case h_8 n st hp =>
    cases hs
    obtain ⟨ho, hf, hc⟩ := h.owns hp rfl
    exact h.quiet (goto_other _ t _) (goto_pc _ t _) (Or.inr ho) ho rfl rfl rfl (fun _ => rfl) hf rfl
  case h_9 st hp =>
    cases hs
    obtain ⟨ho, hf, hc⟩ := h.owns hp rfl
    have hb := h.buf
    rw [hc] at hb
    obtain ⟨q, hq, e⟩ := pop_goto s.enable t st
    rw [e]
    refine h.move (goto_other _ t _) (goto_pc _ t _) (Or.inr ho) (by rw [hq.1]; exact ho)
      ⟨⟨by rw [h.stop, hf]; rfl, h.cfg⟩, h.ok⟩ rfl h.cfg h.reg (by rw [hq.2.1]; rfl) (by rw [hq.2.2]; exact hb)
  case h_10 => cases hs

theorem Hist.step (h : Hist s) {sp : Bool} (hs : (match s.logStep tid t sp with
    | .blocked => s.heldStep tid t sp
    | o => o) = .to s') : Hist s' := by
  split at hs
  · exact h.heldStep hs
  · exact h.logStep hs

theorem Hist.next (h : Hist s) {pol : Bool} {c : Choice ε} (hs : s.next pol tid t c = .to s') : Hist s' := by
  unfold St.next at hs
  cases c with
  | step => exact h.step hs
  | spurious => exact h.step hs
  | log e =>
    dsimp only at hs
    split at hs
    · rename_i hi
      cases hs
      exact h.outside (.goto (isIdle_iff.1 hi) rfl rfl)
    · cases hs
  | lock =>
    dsimp only at hs
    split at hs
    · rename_i hi; cases hs; exact h.take hi.2 rfl rfl rfl
    · cases hs
  | register n =>
    dsimp only at hs
    split at hs
    · rename_i hi; cases hs; exact h.take hi.2 rfl rfl rfl
    · cases hs
  | deregister =>
    dsimp only at hs
    split at hs
    · rename_i hi; cases hs; exact h.take hi.2 rfl rfl rfl
    · cases hs
  | free b =>
    dsimp only at hs
    split at hs
    · cases hs; exact ⟨h.1, h.2, h.3, h.4, h.5, h.6, h.7⟩
    · cases hs
  | start cfg =>
    dsimp only at hs
    split at hs
    · rename_i st hp
      obtain ⟨ho, hf, hc⟩ := h.owns hp rfl
      have hst : stopping s.hist = none := by rw [h.stop, hf]; rfl
      have hb := h.buf
      rw [hc] at hb
      split at hs
      · cases hs
      · split at hs
        · have h' : Hist { s with config := cfg, hist := .configure cfg :: s.hist } :=
            h.move (s' := { s with config := cfg, hist := .configure cfg :: s.hist }) (fun _ _ => rfl) hp
              (Or.inr ho) ho ⟨hst, h.ok⟩ h.en rfl h.reg rfl hb
          split at hs
          · rename_i hz
            cases hs
            have := h'.item (i := .reject) (t := t) (q := .held .user st) hp rfl ⟨rfl, rfl, rfl⟩ rfl ⟨rfl, hz⟩ rfl rfl (fun _ => rfl) rfl rfl
            rwa [goto_self (by exact hp)] at this
          · split at hs
            · rename_i he; cases hs; exact h'.beginStop hp rfl rfl rfl he
            · cases hs; exact h'.goto hp rfl rfl rfl rfl rfl
        · cases hs
    · cases hs
  | stop sh =>
    dsimp only at hs
    split at hs
    · rename_i st hp
      split at hs
      · rename_i he; cases hs; exact h.beginStop hp rfl rfl rfl he
      · cases hs; exact h
    · cases hs
  | getBuffer =>
    dsimp only at hs
    split at hs
    · rename_i st hp
      obtain ⟨ho, hf, hc⟩ := h.owns hp rfl
      have hst : stopping s.hist = none := by rw [h.stop, hf]; rfl
      have hb := h.buf
      rw [hc] at hb
      split at hs
      · rename_i he
        cases hs
        have := h.item (i := .refuse) (t := t) (q := .held .user st) hp rfl ⟨rfl, rfl, rfl⟩ rfl ⟨hst, by rw [← h.en, he]⟩ rfl rfl (fun _ => rfl) rfl rfl
        rwa [goto_self (by exact hp)] at this
      · rename_i he
        cases hs
        exact h.move (fun _ _ => rfl) hp (Or.inr ho) ho ⟨⟨hst, by rw [← h.en]; simpa using he, hb⟩, h.ok⟩ h.en h.cfg h.reg rfl rfl
    · cases hs
  | getTraceContext =>
    dsimp only at hs
    split at hs
    · rename_i st hp
      obtain ⟨ho, hf, hc⟩ := h.owns hp rfl
      have hst : stopping s.hist = none := by rw [h.stop, hf]; rfl
      have hb := h.buf
      rw [hc] at hb
      split at hs
      · rename_i he
        cases hs
        have := h.item (i := .refuse) (t := t) (q := .held .user st) hp rfl ⟨rfl, rfl, rfl⟩ rfl ⟨hst, by rw [← h.en, he]⟩ rfl rfl (fun _ => rfl) rfl rfl
        rwa [goto_self (by exact hp)] at this
      · rename_i he
        cases hs
        exact h.move (fun _ _ => rfl) hp (Or.inr ho) ho ⟨⟨hst, by rw [← h.en]; simpa using he, hb⟩, h.ok⟩ h.en h.cfg h.reg rfl rfl
    · cases hs
  | ret =>
    dsimp only at hs
    split at hs
    · rename_i st hp
      cases hs
      obtain ⟨q, hq, e⟩ := pop_goto s t st
      rw [e]; exact h.goto hp rfl hq.1 hq.2.1.symm rfl hq.2.2
    · cases hs
  | throw =>
    dsimp only at hs
    split at hs
    · rename_i st hp
      cases hs
      obtain ⟨q, hq, e⟩ := unwind_goto s t st
      rw [e]; exact h.goto hp rfl hq.1 hq.2.1.symm rfl hq.2.2
    · cases hs

/-- In every reachable state, whatever the callbacks do, the state is what the history says and
the history is right. -/
theorem Reachable.hist {pol : Bool} (h : Reachable pol tid s) : Hist s := by
  induction h with
  | init => exact Hist.init
  | step _ hs ih => exact ih.next hs

end Phosphor.TLog
