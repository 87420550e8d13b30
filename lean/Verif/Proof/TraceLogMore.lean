import Verif.Proof.TraceLogKeep
import Verif.Proof.TraceLogHist
/-
Which buffers a step writes to; the runs of the history; names of threads.
-/
namespace Phosphor.TLog
variable {ε : Type} {tid : Nat → Nat} {s s' : St ε} {t : Nat}

/-- Everything of buffer `b` is the same. -/
structure SameBuf (b : Nat) (s s' : St ε) : Prop where
  heap : s'.heap b = s.heap b
  contents : s'.contents b = s.contents b
  stored : s'.stored b = s.stored b

theorem SameBuf.refl (b : Nat) (s : St ε) : SameBuf b s s := ⟨rfl, rfl, rfl⟩

theorem SameBuf.trans {b : Nat} {s1 s2 s3 : St ε} (h : SameBuf b s1 s2) (h' : SameBuf b s2 s3) :
    SameBuf b s1 s3 := ⟨h'.1.trans h.1, h'.2.trans h.2, h'.3.trans h.3⟩

/-- A step of `logEvent` writes only to a mapped buffer the thread has a pointer to. -/
theorem logStep_writes {sp : Bool} (hs : s.logStep tid t sp = .to s') (b : Nat)
    (hb : s.mapped b = false ∨
      ((s.pc t).bufPtr ≠ some b ∧ ∀ i, (s.tenant t).chunk ≠ some (b, i))) : SameBuf b s s' := by
  have hne : ∀ p, s.mapped p = true → (s.pc t).bufPtr = some p → b ≠ p := by
    rintro p hm hp rfl
    rcases hb with h | h
    · rw [hm] at h; cases h
    · exact h.1 hp
  have hne' : ∀ p i, s.mapped p = true → (s.tenant t).chunk = some (p, i) → b ≠ p := by
    rintro p i hm hp rfl
    rcases hb with h | h
    · rw [hm] at h; cases h
    · exact h.2 i hp
  unfold St.logStep at hs
  split at hs
  case h_1 => cases hs; exact ⟨rfl, rfl, rfl⟩
  case h_2 =>
    split at hs <;> cases hs <;> exact ⟨rfl, rfl, rfl⟩
  case h_3 => cases hs; exact ⟨rfl, rfl, rfl⟩
  case h_4 =>
    split at hs
    · cases hs; exact ⟨rfl, rfl, rfl⟩
    · split at hs
      · split at hs
        · cases hs; exact ⟨rfl, rfl, rfl⟩
        · cases hs
      · cases hs
  case h_5 => split at hs <;> cases hs <;> exact ⟨rfl, rfl, rfl⟩
  case h_6 =>
    split at hs
    · cases hs
    · cases hs; exact ⟨rfl, rfl, rfl⟩
  case h_7 e p hp =>
    split at hs
    · cases hs
    · split at hs
      · rename_i hm
        have := hne p hm.1 (by rw [hp]; rfl)
        cases hs; exact ⟨by simp [St.goto, St.setChunk, St.setBuf, setf, this], rfl, rfl⟩
      · cases hs
  case h_8 => cases hs; exact ⟨rfl, rfl, rfl⟩
  case h_9 => cases hs; exact ⟨rfl, rfl, rfl⟩
  case h_10 =>
    split at hs
    · cases hs
    · cases hs; exact ⟨rfl, rfl, rfl⟩
  case h_11 e p hp =>
    split at hs
    · rename_i hm
      have := hne p hm (by rw [hp]; rfl)
      split at hs <;> split at hs <;> cases hs <;>
        exact ⟨by simp [St.goto, St.setChunk, St.setBuf, St.loaned, setf, this],
          by simp [St.goto, St.setChunk, St.setBuf, St.loaned, setf, this],
          by simp [St.goto, St.setChunk, St.setBuf, St.loaned]⟩
    · cases hs
  case h_12 e p hp =>
    split at hs
    · rename_i hm
      have := hne p hm (by rw [hp]; rfl)
      split at hs
      · cases hs
        exact ⟨by simp [St.goto, St.setChunk, St.setBuf, St.loaned, setf, this],
          by simp [St.goto, St.setChunk, St.setBuf, St.loaned, setf, this],
          by simp [St.goto, St.setChunk, St.setBuf, St.loaned]⟩
      · cases hs; exact ⟨rfl, rfl, rfl⟩
    · cases hs
  case h_13 => cases hs; exact ⟨rfl, rfl, rfl⟩
  case h_14 => cases hs; exact ⟨rfl, rfl, rfl⟩
  case h_15 => split at hs <;> cases hs <;> exact ⟨rfl, rfl, rfl⟩
  case h_16 =>
    split at hs
    · cases hs; exact ⟨rfl, rfl, rfl⟩
    · split at hs <;> cases hs <;> exact ⟨rfl, rfl, rfl⟩
  case h_17 e hp =>
    split at hs
    · cases hs
    · rename_i p i hc
      split at hs
      · rename_i hm
        have := hne' p i hm hc
        split at hs
        · cases hs
          exact ⟨by simp [St.goto, St.setBuf, St.recorded, setf, this],
            by simp [St.goto, St.setBuf, St.recorded, setf, this],
            by simp [St.goto, St.setBuf, St.recorded, setf, this]⟩
        · cases hs
      · cases hs
  case h_18 => cases hs; exact ⟨rfl, rfl, rfl⟩
  case h_19 => cases hs

theorem pop_same (b : Nat) (s : St ε) (t : Nat) (st : List Frame) : SameBuf b s (s.pop t st) := by
  obtain ⟨q, _, e⟩ := pop_goto s t st
  rw [e]; exact ⟨rfl, rfl, rfl⟩

theorem unwind_same (b : Nat) (s : St ε) (t : Nat) (st : List Frame) : SameBuf b s (s.unwind t st) := by
  obtain ⟨q, _, e⟩ := unwind_goto s t st
  rw [e]; exact ⟨rfl, rfl, rfl⟩

/-- A step under the mutex writes only to the buffer of the log, or makes a new one. -/
theorem heldStep_writes {other : Bool} (hs : s.heldStep tid t other = .to s') (b : Nat)
    (hb : s.buffer ≠ some b) (hn : b ≠ s.nextBuf) : SameBuf b s s' := by
  unfold St.heldStep at hs
  split at hs
  case h_1 n hp =>
    cases hs
    unfold St.registerBody
    split
    · exact ⟨rfl, rfl, rfl⟩
    · dsimp only; split <;> exact ⟨rfl, rfl, rfl⟩
  case h_2 hp =>
    split at hs
    · rename_i x hx
      cases hs
      unfold St.deregisterBody at hx
      split at hx
      · split at hx
        · cases hx
        · rename_i y hy
          have : SameBuf b s y := by
            unfold St.returnOwn at hy
            split at hy
            · cases hy; exact .refl _ _
            · split at hy
              · cases hy; exact .refl _ _
              · rename_i p hp
                have : b ≠ p := fun e => hb (e ▸ hp)
                split at hy
                · cases hy; exact ⟨by simp [St.setBuf, setf, this], rfl, rfl⟩
                · cases hy
          dsimp only at hx
          split at hx <;> cases hx <;> exact ⟨this.1, this.2, this.3⟩
      · cases hx; exact ⟨rfl, rfl, rfl⟩
    · cases hs
  case h_3 => cases hs; exact ⟨rfl, rfl, rfl⟩
  case h_4 =>
    split at hs
    · cases hs; exact ⟨rfl, rfl, rfl⟩
    · cases hs
      exact SameBuf.trans (s2 := { s with hist := .noCall :: s.hist }) ⟨rfl, rfl, rfl⟩ (pop_same _ _ _ _)
  case h_5 =>
    split at hs
    · cases hs; exact ⟨rfl, rfl, rfl⟩
    · split at hs <;> cases hs <;> exact ⟨rfl, rfl, rfl⟩
  case h_6 => cases hs; exact ⟨rfl, rfl, rfl⟩
  case h_7 => cases hs; exact ⟨rfl, rfl, rfl⟩
  case h_8 =>
    cases hs
    exact ⟨by simp [St.goto, St.createBuffer, setf, hn], by simp [St.goto, St.createBuffer, setf, hn],
      by simp [St.goto, St.createBuffer, setf, hn]⟩
  case h_9 =>
    cases hs
    exact SameBuf.trans (s2 := s.enable) ⟨rfl, rfl, rfl⟩ (pop_same _ _ _ _)
  case h_10 => cases hs

/-- A step that is not undefined leaves alone every buffer that is neither the log's nor new. -/
theorem Ctl0.next_writes (h : Ctl0 s) {pol : Bool} {c : Choice ε} (hs : s.next pol tid t c = .to s') (b : Nat)
    (hb : s.buffer ≠ some b) (hn : b ≠ s.nextBuf) : SameBuf b s s' := by
  have hl : s.mapped b = false ∨
      ((s.pc t).bufPtr ≠ some b ∧ ∀ i, (s.tenant t).chunk ≠ some (b, i)) := by
    have hni : s.status b ≠ .inLog := fun e => hb ((h.status b).1 e)
    by_cases hh : s.status b = .handed
    · right
      refine ⟨fun e => ?_, fun i e => ?_⟩
      · rcases h.ptr t b e with h' | h' <;> rw [hh] at h' <;> cases h'
      · rcases h.chunk t b i e with h' | h' <;> rw [hh] at h' <;> cases h'
    · left; simp [St.mapped, hni, hh]
  have key : ∀ sp, (match s.logStep tid t sp with
      | .blocked => s.heldStep tid t sp
      | o => o) = .to s' → SameBuf b s s' := by
    intro sp hs
    split at hs
    · exact heldStep_writes hs b hb hn
    · exact logStep_writes hs b hl
  unfold St.next at hs
  cases c with
  | step => exact key false hs
  | spurious => exact key true hs
  | log e => dsimp only at hs; split at hs <;> cases hs; exact ⟨rfl, rfl, rfl⟩
  | lock => dsimp only at hs; split at hs <;> cases hs; exact ⟨rfl, rfl, rfl⟩
  | register n => dsimp only at hs; split at hs <;> cases hs; exact ⟨rfl, rfl, rfl⟩
  | deregister => dsimp only at hs; split at hs <;> cases hs; exact ⟨rfl, rfl, rfl⟩
  | free c => dsimp only at hs; split at hs <;> cases hs; exact ⟨rfl, rfl, rfl⟩
  | start cfg =>
    dsimp only at hs
    split at hs
    · split at hs
      · cases hs
      · split at hs
        · split at hs
          · cases hs; exact ⟨rfl, rfl, rfl⟩
          · split at hs <;> cases hs <;> exact ⟨rfl, rfl, rfl⟩
        · cases hs
    · cases hs
  | stop sh =>
    dsimp only at hs
    split at hs
    · split at hs <;> cases hs <;> exact ⟨rfl, rfl, rfl⟩
    · cases hs
  | getBuffer =>
    dsimp only at hs
    split at hs
    · split at hs <;> cases hs <;> exact ⟨rfl, rfl, rfl⟩
    · cases hs
  | getTraceContext =>
    dsimp only at hs
    split at hs
    · split at hs <;> cases hs <;> exact ⟨rfl, rfl, rfl⟩
    · cases hs
  | ret =>
    dsimp only at hs
    split at hs
    · cases hs; exact pop_same _ _ _ _
    · cases hs
  | throw =>
    dsimp only at hs
    split at hs
    · cases hs; exact unwind_same _ _ _ _
    · cases hs

/-- Items that are neither the beginning of a run, a retrieval nor a (de)registration. -/
def Item.plain : Item → Bool
  | .run _ _ | .retrieve _ | .regOk _ _ | .deregOk _ => false
  | _ => true

/-- What a step does to buffers, names and history. -/
inductive Book (tid : Nat → Nat) (t : Nat) (s s' : St ε) : Prop
  | calm (new : List Item) (hn : s'.nextBuf = s.nextBuf) (ha : s'.names = s.names) (hd : s'.dereg = s.dereg)
      (hb : s'.buffer = s.buffer) (hs : s'.status = s.status) (hh : s'.hist = new ++ s.hist)
      (hp : ∀ i ∈ new, i.plain = true) (hc : s'.contexts = s.contexts) (hr : s'.registered = s.registered)
      (hk : ∀ u, (s'.pc u).isEnable = true → (s.pc u).isEnable = true)
  | free (b : Nat) (hb : s.status b = .handed) (e : s' = { s with status := setf s.status b .freed })
  | retrieve (cs : List (Option Nat × (Nat → Option Str))) (st : List Frame) (hp : s.pc t = .held .user st)
      (he : s.enabled = false) (e : s' = { s.retrieve with contexts := cs })
      (hc : cs = s.contexts ∨ cs = (s.buffer, s.names) :: s.contexts)
  | create (n : Nat) (st : List Frame) (hp : s.pc t = .held (.startCreate n) st)
      (e : s' = (s.createBuffer n).goto t (.held .startEnable st))
  | enable (st : List Frame) (hp : s.pc t = .held .startEnable st) (e : s' = s.enable.pop t st)
  | reg (n : Str) (hp : s.pc t = .regBody n) (hi : (s.tenant t).initialised = false)
      (e : s' = (s.registerBody tid t n).goto t .release)
  | dereg (x : St ε) (hp : s.pc t = .deregBody) (hi : (s.tenant t).initialised = true)
      (hx : s.deregisterBody tid t = some x) (e : s' = x.goto t .release)

theorem enable_goto {x : St ε} {q : Pc ε} (hq : q.isEnable = false) (hx : x.pc = s.pc) (u : Nat)
    (h : ((x.goto t q).pc u).isEnable = true) : (s.pc u).isEnable = true := by
  simp only [St.goto, setf, hx] at h
  split at h
  · rw [hq] at h; cases h
  · exact h

theorem Book.none (hn : s'.nextBuf = s.nextBuf) (ha : s'.names = s.names) (hd : s'.dereg = s.dereg)
    (hb : s'.buffer = s.buffer) (hs : s'.status = s.status) (hh : s'.hist = s.hist)
    (hc : s'.contexts = s.contexts) (hr : s'.registered = s.registered) (hk : ∀ u, (s'.pc u).isEnable = true → (s.pc u).isEnable = true) :
    Book tid t s s' :=
  .calm [] hn ha hd hb hs hh (by simp) hc hr hk

theorem Book.one (i : Item) (hp : i.plain = true) (hn : s'.nextBuf = s.nextBuf) (ha : s'.names = s.names)
    (hd : s'.dereg = s.dereg) (hb : s'.buffer = s.buffer) (hs : s'.status = s.status)
    (hh : s'.hist = i :: s.hist) (hc : s'.contexts = s.contexts) (hr : s'.registered = s.registered)
    (hk : ∀ u, (s'.pc u).isEnable = true → (s.pc u).isEnable = true) : Book tid t s s' :=
  .calm [i] hn ha hd hb hs hh (by simpa using hp) hc hr hk

theorem logStep_book {sp : Bool} (hs : s.logStep tid t sp = .to s') : Book tid t s s' := by
  rcases logStep_cases hs with e | e | ⟨f, g, hp, ho, e⟩ | ⟨f, g, hp, _, e⟩ | ⟨f, g, hp, _, he, e⟩
  · rw [e]; exact .none rfl rfl rfl rfl rfl rfl rfl rfl (fun _ h => h)
  · refine .none e.nextBuf e.names e.dereg e.buffer e.status e.hist e.contexts e.registered (fun u hu => ?_)
    by_cases hut : u = t
    · subst hut; rw [(Pc.stopPhase_holds e.after).2] at hu; cases hu
    · rw [e.pc u hut] at hu; exact hu
  · rw [e]; exact .none rfl rfl rfl rfl rfl rfl rfl rfl (enable_goto rfl rfl)
  · rw [e]; exact .none rfl rfl rfl rfl rfl rfl rfl rfl (enable_goto rfl rfl)
  · rw [e]; exact .one _ rfl rfl rfl rfl rfl rfl rfl rfl rfl (enable_goto rfl rfl)

theorem heldStep_book {other : Bool} (hs : s.heldStep tid t other = .to s') : Book tid t s s' := by
  unfold St.heldStep at hs
  split at hs
  case h_1 n hp =>
    cases hs
    cases hi : (s.tenant t).initialised
    · exact .reg n hp hi rfl
    · simp only [St.registerBody, hi, if_true]
      exact .one (.regRefused t) rfl rfl rfl rfl rfl rfl rfl rfl rfl (enable_goto rfl rfl)
  case h_2 hp =>
    split at hs
    · rename_i x hx
      cases hs
      cases hi : (s.tenant t).initialised
      · simp only [St.deregisterBody, hi] at hx
        cases hx
        exact .one (.deregRefused t) rfl rfl rfl rfl rfl rfl rfl rfl rfl (enable_goto rfl rfl)
      · exact .dereg x hp hi hx rfl
    · cases hs
  case h_3 => cases hs; exact .none rfl rfl rfl rfl rfl rfl rfl rfl (enable_goto rfl rfl)
  case h_4 sh st hp =>
    split at hs
    · cases hs; exact .one _ rfl rfl rfl rfl rfl rfl rfl rfl rfl (enable_goto rfl rfl)
    · cases hs
      obtain ⟨q, hq, e⟩ := pop_goto { s with hist := .noCall :: s.hist } t st
      rw [e]
      exact .one .noCall rfl rfl rfl rfl rfl rfl rfl rfl rfl (enable_goto hq.2.2 rfl)
  case h_5 =>
    split at hs
    · cases hs; exact .none rfl rfl rfl rfl rfl rfl rfl rfl (enable_goto rfl rfl)
    · split at hs
      · cases hs; exact .none rfl rfl rfl rfl rfl rfl rfl rfl (enable_goto rfl rfl)
      · cases hs; exact .none rfl rfl rfl rfl rfl rfl rfl rfl (fun _ h => h)
  case h_6 => cases hs; exact .none rfl rfl rfl rfl rfl rfl rfl rfl (enable_goto rfl rfl)
  case h_7 => cases hs; exact .none rfl rfl rfl rfl rfl rfl rfl rfl (enable_goto rfl rfl)
  case h_8 n st hp => cases hs; exact .create n st hp rfl
  case h_9 st hp => cases hs; exact .enable st hp rfl
  case h_10 => cases hs

theorem next_book {pol : Bool} {c : Choice ε} (hs : s.next pol tid t c = .to s') : Book tid t s s' := by
  have key : ∀ sp, (match s.logStep tid t sp with
      | .blocked => s.heldStep tid t sp
      | o => o) = .to s' → Book tid t s s' := by
    intro sp hs
    split at hs
    · exact heldStep_book hs
    · exact logStep_book hs
  unfold St.next at hs
  cases c with
  | step => exact key false hs
  | spurious => exact key true hs
  | log e => dsimp only at hs; split at hs <;> cases hs; exact .none rfl rfl rfl rfl rfl rfl rfl rfl (enable_goto rfl rfl)
  | lock => dsimp only at hs; split at hs <;> cases hs; exact .none rfl rfl rfl rfl rfl rfl rfl rfl (enable_goto rfl rfl)
  | register n => dsimp only at hs; split at hs <;> cases hs; exact .none rfl rfl rfl rfl rfl rfl rfl rfl (enable_goto rfl rfl)
  | deregister => dsimp only at hs; split at hs <;> cases hs; exact .none rfl rfl rfl rfl rfl rfl rfl rfl (enable_goto rfl rfl)
  | free b => dsimp only at hs; split at hs <;> cases hs; exact .free b (by assumption) rfl
  | start cfg =>
    dsimp only at hs
    split at hs
    · split at hs
      · cases hs
      · split at hs
        · split at hs
          · cases hs; exact .calm [.reject, .configure cfg] rfl rfl rfl rfl rfl rfl (by simp [Item.plain]) rfl rfl (fun _ h => h)
          · split at hs
            · cases hs
              exact .calm [.stop false none, .configure cfg] rfl rfl rfl rfl rfl rfl (by simp [Item.plain]) rfl rfl (enable_goto rfl rfl)
            · cases hs; exact .one (.configure cfg) rfl rfl rfl rfl rfl rfl rfl rfl rfl (enable_goto rfl rfl)
        · cases hs
    · cases hs
  | stop sh =>
    dsimp only at hs
    split at hs
    · split at hs
      · cases hs; exact .one (.stop sh none) rfl rfl rfl rfl rfl rfl rfl rfl rfl (enable_goto rfl rfl)
      · cases hs; exact .none rfl rfl rfl rfl rfl rfl rfl rfl (fun _ h => h)
    · cases hs
  | getBuffer =>
    dsimp only at hs
    split at hs
    · rename_i st hp
      split at hs
      · cases hs; exact .one .refuse rfl rfl rfl rfl rfl rfl rfl rfl rfl (fun _ h => h)
      · rename_i he; cases hs; exact .retrieve _ st hp (by simpa using he) rfl (Or.inl rfl)
    · cases hs
  | getTraceContext =>
    dsimp only at hs
    split at hs
    · rename_i st hp
      split at hs
      · cases hs; exact .one .refuse rfl rfl rfl rfl rfl rfl rfl rfl rfl (fun _ h => h)
      · rename_i he; cases hs; exact .retrieve _ st hp (by simpa using he) rfl (Or.inr rfl)
    · cases hs
  | ret =>
    dsimp only at hs
    split at hs
    · rename_i st hp
      cases hs
      obtain ⟨q, hq, e⟩ := pop_goto s t st
      rw [e]; exact .none rfl rfl rfl rfl rfl rfl rfl rfl (enable_goto hq.2.2 rfl)
    · cases hs
  | throw =>
    dsimp only at hs
    split at hs
    · rename_i st hp
      cases hs
      obtain ⟨q, hq, e⟩ := unwind_goto s t st
      rw [e]; exact .none rfl rfl rfl rfl rfl rfl rfl rfl (enable_goto hq.2.2 rfl)
    · cases hs

/-! ### Runs -/

theorem runIds_plain {new h : List Item} (hp : ∀ i ∈ new, i.plain = true) : runIds (new ++ h) = runIds h := by
  induction new with
  | nil => rfl
  | cons i new ih =>
    have hi := hp i (by simp)
    cases i <;> simp_all [runIds, Item.plain]

/-- The buffers of the runs are numbered upwards. -/
structure Runs (s : St ε) : Prop where
  dec : (runIds s.hist).Pairwise (· > ·)
  lt : ∀ b ∈ runIds s.hist, b < s.nextBuf
  lt' : ∀ u, (s.pc u).isEnable = true → ∀ b ∈ runIds s.hist, b + 1 < s.nextBuf
  pos : ∀ u, (s.pc u).isEnable = true → 0 < s.nextBuf

theorem registerBody_frame (n : Str) : (s.registerBody tid t n).nextBuf = s.nextBuf ∧
    (s.registerBody tid t n).status = s.status ∧ (s.registerBody tid t n).buffer = s.buffer ∧
    (s.registerBody tid t n).pc = s.pc ∧
    runIds (s.registerBody tid t n).hist = runIds s.hist := by
  unfold St.registerBody
  split
  · exact ⟨rfl, rfl, rfl, rfl, rfl⟩
  · dsimp only; split <;> exact ⟨rfl, rfl, rfl, rfl, rfl⟩

theorem deregisterBody_eq {x : St ε} (hi : (s.tenant t).initialised = true)
    (hx : s.deregisterBody tid t = some x) : ∃ hp,
    x = { s with
      heap := hp
      tenant := setf s.tenant t { s.tenant t with chunk := none, initialised := false }
      registered := s.registered.filter (· ≠ t)
      hist := .deregOk t :: s.hist
      dereg := if s.enabled then tid t :: s.dereg.filter (· ≠ tid t) else s.dereg
      names := if s.enabled then s.names else setf s.names (tid t) none } := by
  unfold St.deregisterBody at hx
  rw [if_pos hi] at hx
  split at hx
  · cases hx
  · rename_i y hy
    have : ∃ hp', y = { s with heap := hp' } := by
      unfold St.returnOwn at hy
      split at hy
      · cases hy; exact ⟨_, rfl⟩
      · split at hy
        · cases hy; exact ⟨_, rfl⟩
        · split at hy
          · cases hy; exact ⟨_, rfl⟩
          · cases hy
    obtain ⟨hp', rfl⟩ := this
    refine ⟨hp', ?_⟩
    dsimp only at hx
    split at hx
    · rename_i he; cases hx; simp [he]
    · rename_i he; cases hx; simp [he]

theorem enable_pop {x : St ε} {st : List Frame} (hx : x.pc = s.pc) (u : Nat)
    (h : ((x.pop t st).pc u).isEnable = true) : (s.pc u).isEnable = true ∧ u ≠ t := by
  obtain ⟨q, hq, e⟩ := pop_goto x t st
  rw [e] at h
  refine ⟨enable_goto hq.2.2 hx u h, ?_⟩
  rintro rfl
  rw [goto_pc, hq.2.2] at h; cases h

theorem pop_frame (x : St ε) (t : Nat) (st : List Frame) : (x.pop t st).hist = x.hist ∧
    (x.pop t st).nextBuf = x.nextBuf ∧ (x.pop t st).names = x.names ∧ (x.pop t st).dereg = x.dereg := by
  obtain ⟨q, hq, e⟩ := pop_goto x t st
  rw [e]; exact ⟨rfl, rfl, rfl, rfl⟩

theorem Runs.next (h : Runs s) (hc : Hist s) {pol : Bool} {c : Choice ε} (hs : s.next pol tid t c = .to s') :
    Runs s' := by
  cases next_book hs with
  | calm new hn ha hd hb hst hh hp _ hreg hk =>
    have hr : runIds s'.hist = runIds s.hist := by rw [hh, runIds_plain hp]
    exact ⟨hr ▸ h.dec, by rw [hr, hn]; exact h.lt, fun u hu => by rw [hr, hn]; exact h.lt' u (hk u hu),
      fun u hu => by rw [hn]; exact h.pos u (hk u hu)⟩
  | free b hb e => subst e; exact ⟨h.dec, h.lt, h.lt', h.pos⟩
  | retrieve cs st hp he e => subst e; exact ⟨h.dec, h.lt, h.lt', h.pos⟩
  | create n st hp e =>
    subst e
    refine ⟨h.dec, fun b hb => Nat.lt_succ_of_lt (h.lt b hb), fun u _ b hb => ?_, fun u _ => Nat.succ_pos _⟩
    exact Nat.succ_lt_succ (h.lt b hb)
  | enable st hp e =>
    subst e
    have ht : (s.pc t).isEnable = true := by rw [hp]; rfl
    have hpos := h.pos t ht
    have hex : ∀ u, (s.pc u).isEnable = true → u = t := by
      intro u hu
      have h1 := (hc.own u).2 (Pc.isEnable_spec _ hu).1
      have h2 := (hc.own t).2 (Pc.isEnable_spec _ ht).1
      rw [h1] at h2; exact Option.some.inj h2
    obtain ⟨e1, e2, _⟩ := pop_frame s.enable t st
    have e2' : s.enable.nextBuf = s.nextBuf := rfl
    have e3 : runIds s.enable.hist = (s.nextBuf - 1) :: runIds s.hist := rfl
    refine ⟨?_, ?_, ?_, ?_⟩
    · rw [e1, e3, List.pairwise_cons]
      refine ⟨fun b hb => ?_, h.dec⟩
      have := h.lt' t ht b hb
      show b < s.nextBuf - 1
      omega
    · rw [e1, e2, e2', e3]
      intro b hb
      rcases List.mem_cons.1 hb with rfl | hb
      · omega
      · exact h.lt b hb
    · intro u hu
      have := enable_pop (s := s) (x := s.enable) rfl u hu
      exact absurd (hex u this.1) this.2
    · intro u hu
      have := enable_pop (s := s) (x := s.enable) rfl u hu
      exact absurd (hex u this.1) this.2
  | reg n hp hi e =>
    subst e
    obtain ⟨e1, _, _, e4, e5⟩ := registerBody_frame (s := s) (tid := tid) (t := t) n
    have hk : ∀ u, ((((s.registerBody tid t n).goto t .release).pc u).isEnable = true) → (s.pc u).isEnable = true :=
      fun u hu => enable_goto rfl e4 u hu
    refine ⟨by show (runIds (s.registerBody tid t n).hist).Pairwise _; rw [e5]; exact h.dec, ?_, ?_, ?_⟩
    · show ∀ b ∈ runIds (s.registerBody tid t n).hist, b < (s.registerBody tid t n).nextBuf
      rw [e5, e1]; exact h.lt
    · intro u hu
      show ∀ b ∈ runIds (s.registerBody tid t n).hist, b + 1 < (s.registerBody tid t n).nextBuf
      rw [e5, e1]; exact h.lt' u (hk u hu)
    · intro u hu
      show 0 < (s.registerBody tid t n).nextBuf
      rw [e1]; exact h.pos u (hk u hu)
  | dereg x hp hi hx e =>
    subst e
    obtain ⟨hp', rfl⟩ := deregisterBody_eq hi hx
    exact ⟨h.dec, h.lt, fun u hu => h.lt' u (enable_goto rfl rfl u hu),
      fun u hu => h.pos u (enable_goto rfl rfl u hu)⟩

theorem Reachable.runs {pol : Bool} (h : Reachable pol tid s) : Runs s := by
  induction h with
  | init => constructor <;> simp [St.init, runIds, Pc.isEnable]
  | step h hs ih => exact ih.next h.hist hs

/-! ### Names -/

theorem on_plain_record {new h : List Item} (u : Nat) (hp : ∀ i ∈ new, i.plain = true) :
    record u (new ++ h) = record u h := by
  induction new with
  | nil => rfl
  | cons i new ih =>
    have hi := hp i (by simp)
    cases i <;> simp_all [record, Item.plain]

/-- The log remembers of each thread what the history says. -/
structure Names (tid : Nat → Nat) (s : St ε) : Prop where
  name : ∀ u, s.names (tid u) = (record u s.hist).1
  dereg : ∀ u, tid u ∈ s.dereg ↔ (record u s.hist).2 = true
  only : ∀ i, s.names i ≠ none → ∃ u, tid u = i

theorem Names.next (h : Names tid s) (hc : Hist s) (hinj : ∀ u v, tid u = tid v → u = v) {pol : Bool}
    {c : Choice ε} (hs : s.next pol tid t c = .to s') : Names tid s' := by
  cases next_book hs with
  | calm new hn ha hd hb hst hh hp _ hreg hk =>
    refine ⟨fun u => ?_, fun u => ?_, by rw [ha]; exact h.only⟩
    · rw [ha, hh, on_plain_record u hp]; exact h.name u
    · rw [hd, hh, on_plain_record u hp]; exact h.dereg u
  | free b hb e => subst e; exact ⟨h.name, h.dereg, h.only⟩
  | retrieve cs st hp he e => subst e; exact ⟨h.name, h.dereg, h.only⟩
  | create n st hp e => subst e; exact ⟨h.name, h.dereg, h.only⟩
  | enable st hp e =>
    subst e
    obtain ⟨e1, _, e2, e3⟩ := pop_frame s.enable t st
    refine ⟨fun u => ?_, fun u => ?_, ?_⟩
    · rw [e1, e2]
      show (if tid u ∈ s.dereg then none else s.names (tid u)) = (record u (.run _ _ :: s.hist)).1
      simp only [record]
      cases hr : (record u s.hist).2
      · rw [if_neg (fun e => by rw [h.dereg u, hr] at e; cases e), h.name]; simp
      · rw [if_pos ((h.dereg u).2 hr)]; simp
    · rw [e1, e3]
      show tid u ∈ s.dereg ↔ (record u (.run _ _ :: s.hist)).2 = true
      simp only [record]
      rw [h.dereg u]
      cases hr : (record u s.hist).2 <;> simp [hr]
    · rw [e2]
      intro i hi
      simp only [St.enable] at hi
      split at hi
      · exact absurd rfl hi
      · exact h.only i hi
  | reg n hp hi e =>
    subst e
    have hreg : s.registerBody tid t n = if n = [] then
        { s with
          tenant := setf s.tenant t { s.tenant t with initialised := true }
          registered := t :: s.registered
          hist := .regOk t n :: s.hist }
      else { s with
          tenant := setf s.tenant t { s.tenant t with initialised := true }
          registered := t :: s.registered
          hist := .regOk t n :: s.hist
          names := setf s.names (tid t) (some n)
          dereg := s.dereg.filter (· ≠ tid t) } := by
      unfold St.registerBody
      rw [if_neg (by simp [hi])]
    rw [hreg]
    by_cases hn : n = []
    · rw [if_pos hn]
      refine ⟨fun u => ?_, fun u => ?_, h.only⟩
      · show s.names (tid u) = (record u (.regOk t n :: s.hist)).1
        simp only [record, hn]; simpa using h.name u
      · show tid u ∈ s.dereg ↔ (record u (.regOk t n :: s.hist)).2 = true
        simp only [record, hn]; simpa using h.dereg u
    · rw [if_neg hn]
      refine ⟨fun u => ?_, fun u => ?_, ?_⟩
      · show setf s.names (tid t) (some n) (tid u) = (record u (.regOk t n :: s.hist)).1
        by_cases hu : u = t
        · subst hu; simp [record, hn]
        · have : tid u ≠ tid t := fun e => hu (hinj _ _ e)
          simp [record, Ne.symm hu, setf, this, h.name u]
      · show tid u ∈ s.dereg.filter (· ≠ tid t) ↔ (record u (.regOk t n :: s.hist)).2 = true
        by_cases hu : u = t
        · subst hu; simp [record, hn]
        · have : tid u ≠ tid t := fun e => hu (hinj _ _ e)
          simp [record, Ne.symm hu, this, h.dereg u]
      · intro i hi'
        simp only [St.goto, setf] at hi'
        split at hi'
        · exact ⟨t, by simp_all⟩
        · exact h.only i hi'
  | dereg x hp hi hx e =>
    subst e
    obtain ⟨hp', rfl⟩ := deregisterBody_eq hi hx
    have hen := hc.en
    refine ⟨fun u => ?_, fun u => ?_, ?_⟩
    · show (if s.enabled then s.names else setf s.names (tid t) none) (tid u) =
        (record u (.deregOk t :: s.hist)).1
      by_cases hu : u = t
      · subst hu
        cases he : s.enabled <;> rw [he] at hen <;> simp [record, ← hen, h.name]
      · have : tid u ≠ tid t := fun e => hu (hinj _ _ e)
        cases he : s.enabled <;> simp [record, Ne.symm hu, setf, this, h.name u]
    · show tid u ∈ (if s.enabled then tid t :: s.dereg.filter (· ≠ tid t) else s.dereg) ↔
        (record u (.deregOk t :: s.hist)).2 = true
      by_cases hu : u = t
      · subst hu
        cases he : s.enabled <;> rw [he] at hen <;> simp [record, ← hen, h.dereg]
      · have : tid u ≠ tid t := fun e => hu (hinj _ _ e)
        cases he : s.enabled <;> simp [record, Ne.symm hu, this, h.dereg u]
    · intro i hi'
      simp only [St.goto] at hi'
      cases he : s.enabled <;> simp only [he] at hi'
      · simp [setf] at hi'; exact h.only i hi'.2
      · exact h.only i (by simpa using hi')

theorem Reachable.names {pol : Bool} (hinj : ∀ u v, tid u = tid v → u = v) (h : Reachable pol tid s) :
    Names tid s := by
  induction h with
  | init => constructor <;> simp [St.init, record]
  | step h hs ih => exact ih.next h.hist hinj hs

/-- Every name kept belongs to a registered thread, or to one that departed while tracing. -/
theorem Reachable.nameOwner {pol : Bool} (h : Reachable pol tid s) (i : Nat) (hi : s.names i ≠ none) :
    i ∈ s.dereg ∨ ∃ u, u ∈ s.registered ∧ tid u = i := by
  induction h with
  | init => exact absurd rfl hi
  | @step s s' t c h hs ih =>
    cases next_book hs with
    | calm new hn ha hd hb hst hh hp _ hreg hk => rw [ha] at hi; rw [hd, hreg]; exact ih hi
    | free b hb e => subst e; exact ih hi
    | retrieve cs st hp he e => subst e; exact ih hi
    | create n st hp e => subst e; exact ih hi
    | enable st hp e =>
      subst e
      obtain ⟨q, _, e⟩ := pop_goto s.enable t st
      rw [e] at hi ⊢
      simp only [St.goto, St.enable] at hi ⊢
      split at hi
      · exact absurd rfl hi
      · exact ih hi
    | reg n hp hi' e =>
      subst e
      unfold St.registerBody at hi ⊢
      rw [if_neg (by simp [hi'])] at hi ⊢
      dsimp only at hi ⊢
      by_cases hn : n = []
      · rw [if_pos hn] at hi ⊢
        rcases ih hi with h1 | ⟨u, hu, e⟩
        · exact Or.inl h1
        · exact Or.inr ⟨u, List.mem_cons_of_mem _ hu, e⟩
      · rw [if_neg hn] at hi ⊢
        by_cases hit : i = tid t
        · exact Or.inr ⟨t, List.mem_cons_self, hit.symm⟩
        · have hi2 : s.names i ≠ none := by simpa [St.goto, setf, hit] using hi
          rcases ih hi2 with h1 | ⟨u, hu, e⟩
          · left
            show i ∈ s.dereg.filter _
            simp [h1, hit]
          · exact Or.inr ⟨u, List.mem_cons_of_mem _ hu, e⟩
    | dereg x hp hi' hx e =>
      subst e
      obtain ⟨hp', rfl⟩ := deregisterBody_eq hi' hx
      simp only [St.goto] at hi ⊢
      by_cases hit : i = tid t
      · cases he : s.enabled
        · simp [he, hit] at hi
        · left; simp [hit]
      · have hi2 : s.names i ≠ none := by
          cases he : s.enabled <;> simp [he, setf, hit] at hi <;> exact hi
        rcases ih hi2 with h1 | ⟨u, hu, e⟩
        · left; cases he : s.enabled <;> simp [h1, hit]
        · right
          refine ⟨u, ?_, e⟩
          have : u ≠ t := by rintro rfl; exact hit e.symm
          simp [hu, this]

end Phosphor.TLog
