import Verif.Proof.LogBufferRefine
/-
The steps that do not touch the buffer.
-/
namespace Phosphor.LogBuf
open TLog Custom
variable {ε : Type} {tid : Nat → Nat} {o : List (Nat × Nat × ε)} {x x' : XSt ε} {s s' : St ε} {t : Nat}

/-- `x` after a step of the log alone. -/
def XSt.at (x : XSt ε) (l : St ε) : XSt ε := ⟨{ x.c with log := l }, x.buf⟩

theorem seePc_id {q : Pc ε} (h1 : ∀ e p, q ≠ .getWait e p) (h2 : ∀ e p, q ≠ .retDo e p) (h3 : q ≠ .deregBody) (b w : Bool) :
    seePc q b w = q := by
  cases q <;> first
    | rfl
    | exact absurd rfl (h1 _ _)
    | exact absurd rfl (h2 _ _)
    | exact absurd rfl h3

macro "sid" : tactic => `(tactic| (intros; apply seePc_id <;> simp))

/-- A stop begins. -/
theorem Seen.begin (h : Seen tid o x s) (hi : Custom.Inv x.c) (hin : x.c.inCall t = none) (hown : x.c.log.owner = some t)
    (hce : LogBuf.core s = LogBuf.core x.c.log) {cfg : TraceConfig} {h0 : List Item} {sh : Bool} {full : Option (Option Nat)}
    {st : List Frame} :
    Seen tid o (x.at (({ x.c.log with config := cfg, hist := h0 ++ x.c.log.hist } : St ε).beginStop t sh full st))
      (({ s with config := cfg, hist := h0 ++ s.hist } : St ε).beginStop t sh full st) := by
  have hc := core_iff.1 hce
  have hq : ({ s with config := cfg, hist := h0 ++ s.hist } : St ε).beginStop t sh full st =
      St.goto { s with config := cfg, enabled := false, hist := .stop sh full :: (h0 ++ s.hist) } t
        (.held (.evict x.c.log.registered sh) st) := by
    unfold St.beginStop; rw [← hc.1]
  rw [hq]
  exact h.mine (t := t) (q := .held (.evict x.c.log.registered sh) st)
    (s1 := { s with config := cfg, enabled := false, hist := .stop sh full :: (h0 ++ s.hist) })
    (l := { x.c.log with config := cfg, enabled := false, hist := .stop sh full :: (h0 ++ x.c.log.hist) }) hi hin rfl rfl rfl rfl rfl rfl
    ⟨rfl, rfl, h.owner, h.buffer, h.generation, h.status, h.nextBuf, h.contexts⟩
    (core_iff.2 ⟨hc.1, hc.2.1, hc.2.2.1, by simp [hc.2.2.2.1], hc.2.2.2.2⟩) h.lock
    (fun u => .inl ⟨rfl, rfl⟩) (by simp [hown]) (by sid) (.inl rfl) rfl rfl rfl rfl

theorem sim_logStep (h : Seen tid o x s) (hi : Custom.Inv x.c) (hin : x.c.inCall t = none) {sp : Bool} {l : St ε}
    (hp : plainPc x.c.log t) (hs : x.c.log.logStep tid t sp = .to l) :
    ∃ s', s.logStep tid t sp = .to s' ∧ Seen tid o (x.at l) s' := by
  unfold St.logStep at hs
  unfold plainPc at hp
  split at hs
  case h_1 e hp =>
    have hpc : s.pc t = _ := h.pc_out hin hp (by sid)
    cases hs
    refine ⟨s.goto t (if s.enabled then .tryLock e else .idle), by simp only [St.logStep, hpc], ?_⟩
    rw [h.enabled]
    exact h.goto hi hin (by simp [hp]) (by split <;> sid) (by split <;> simp)
  case h_2 e hp =>
    have hpc : s.pc t = _ := h.pc_out hin hp (by sid)
    have hlk := h.lock t
    generalize hr : ChunkLock.tryRound (x.c.log.tenant t).lock sp = r at hs
    obtain ⟨lk, b⟩ := r
    have he : s.logStep tid t sp = match ((lk, b) : ChunkLock.State × Option Bool) with
        | (l, some true) => .to ((s.setLock t l).goto t (.checkInit e))
        | (_, some false) => .to (s.goto t .idle)
        | (_, none) => .to s := by
      simp only [St.logStep, hpc, hlk, hr]; rfl
    rw [he]
    cases b with
    | none => cases hs; exact ⟨s, rfl, h⟩
    | some b =>
      cases b
      · cases hs; exact ⟨_, rfl, h.goto hi hin (by simp [hp]) (by sid) (by simp)⟩
      · cases hs; exact ⟨_, rfl, h.gotoLock hi hin (by simp [hp]) (by sid) (by simp)⟩
  case h_3 e hp =>
    have hpc : s.pc t = _ := h.pc_out hin hp (by sid)
    cases hs
    refine ⟨s.goto t (if (s.tenant t).initialised then .checkChunk e else .unlock), by simp only [St.logStep, hpc], ?_⟩
    rw [h.init (by simp [hp])]
    exact h.goto hi hin (by simp [hp]) (by split <;> sid) (by split <;> simp)
  case h_4 e h' => simp [h'] at hp
  case h_5 e hp =>
    have hpc : s.pc t = _ := h.pc_out hin hp (by sid)
    simp only [St.logStep, hpc, h.enabled, h.chunk_out hin]
    split at hs <;> rename_i he
    · cases hs
      simp only [he, if_true]
      exact ⟨_, rfl, h.goto hi hin (by simp [hp]) (by split <;> sid) (by split <;> simp)⟩
    · cases hs
      simp only [he]
      exact ⟨_, rfl, h.goto hi hin (by simp [hp]) (by sid) (by simp)⟩
  case h_6 e hp =>
    have hpc : s.pc t = _ := h.pc_out hin hp (by sid)
    simp only [St.logStep, hpc, h.buffer]
    split at hs
    · cases hs
    · rename_i p hb
      cases hs
      try simp only [hb]
      refine ⟨_, rfl, h.goto hi hin (by simp [hp]) ?_ (by simp)⟩
      have := hi.ctl.needChunk t (by simp [hp, Pc.needChunk])
      cases hc : (x.c.log.tenant t).chunk with
      | none => exact absurd hc this
      | some c => rfl
  case h_7 e p h' => simp [h'] at hp
  case h_8 e hp =>
    have hpc : s.pc t = _ := h.pc_out hin hp (by sid)
    cases hs
    refine ⟨_, by simp only [St.logStep, hpc, h.enabled]; rfl, ?_⟩
    exact h.goto hi hin (by simp [hp]) (by split <;> sid) (by split <;> simp)
  case h_9 e hp =>
    have hpc : s.pc t = _ := h.pc_out hin hp (by sid)
    cases hs
    refine ⟨_, by simp only [St.logStep, hpc, h.buffer]; rfl, ?_⟩
    exact h.goto hi hin (by simp [hp]) (by split <;> sid) (by split <;> simp)
  case h_10 e hp =>
    have hpc : s.pc t = _ := h.pc_out hin hp (by sid)
    simp only [St.logStep, hpc, h.buffer]
    split at hs
    · cases hs
    · rename_i p hb
      cases hs
      try simp only [hb]
      exact ⟨_, rfl, h.goto hi hin (by simp [hp]) (by sid) (by simp)⟩
  case h_11 e p h' => simp [h'] at hp
  case h_12 e p h' => simp [h'] at hp
  case h_13 f hp =>
    have hpc : s.pc t = _ := h.pc_out hin hp (by sid)
    cases hs
    refine ⟨_, by simp only [St.logStep, hpc, h.generation]; rfl, ?_⟩
    exact h.goto hi hin (by simp [hp]) (by sid) (by simp)
  case h_14 f g hp =>
    have hpc : s.pc t = _ := h.pc_out hin hp (by sid)
    cases hs
    refine ⟨_, by simp only [St.logStep, hpc]; rfl, ?_⟩
    exact h.gotoLock hi hin (by simp [hp]) (by sid) (by simp)
  case h_15 f g hp =>
    have hpc : s.pc t = _ := h.pc_out hin hp (by sid)
    simp only [St.logStep, hpc, h.owner]
    split at hs <;> rename_i ho
    · cases hs
      rw [if_pos ho]
      refine ⟨_, rfl, h.mine (s1 := { s with owner := some t }) (l := { x.c.log with owner := some t }) hi hin rfl rfl rfl rfl rfl rfl ?_ ?_ h.lock
        (fun u => .inl ⟨rfl, rfl⟩) ?_ (by sid) (.inl rfl) rfl rfl rfl rfl⟩
      · exact ⟨h.config, h.enabled, rfl, h.buffer, h.generation, h.status, h.nextBuf, h.contexts⟩
      · exact (h.core_eq (t := t) (by simp [ho.1]) (by simp [hp]) : core s = core x.c.log)
      · intro u hu; cases hu; rfl
    · cases hs
      rw [if_neg ho]
      exact ⟨_, rfl, h.goto hi hin (by simp [hp]) (by sid) (by simp)⟩
  case h_16 f g hp =>
    have hpc : s.pc t = _ := h.pc_out hin hp (by sid)
    simp only [St.logStep, hpc, h.generation, h.enabled]
    have hown := owner_me (t := t) hi (by simp [hp, Pc.holdsMutex])
    have hce := h.core_eq (t := t) (by simp [hown]) (by simp [hp])
    split at hs <;> rename_i hg
    · cases hs
      rw [if_pos hg]
      exact ⟨_, rfl, h.goto hi hin (by simp [hp]) (by sid) (by simp)⟩
    · rw [if_neg hg]
      split at hs <;> rename_i he
      · cases hs
        rw [if_pos he]
        have := h.begin (cfg := x.c.log.config) (h0 := []) (sh := false) (full := some f) (st := []) hi hin hown hce
        have hse : ({ s with config := x.c.log.config, hist := [] ++ s.hist } : St ε) = s := by rw [← h.config]; rfl
        rw [hse] at this
        exact ⟨_, rfl, this⟩
      · cases hs
        rw [if_neg he]
        exact ⟨_, rfl, h.goto hi hin (by simp [hp]) (by sid) (by simp)⟩
  case h_17 e h' => simp [h'] at hp
  case h_18 hp =>
    have hpc : s.pc t = _ := h.pc_out hin hp (by sid)
    cases hs
    refine ⟨_, by simp only [St.logStep, hpc]; rfl, ?_⟩
    exact h.gotoLock hi hin (by simp [hp]) (by sid) (by simp)
  case h_19 => cases hs

theorem core_registerBody {name : Str} {l : St ε} (h : core s = core l) :
    core (s.registerBody tid t name) = core (l.registerBody tid t name) := by
  obtain ⟨h1, h2, h3, h4, h5⟩ := core_iff.1 h
  unfold St.registerBody
  rw [h5 t]
  split
  · exact core_iff.2 ⟨h1, h2, h3, by simp [h4], h5⟩
  · have h6 : ∀ u, (setf s.tenant t { s.tenant t with initialised := true } u).initialised =
        (setf l.tenant t { l.tenant t with initialised := true } u).initialised := by
      intro u
      by_cases hu : u = t
      · subst hu; simp only [setf_self]
      · simp only [setf_ne _ _ hu, h5]
    dsimp only
    split
    · exact core_iff.2 ⟨by simp [h1], h2, h3, by simp [h4], h6⟩
    · exact core_iff.2 ⟨by simp [h1], by simp [h2], by simp [h3], by simp [h4], h6⟩

/-- What registration leaves alone. -/
theorem registerBody_rest (s : St ε) (name : Str) :
    (s.registerBody tid t name).pc = s.pc ∧ (s.registerBody tid t name).config = s.config ∧
    (s.registerBody tid t name).enabled = s.enabled ∧ (s.registerBody tid t name).owner = s.owner ∧
    (s.registerBody tid t name).buffer = s.buffer ∧ (s.registerBody tid t name).generation = s.generation ∧
    (s.registerBody tid t name).status = s.status ∧ (s.registerBody tid t name).nextBuf = s.nextBuf ∧
    (s.registerBody tid t name).contexts = s.contexts ∧ (s.registerBody tid t name).heap = s.heap ∧
    (s.registerBody tid t name).contents = s.contents ∧ (s.registerBody tid t name).stored = s.stored ∧
    ∀ u, ((s.registerBody tid t name).tenant u).lock = (s.tenant u).lock ∧
      ((s.registerBody tid t name).tenant u).chunk = (s.tenant u).chunk := by
  have h6 : ∀ u, (setf s.tenant t { s.tenant t with initialised := true } u).lock = (s.tenant u).lock ∧
      (setf s.tenant t { s.tenant t with initialised := true } u).chunk = (s.tenant u).chunk := by
    intro u
    by_cases hu : u = t
    · subst hu; simp only [setf_self, and_self]
    · simp only [setf_ne _ _ hu, and_self]
  unfold St.registerBody
  split
  · exact ⟨rfl, rfl, rfl, rfl, rfl, rfl, rfl, rfl, rfl, rfl, rfl, rfl, fun _ => ⟨rfl, rfl⟩⟩
  · dsimp only
    split <;> exact ⟨rfl, rfl, rfl, rfl, rfl, rfl, rfl, rfl, rfl, rfl, rfl, rfl, h6⟩

theorem pop_goto (st : List Frame) : ∃ q : Pc ε, (∀ b w, seePc q b w = q) ∧ ∀ s : St ε, s.pop t st = s.goto t q := by
  cases st with
  | nil => exact ⟨.release, by sid, fun _ => rfl⟩
  | cons f st => cases f <;> exact ⟨_, by sid, fun _ => rfl⟩

theorem unwind_goto (st : List Frame) : ∃ q : Pc ε, (∀ b w, seePc q b w = q) ∧ ∀ s : St ε, s.unwind t st = s.goto t q := by
  cases h : unwound st with
  | none => exact ⟨.release, by sid, fun s => by rw [unwind_eq, h]⟩
  | some st' => exact ⟨.held .user st', by sid, fun s => by rw [unwind_eq, h]⟩

theorem sim_heldStep (h : Seen tid o x s) (hi : Custom.Inv x.c) (hin : x.c.inCall t = none) {sp : Bool} {l : St ε}
    (hp : plainPc x.c.log t) (hd : x.c.log.pc t ≠ .deregBody) (hs : x.c.log.heldStep tid t sp = .to l) :
    ∃ s', s.logStep tid t sp = .blocked ∧ s.heldStep tid t sp = .to s' ∧ Seen tid o (x.at l) s' := by
  have hown : (x.c.log.pc t).holdsMutex = true → x.c.log.owner = some t := owner_me hi
  have hce : x.c.log.owner = some t → core s = core x.c.log := fun ho => h.core_eq (t := t) (by simp [ho]) hd
  unfold St.heldStep at hs
  unfold plainPc at hp
  split at hs
  case h_1 n hp =>
    have hpc : s.pc t = _ := h.pc_out hin hp (by sid)
    have ho := hown (by simp [hp, Pc.holdsMutex])
    cases hs
    refine ⟨(s.registerBody tid t n).goto t .release, by simp [St.logStep, hpc], by simp [St.heldStep, hpc], ?_⟩
    obtain ⟨a1, a2, a3, a4, a5, a6, a7, a8, a9, a10, a11, a12, a13⟩ := registerBody_rest (tid := tid) (t := t) s n
    obtain ⟨b1, b2, b3, b4, b5, b6, b7, b8, b9, b10, b11, b12, b13⟩ := registerBody_rest (tid := tid) (t := t) x.c.log n
    exact h.mine hi hin rfl rfl rfl rfl b1 a1
      ⟨by rw [a2, b2, h.config], by rw [a3, b3, h.enabled], by rw [a4, b4, h.owner], by rw [a5, b5, h.buffer],
        by rw [a6, b6, h.generation], by rw [a7, b7, h.status], by rw [a8, b8, h.nextBuf], by rw [a9, b9, h.contexts]⟩
      (core_registerBody (hce ho)) (fun u => by rw [(a13 u).1, (b13 u).1, h.lock])
      (fun u => .inl ⟨(b13 u).2, (a13 u).2⟩) (by rw [b4]; simp [ho]) (by sid) (.inl b5) a10 a11 a12 b8
  case h_2 h' => exact absurd h' hd
  case h_3 hp =>
    have hpc : s.pc t = _ := h.pc_out hin hp (by sid)
    have ho := hown (by simp [hp, Pc.holdsMutex])
    cases hs
    refine ⟨_, by simp [St.logStep, hpc], by simp only [St.heldStep, hpc]; rfl, ?_⟩
    exact h.mine (q := .idle) (s1 := { s with owner := none }) (l := { x.c.log with owner := none }) hi hin rfl rfl rfl rfl rfl rfl
      ⟨h.config, h.enabled, rfl, h.buffer, h.generation, h.status, h.nextBuf, h.contexts⟩ (hce ho) h.lock
      (fun u => .inl ⟨rfl, rfl⟩) (by simp) (by sid) (.inl rfl) rfl rfl rfl rfl
  case h_4 sh st hp =>
    have hpc : s.pc t = _ := h.pc_out hin hp (by sid)
    have ho := hown (by simp [hp, Pc.holdsMutex])
    obtain ⟨c1, c2, c3, c4, c5⟩ := core_iff.1 (hce ho)
    simp only [St.logStep, St.heldStep, hpc]
    cases hcb : callbackDue x.c.log.config sh with
    | some cb =>
      rw [hcb] at hs
      rw [← h.config] at hcb
      simp only [hcb]
      cases hs
      refine ⟨_, trivial, rfl, ?_⟩
      exact h.mine (x' := x.at (St.goto { x.c.log with hist := .call cb :: x.c.log.hist } t (.held .user st)))
        (q := .held .user st) (s1 := { s with hist := .call cb :: s.hist }) (l := { x.c.log with hist := .call cb :: x.c.log.hist })
        hi hin rfl rfl rfl rfl rfl rfl
        ⟨h.config, h.enabled, h.owner, h.buffer, h.generation, h.status, h.nextBuf, h.contexts⟩
        (core_iff.2 ⟨c1, c2, c3, by simp [c4], c5⟩) h.lock
        (fun u => .inl ⟨rfl, rfl⟩) (by simp [ho]) (by sid) (.inl rfl) rfl rfl rfl rfl
    | none =>
      rw [hcb] at hs
      rw [← h.config] at hcb
      simp only [hcb]
      cases hs
      obtain ⟨q, hq, hg⟩ := pop_goto (ε := ε) (t := t) st
      refine ⟨_, trivial, rfl, ?_⟩
      rw [hg, hg]
      exact h.mine (x' := x.at (St.goto { x.c.log with hist := .noCall :: x.c.log.hist } t q))
        (q := q) (s1 := { s with hist := .noCall :: s.hist }) (l := { x.c.log with hist := .noCall :: x.c.log.hist })
        hi hin rfl rfl rfl rfl rfl rfl
        ⟨h.config, h.enabled, h.owner, h.buffer, h.generation, h.status, h.nextBuf, h.contexts⟩
        (core_iff.2 ⟨c1, c2, c3, by simp [c4], c5⟩) h.lock
        (fun u => .inl ⟨rfl, rfl⟩) (by simp [ho]) (fun b => hq b _) (.inl rfl) rfl rfl rfl rfl
  case h_5 u rest sh st hp =>
    have hpc : s.pc t = _ := h.pc_out hin hp (by sid)
    simp only [St.logStep, St.heldStep, hpc, h.lock]
    split at hs <;> rename_i hsp
    · cases hs
      simp only [hsp, if_true]
      exact ⟨_, trivial, rfl, h.goto hi hin hd (by sid) (by simp)⟩
    · simp only [hsp]
      generalize ChunkLock.lockRound (x.c.log.tenant u).lock .masterLocked false = r at hs
      obtain ⟨lk, b⟩ := r
      cases b <;> cases hs
      · exact ⟨s, trivial, rfl, h⟩
      · exact ⟨_, trivial, rfl, h.gotoLock hi hin hd (by sid) (by simp)⟩
  case h_6 u rest sh st hp =>
    have hpc : s.pc t = _ := h.pc_out hin hp (by sid)
    have ho := hown (by simp [hp, Pc.holdsMutex])
    cases hs
    refine ⟨_, by simp [St.logStep, hpc], by simp only [St.heldStep, hpc]; rfl, ?_⟩
    have hm : (x.c.log.tenant u).lock = .masterLocked := (hi.ctl.master u).2 (by simp [St.mastered, ho, hp, Pc.mastering])
    have hsl : (x.c.log.pc u).holdsSlave = false := by
      cases hh : (x.c.log.pc u).holdsSlave
      · rfl
      · rw [(hi.ctl.slave u).2 hh] at hm; cases hm
    have hcall : x.c.inCall u = none := by
      cases hc : x.c.inCall u with
      | none => rfl
      | some p =>
        have h1 := (hi.inside u p hc).1
        by_cases hu : u = t
        · subst hu; rw [hin] at hc; cases hc
        · have hmu : (x.c.log.pc u).holdsMutex ≠ true := fun hm => by
            have := owner_me hi hm; rw [ho] at this; cases this; exact hu rfl
          generalize x.c.log.pc u = q at h1 hsl hmu
          cases q <;> first
            | cases h1; done
            | simp [Pc.holdsSlave] at hsl; done
            | simp [Pc.holdsMutex] at hmu; done
    refine h.mine (q := .held (.evictUnlock u rest sh) st) (s1 := s.setChunk u none) (l := x.c.log.setChunk u none)
        hi hin rfl rfl rfl rfl rfl rfl
        ⟨h.config, h.enabled, h.owner, h.buffer, h.generation, h.status, h.nextBuf, h.contexts⟩
        (by rw [core_setChunk, core_setChunk]; exact hce ho) (fun v => ?_)
        (fun v => ?_) (by simp [St.setChunk, ho]) (by sid) (.inl rfl) rfl rfl rfl rfl
    · by_cases hv : v = u
      · subst hv; simp [St.setChunk, h.lock]
      · simp [St.setChunk, setf_ne _ _ hv, h.lock]
    · by_cases hv : v = u
      · subst hv
        refine .inr ⟨hcall, fun hvt b w => seePc_id ?_ ?_ ?_ b w, by simp [St.setChunk], by simp [St.setChunk]⟩
        · intro e p he; rw [he] at hsl; simp [Pc.holdsSlave] at hsl
        · intro e p he; rw [he] at hsl; simp [Pc.holdsSlave] at hsl
        · intro he
          have := owner_me (t := v) hi (by simp [he, Pc.holdsMutex])
          rw [ho] at this; cases this; exact hvt rfl
      · exact .inl (by simp [St.setChunk, setf_ne _ _ hv])
  case h_7 u rest sh st hp =>
    have hpc : s.pc t = _ := h.pc_out hin hp (by sid)
    cases hs
    exact ⟨_, by simp [St.logStep, hpc], by simp only [St.heldStep, hpc], h.gotoLock hi hin hd (by sid) (by simp)⟩
  case h_8 n st h' => simp [h'] at hp
  case h_9 st hp =>
    have hpc : s.pc t = _ := h.pc_out hin hp (by sid)
    have ho := hown (by simp [hp, Pc.holdsMutex])
    obtain ⟨c1, c2, c3, c4, c5⟩ := core_iff.1 (hce ho)
    cases hs
    refine ⟨_, by simp [St.logStep, hpc], by simp only [St.heldStep, hpc]; rfl, ?_⟩
    obtain ⟨q, hq, hg⟩ := pop_goto (ε := ε) (t := t) st
    rw [hg, hg]
    exact h.mine (q := q) (s1 := s.enable) (l := x.c.log.enable)
      hi hin rfl rfl rfl rfl rfl rfl
      ⟨h.config, rfl, h.owner, h.buffer, h.generation, h.status, h.nextBuf, h.contexts⟩
      (core_iff.2 ⟨c1, by simp [St.enable, c2, c3], c3, by simp [St.enable, c4, h.nextBuf, h.config], c5⟩) h.lock
      (fun u => .inl ⟨rfl, rfl⟩) (by simp [St.enable, ho]) (fun b => hq b _) (.inl rfl) rfl rfl rfl rfl
  case h_10 => cases hs

end Phosphor.LogBuf
