import Verif.Spec.LogBufferRefine
import Verif.Props.TraceLog
/-
Steps of the log outside the functions of the buffer are steps of Model/TraceLog.
-/
namespace Phosphor.LogBuf
open TLog Custom
variable {ε : Type} {tid : Nat → Nat} {o : List (Nat × Nat × ε)} {x x' : XSt ε} {s s' : St ε} {t : Nat}

/-- At most two steps of thread `t`, which begin the functions `k`. -/
def By (tid : Nat → Nat) (t : Nat) (k : List (Choice ε)) (s s' : St ε) : Prop :=
  ∃ l : List (Choice ε), l.length ≤ 2 ∧ l.filter (fun c => !inner c) = k ∧ s.run true tid (l.map (fun c => (t, c))) = .to s'

theorem By.refl : By tid t [] s s := ⟨[], by simp, rfl, rfl⟩
theorem By.one {c : Choice ε} (h : s.next true tid t c = .to s') {k : List (Choice ε)}
    (hk : [c].filter (fun c => !inner c) = k := by rfl) : By tid t k s s' :=
  ⟨[c], by simp, hk, by simp [St.run, h]⟩
theorem By.two {c c' : Choice ε} {s1 : St ε} (h : s.next true tid t c = .to s1) (h' : s1.next true tid t c' = .to s')
    {k : List (Choice ε)} (hk : [c, c'].filter (fun c => !inner c) = k := by rfl) :
    By tid t k s s' := ⟨[c, c'], by simp, hk, by simp [St.run, h, h']⟩

theorem reachable_run {l : List (Nat × Choice ε)} (h : TLog.Reachable true tid s) (hr : s.run true tid l = .to s') :
    TLog.Reachable true tid s' := by
  induction l generalizing s with
  | nil => cases hr; exact h
  | cons a l ih =>
    obtain ⟨t, c⟩ := a
    simp only [St.run] at hr
    split at hr
    · rename_i s1 h1; exact ih (.step h h1) hr
    · cases hr
    · cases hr

theorem By.reach {k : List (Choice ε)} (h : By tid t k s s') (hr : TLog.Reachable true tid s) : TLog.Reachable true tid s' := by
  obtain ⟨l, _, _, h⟩ := h; exact reachable_run hr h

/-- The members that are the same. -/
structure Eqs (l s : St ε) : Prop where
  config : s.config = l.config
  enabled : s.enabled = l.enabled
  owner : s.owner = l.owner
  buffer : s.buffer = l.buffer
  generation : s.generation = l.generation
  status : s.status = l.status
  nextBuf : s.nextBuf = l.nextBuf
  contexts : s.contexts = l.contexts

theorem Seen.eqs (h : Seen tid o x s) : Eqs x.c.log s :=
  ⟨h.config, h.enabled, h.owner, h.buffer, h.generation, h.status, h.nextBuf, h.contexts⟩

theorem Seen.mapped (h : Seen tid o x s) (p : Nat) : s.mapped p = x.c.log.mapped p := by
  simp [St.mapped, h.status]

theorem seenChunk_out (h : x.c.inCall t = none) : seenChunk x t = (x.c.log.tenant t).chunk := by simp [seenChunk, h]
theorem seenWait_out (h : x.c.inCall t = none) : seenWait x t = false := by simp [seenWait, h]

theorem seenChunk_congr {u : Nat} (h1 : x'.c.inCall u = x.c.inCall u) (h2 : x'.c.log.pc u = x.c.log.pc u)
    (h3 : (x'.c.log.tenant u).chunk = (x.c.log.tenant u).chunk)
    (h4 : ∀ p, x.c.inCall u = some p → (x'.buf p).hand u = (x.buf p).hand u) : seenChunk x' u = seenChunk x u := by
  unfold seenChunk
  rw [h1, h2, h3]
  cases hi : x.c.inCall u with
  | none => rfl
  | some p => simp only [h4 p hi]

theorem seenWait_congr {u : Nat} (h1 : x'.c.inCall u = x.c.inCall u)
    (h4 : ∀ p, x.c.inCall u = some p → (x'.buf p).waits u = (x.buf p).waits u) : seenWait x' u = seenWait x u := by
  unfold seenWait
  rw [h1]
  cases hi : x.c.inCall u with
  | none => rfl
  | some p => simp only [h4 p hi]

theorem leaving_none (h : ∀ u, x.c.log.owner = some u → x.c.log.pc u ≠ .deregBody) : leaving x = none := by
  unfold leaving
  cases ho : x.c.log.owner with
  | none => rfl
  | some u =>
    have := h u ho
    cases hp : x.c.log.pc u <;> simp_all

theorem seenCore_none (h : ∀ u, x.c.log.owner = some u → x.c.log.pc u ≠ .deregBody) :
    seenCore tid x = core x.c.log := by
  simp [seenCore, leaving_none h]

/-- A step that has nothing to do with registration. -/
theorem seenCore_keep (h1 : x'.c.log.owner = x.c.log.owner) (h2 : ∀ u, u ≠ t → x'.c.log.pc u = x.c.log.pc u)
    (h3 : ∀ u, u ≠ t → seenChunk x' u = seenChunk x u) (h4 : x.c.log.pc t ≠ .deregBody) (h5 : x'.c.log.pc t ≠ .deregBody)
    (h6 : x'.c.log.enabled = x.c.log.enabled) (h7 : core x'.c.log = core x.c.log) :
    seenCore tid x' = seenCore tid x := by
  have : leaving x' = leaving x := by
    unfold leaving
    rw [h1]
    cases ho : x.c.log.owner with
    | none => rfl
    | some u =>
      by_cases hu : u = t
      · subst hu
        cases hp : x.c.log.pc u <;> cases hp' : x'.c.log.pc u <;> simp_all
      · simp only [h2 u hu, h3 u hu]
  unfold seenCore
  rw [this, h6, h7]

theorem notWait (hi : Custom.Inv x.c) (hin : x.c.inCall t = none) {e : ε} {p : Nat} : x.c.log.pc t ≠ .getWait e p :=
  fun h => by have := hi.waits t e p h; rw [hin] at this; cases this

theorem events_of {u p i : Nat} (h : ∀ e p, x.c.log.pc u ≠ .getWait e p) : events x u p i = x.c.count p i := by
  unfold events
  split
  · rename_i e q hp; exact absurd hp (h e q)
  · rfl

/-- A step outside the functions of the buffer that does not touch the buffer. -/
theorem Seen.upd (h : Seen tid o x s) (hi : Custom.Inv x.c) {q : Pc ε}
    (hin : x.c.inCall t = none) (hcall : x'.c.inCall = x.c.inCall) (hbuf : x'.buf = x.buf) (hcount : x'.c.count = x.c.count)
    (hpl : x'.c.log.pc = setf x.c.log.pc t q) (hps : s'.pc t = q) (hpo : ∀ u, u ≠ t → s'.pc u = s.pc u)
    (hq : seePc q (x'.c.log.tenant t).chunk.isSome false = q) (e : Eqs x'.c.log s')
    (hlock : ∀ u, (s'.tenant u).lock = (x'.c.log.tenant u).lock)
    (hch : ∀ u, (x'.c.log.tenant u).chunk = (x.c.log.tenant u).chunk ∧ (s'.tenant u).chunk = (s.tenant u).chunk ∨
      x.c.inCall u = none ∧ (u ≠ t → ∀ b w, seePc (x.c.log.pc u) b w = x.c.log.pc u) ∧ (x'.c.log.tenant u).chunk = none ∧
        (s'.tenant u).chunk = none)
    (hcore : Custom.Inv x.c → (∀ u, u ≠ t → x'.c.log.pc u = x.c.log.pc u) → LogBuf.core s' = seenCore tid x')
    (hb : x'.c.log.buffer = x.c.log.buffer ∨ x'.c.log.buffer = none)
    (hheap : s'.heap = s.heap) (hcont : s'.contents = s.contents) (hst : s'.stored = s.stored)
    (hnb : x'.c.log.nextBuf = x.c.log.nextBuf) : Seen tid o x' s' := by
  have hpt : x'.c.log.pc t = q := by rw [hpl, setf_self]
  have hpu : ∀ u, u ≠ t → x'.c.log.pc u = x.c.log.pc u := fun u hu => by rw [hpl, setf_ne _ _ hu]
  have hin' : ∀ {u}, x.c.inCall u = none → x'.c.inCall u = none := fun h => by rw [hcall]; exact h
  have hqw : ∀ e p, q ≠ .getWait e p := by
    intro e p he
    rw [he] at hq
    cases hc : (x'.c.log.tenant t).chunk.isSome <;> rw [hc] at hq <;> cases hq
  have hc' : ∀ u, (s'.tenant u).chunk = seenChunk x' u ∧ (seenChunk x' u = seenChunk x u ∨ seenChunk x' u = none) := by
    intro u
    by_cases hu : u = t
    · subst hu
      rw [seenChunk_out (hin' hin), seenChunk_out hin]
      rcases hch u with ⟨h1, h2⟩ | ⟨_, _, h2, h3⟩
      · rw [h1, h2, h.chunk, seenChunk_out hin]; exact ⟨rfl, .inl rfl⟩
      · rw [h2, h3]; exact ⟨rfl, .inr rfl⟩
    · rcases hch u with ⟨h1, h2⟩ | ⟨h0, _, h2, h3⟩
      · have : seenChunk x' u = seenChunk x u :=
          seenChunk_congr (by rw [hcall]) (hpu u hu) h1 (fun p _ => by rw [hbuf])
        rw [h2, this, h.chunk]; exact ⟨rfl, .inl rfl⟩
      · rw [seenChunk_out (hin' h0), h2, h3]; exact ⟨rfl, .inr rfl⟩
  have hw' : ∀ u, seenWait x' u = seenWait x u := fun u =>
    seenWait_congr (by rw [hcall]) (fun p _ => by rw [hbuf])
  refine ⟨e.config, e.enabled, e.owner, e.buffer, e.generation, e.status, e.nextBuf, e.contexts, hcore hi hpu, hlock,
    fun u => (hc' u).1, fun u => ?_, fun p hp => ?_, fun u p i evs h1 h2 => ?_, fun b v => ?_, fun y hy => ?_⟩
  · by_cases hu : u = t
    · subst hu
      rw [hps, seenPc, hpt, seenChunk_out (hin' hin), seenWait_out (hin' hin), hq]
    · rw [hpo u hu, h.pc u, seenPc, seenPc, hpu u hu, hw' u]
      rcases hch u with ⟨h1, _⟩ | ⟨h0, h1, _, _⟩
      · rw [seenChunk_congr (x' := x') (by rw [hcall]) (hpu u hu) h1 (fun p _ => by rw [hbuf])]
      · rw [h1 hu, h1 hu]
  · rcases hb with hb | hb
    · rw [hbuf, hheap]; exact h.bufs p (hb ▸ hp)
    · rw [hb] at hp; cases hp
  · rcases (hc' u).2 with h3 | h3
    · rw [h3] at h1
      rw [hcont] at h2
      have := h.count u p i evs h1 h2
      rw [this]
      by_cases hu : u = t
      · subst hu
        rw [events_of (fun e p => notWait hi hin), events_of (by rw [hpt]; exact hqw), hcount]
      · unfold events; rw [hpu u hu, hcount]
    · rw [h3] at h1; cases h1
  · rw [hst]; exact h.stored b v
  · rw [hnb]; exact h.born y hy

theorem core_goto (q : Pc ε) : core (s.goto t q) = core s := rfl
theorem core_setLock {u : Nat} {l : ChunkLock.State} : core (s.setLock u l) = core s := by
  simp only [core, St.setLock, Prod.mk.injEq, true_and]
  funext v
  by_cases hv : v = u
  · subst hv; simp only [setf_self]
  · simp only [setf_ne _ _ hv]
theorem core_setChunk {u : Nat} {c : Option (Nat × Nat)} : core (s.setChunk u c) = core s := by
  simp only [core, St.setChunk, Prod.mk.injEq, true_and]
  funext v
  by_cases hv : v = u
  · subst hv; simp only [setf_self]
  · simp only [setf_ne _ _ hv]

theorem seePc_dereg {q : Pc ε} (hq : ∀ b, seePc q b false = q) : q ≠ .deregBody := by
  intro h; subst h; have := hq false; cases this

/-- A step of a thread that has nothing to do with registration: it goes to `q`. -/
theorem Seen.goto (h : Seen tid o x s) (hi : Custom.Inv x.c) (hin : x.c.inCall t = none) (hp : x.c.log.pc t ≠ .deregBody)
    {q : Pc ε} (hq : seePc q (x.c.log.tenant t).chunk.isSome false = q) (hd : q ≠ .deregBody) :
    Seen tid o ⟨{ x.c with log := x.c.log.goto t q }, x.buf⟩ (s.goto t q) := by
  refine h.upd hi hin rfl rfl rfl rfl (by simp [St.goto]) (fun u hu => by simp [St.goto, setf_ne _ _ hu]) hq
    ⟨h.config, h.enabled, h.owner, h.buffer, h.generation, h.status, h.nextBuf, h.contexts⟩ h.lock
    (fun u => .inl ⟨rfl, rfl⟩) (fun _ hpu => ?_) (.inl rfl) rfl rfl rfl rfl
  rw [core_goto, h.core]
  symm
  exact seenCore_keep (t := t) rfl hpu (fun u hu => seenChunk_congr rfl (hpu u hu) rfl (fun _ _ => rfl)) hp
    (by simpa [St.goto] using hd) rfl rfl

theorem lock_setLock {u : Nat} {l : ChunkLock.State} (h : ∀ v, (s.tenant v).lock = (s'.tenant v).lock) (v : Nat) :
    ((s.setLock u l).tenant v).lock = ((s'.setLock u l).tenant v).lock := by
  by_cases hv : v = u
  · subst hv; simp [St.setLock]
  · simp [St.setLock, setf_ne _ _ hv, h]
theorem chunk_setLock {u : Nat} {l : ChunkLock.State} (v : Nat) :
    ((s.setLock u l).tenant v).chunk = (s.tenant v).chunk := by
  by_cases hv : v = u
  · subst hv; simp [St.setLock]
  · simp [St.setLock, setf_ne _ _ hv]

/-- The same, with a write to a lock. -/
theorem Seen.gotoLock (h : Seen tid o x s) (hi : Custom.Inv x.c) (hin : x.c.inCall t = none) (hp : x.c.log.pc t ≠ .deregBody)
    {q : Pc ε} {u : Nat} {l : ChunkLock.State} (hq : seePc q (x.c.log.tenant t).chunk.isSome false = q) (hd : q ≠ .deregBody) :
    Seen tid o ⟨{ x.c with log := (x.c.log.setLock u l).goto t q }, x.buf⟩ ((s.setLock u l).goto t q) := by
  have e : ∀ v, ((x.c.log.setLock u l).tenant v).chunk = (x.c.log.tenant v).chunk := chunk_setLock
  refine h.upd hi hin rfl rfl rfl rfl (by simp [St.goto, St.setLock]) (fun u hu => by simp [St.goto, St.setLock, setf_ne _ _ hu])
    (by show seePc q ((x.c.log.setLock u l).tenant t).chunk.isSome false = q; rw [e]; exact hq)
    ⟨h.config, h.enabled, h.owner, h.buffer, h.generation, h.status, h.nextBuf, h.contexts⟩
    (fun v => lock_setLock h.lock v)
    (fun v => .inl ⟨e v, chunk_setLock v⟩) (fun _ hpu => ?_) (.inl rfl) rfl rfl rfl rfl
  rw [core_goto, core_setLock, h.core]
  symm
  exact seenCore_keep (t := t) rfl hpu (fun v hv => seenChunk_congr rfl (hpu v hv) (e v) (fun _ _ => rfl)) hp
    (by simpa [St.goto] using hd) rfl
    ((core_goto (s := x.c.log.setLock u l) (t := t) q).trans core_setLock)

/-- A step of the thread that has the mutex, or takes it, or gives it away. -/
theorem Seen.mine (h : Seen tid o x s) (hi : Custom.Inv x.c) (hin : x.c.inCall t = none) {l s1 : St ε} {q : Pc ε}
    (hx : x'.c.log = l.goto t q) (hcall : x'.c.inCall = x.c.inCall) (hbuf : x'.buf = x.buf) (hcount : x'.c.count = x.c.count)
    (hl : l.pc = x.c.log.pc) (hs : s1.pc = s.pc) (e : Eqs l s1) (hc : LogBuf.core s1 = LogBuf.core l)
    (hlock : ∀ u, (s1.tenant u).lock = (l.tenant u).lock)
    (hch : ∀ u, (l.tenant u).chunk = (x.c.log.tenant u).chunk ∧ (s1.tenant u).chunk = (s.tenant u).chunk ∨
      x.c.inCall u = none ∧ (u ≠ t → ∀ b w, seePc (x.c.log.pc u) b w = x.c.log.pc u) ∧ (l.tenant u).chunk = none ∧
        (s1.tenant u).chunk = none)
    (hown : ∀ u, l.owner = some u → u = t) (hq : ∀ b, seePc q b false = q)
    (hb : l.buffer = x.c.log.buffer ∨ l.buffer = none) (hheap : s1.heap = s.heap) (hcont : s1.contents = s.contents)
    (hst : s1.stored = s.stored) (hnb : l.nextBuf = x.c.log.nextBuf) : Seen tid o x' (s1.goto t q) := by
  refine h.upd (x' := x') (q := q) hi hin hcall hbuf hcount (by rw [hx]; simp [St.goto, hl]) (by simp [St.goto])
    (fun u hu => by simp [St.goto, setf_ne _ _ hu, hs]) (hq _) (by rw [hx]; exact ⟨e.1, e.2, e.3, e.4, e.5, e.6, e.7, e.8⟩)
    (by rw [hx]; exact hlock) (by rw [hx]; exact hch) (fun _ hpu => ?_) (by rw [hx]; exact hb) hheap hcont hst
    (by rw [hx]; exact hnb)
  rw [core_goto, hc, seenCore_none, hx, core_goto]
  intro u hu
  rw [hx] at hu ⊢
  have := hown u hu
  subst this
  simp only [St.goto, setf_self]
  exact seePc_dereg hq

/-- The thread that has the mutex sees the state of registration as it is. -/
theorem Seen.core_eq (h : Seen tid o x s) (hown : ∀ u, x.c.log.owner = some u → u = t) (hp : x.c.log.pc t ≠ .deregBody) :
    LogBuf.core s = LogBuf.core x.c.log := by
  rw [h.core, seenCore_none]
  intro u hu
  rw [hown u hu]; exact hp

theorem owner_me (hi : Custom.Inv x.c) (h : (x.c.log.pc t).holdsMutex = true) : x.c.log.owner = some t :=
  (hi.ctl.own t).2 h

/-- Whether a thread that is not deregistering is initialised. -/
theorem Seen.init (h : Seen tid o x s) (hp : x.c.log.pc t ≠ .deregBody) :
    (s.tenant t).initialised = (x.c.log.tenant t).initialised := by
  have hc := h.core
  unfold seenCore at hc
  split at hc
  · rename_i u hu
    have hne : t ≠ u := by
      rintro rfl
      unfold leaving at hu
      split at hu
      · cases hu
      · rename_i v hv
        split at hu
        · rename_i hd
          split at hu
          · cases hu; exact hp hd
          · cases hu
        · cases hu
    have := congrFun (congrArg (fun c : Core => c.2.2.2.2) hc) t
    by_cases hiu : (x.c.log.tenant u).initialised = true
    · simpa [LogBuf.core, unreg, hiu, setf_ne _ _ hne] using this
    · simpa [LogBuf.core, unreg, hiu] using this
  · exact congrFun (congrArg (fun c : Core => c.2.2.2.2) hc) t

theorem core_iff {l : St ε} : core s = core l ↔ s.registered = l.registered ∧ s.names = l.names ∧ s.dereg = l.dereg ∧
    s.hist = l.hist ∧ ∀ u, (s.tenant u).initialised = (l.tenant u).initialised := by
  simp only [core, Prod.mk.injEq, funext_iff]

/-- Where a thread outside the functions of the buffer is. -/
theorem Seen.pc_out (h : Seen tid o x s) (hin : x.c.inCall t = none) {q : Pc ε} (hp : x.c.log.pc t = q)
    (hq : ∀ b, seePc q b false = q) : s.pc t = q := by
  rw [h.pc, seenPc, seenWait_out hin, hp, hq]

theorem Seen.chunk_out (h : Seen tid o x s) (hin : x.c.inCall t = none) : (s.tenant t).chunk = (x.c.log.tenant t).chunk := by
  rw [h.chunk, seenChunk_out hin]

end Phosphor.LogBuf
