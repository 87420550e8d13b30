import Verif.Proof.LogBufferRefineLog
import Verif.Proof.LogBufferRefineBuf
/-
The steps that touch the buffer.
-/
namespace Phosphor.LogBuf
open TLog Custom
variable {ε : Type} {tid : Nat → Nat} {o o' : List (Nat × Nat × ε)} {x x' : XSt ε} {s s' : St ε} {t p : Nat}

theorem seenCore_same (h1 : x'.c.log.owner = x.c.log.owner) (h2 : ∀ u, u ≠ t → x'.c.log.pc u = x.c.log.pc u)
    (h3 : ∀ u, u ≠ t → seenChunk x' u = seenChunk x u)
    (h4 : x'.c.log.pc t = x.c.log.pc t ∧ seenChunk x' t = seenChunk x t ∨
      x.c.log.pc t ≠ .deregBody ∧ x'.c.log.pc t ≠ .deregBody)
    (h6 : x'.c.log.enabled = x.c.log.enabled) (h7 : core x'.c.log = core x.c.log) :
    seenCore tid x' = seenCore tid x := by
  rcases h4 with ⟨h4, h5⟩ | ⟨h4, h5⟩
  · have : leaving x' = leaving x := by
      unfold leaving
      rw [h1]
      cases ho : x.c.log.owner with
      | none => rfl
      | some u =>
        by_cases hu : u = t
        · subst hu; simp only [h4, h5]
        · simp only [h2 u hu, h3 u hu]
    unfold seenCore
    rw [this, h6, h7]
  · exact seenCore_keep (t := t) h1 h2 h3 h4 h5 h6 h7

/-- The other threads see nothing of a step of `t`. -/
structure Apart (x : XSt ε) (t : Nat) (x' : XSt ε) : Prop where
  ins : ∀ u, u ≠ t → x'.c.inCall u = x.c.inCall u
  pcs : ∀ u, u ≠ t → x'.c.log.pc u = x.c.log.pc u
  chunks : ∀ u, u ≠ t → (x'.c.log.tenant u).chunk = (x.c.log.tenant u).chunk
  hands : ∀ u, u ≠ t → ∀ p, x.c.inCall u = some p →
    (x'.buf p).hand u = (x.buf p).hand u ∧ (x'.buf p).waits u = (x.buf p).waits u

theorem Apart.chunk (h : Apart x t x') {u : Nat} (hu : u ≠ t) : seenChunk x' u = seenChunk x u :=
  seenChunk_congr (h.ins u hu) (h.pcs u hu) (h.chunks u hu) (fun p hp => (h.hands u hu p hp).1)
theorem Apart.wait (h : Apart x t x') {u : Nat} (hu : u ≠ t) : seenWait x' u = seenWait x u :=
  seenWait_congr (h.ins u hu) (fun p hp => (h.hands u hu p hp).2)
theorem Apart.pc (h : Apart x t x') {u : Nat} (hu : u ≠ t) : seenPc x' u = seenPc x u := by
  rw [seenPc, seenPc, h.pcs u hu, h.chunk hu, h.wait hu]
theorem Apart.events (h : Apart x t x') {u : Nat} (hu : u ≠ t) {p i : Nat} (hc : x'.c.count p i = x.c.count p i) :
    events x' u p i = events x u p i := by unfold LogBuf.events; rw [h.pcs u hu, hc]

theorem Seen.inner (h : Seen tid o x s) (ha : Apart x t x') (e : Eqs x'.c.log s')
    (hlock : ∀ u, (s'.tenant u).lock = (x'.c.log.tenant u).lock) (hsp : ∀ u, u ≠ t → s'.pc u = s.pc u)
    (hsc : ∀ u, u ≠ t → (s'.tenant u).chunk = (s.tenant u).chunk) (hpt : s'.pc t = seenPc x' t)
    (hct : (s'.tenant t).chunk = seenChunk x' t) (hcore : LogBuf.core s' = seenCore tid x')
    (hb : ∀ p, x'.c.log.buffer = some p → BufSeen (x'.buf p) (s'.heap p))
    (hn : ∀ p i evs, seenChunk x' t = some (p, i) → (s'.contents p)[i]? = some (t, evs) → evs.length = events x' t p i)
    (hno : ∀ u, u ≠ t → ∀ p i evs, seenChunk x u = some (p, i) → (s'.contents p)[i]? = some (u, evs) →
      (s.contents p)[i]? = some (u, evs))
    (hnc : ∀ u, u ≠ t → ∀ p i, seenChunk x u = some (p, i) → x'.c.count p i = x.c.count p i)
    (hst : ∀ b v, s'.stored b v = eventsIn o' b v) (hbn : ∀ y ∈ o', y.1 < x'.c.log.nextBuf) : Seen tid o' x' s' := by
  refine ⟨e.config, e.enabled, e.owner, e.buffer, e.generation, e.status, e.nextBuf, e.contexts, hcore, hlock,
    fun u => ?_, fun u => ?_, hb, fun u p i evs h1 h2 => ?_, hst, hbn⟩
  · by_cases hu : u = t
    · subst hu; exact hct
    · rw [hsc u hu, h.chunk, ha.chunk hu]
  · by_cases hu : u = t
    · subst hu; exact hpt
    · rw [hsp u hu, h.pc, ha.pc hu]
  · by_cases hu : u = t
    · subst hu; exact hn p i evs h1 h2
    · rw [ha.chunk hu] at h1
      rw [ha.events hu (hnc u hu p i h1)]
      exact h.count u p i evs h1 (hno u hu p i evs h1 h2)

/-- A step that is none of Model/TraceLog. -/
theorem Seen.stutter (h : Seen tid o x s) (ha : Apart x t x') (e : Eqs x'.c.log s)
    (hlock : ∀ u, (x'.c.log.tenant u).lock = (x.c.log.tenant u).lock)
    (hpt : seenPc x' t = seenPc x t) (hct : seenChunk x' t = seenChunk x t)
    (hd : x'.c.log.pc t = x.c.log.pc t ∨ x.c.log.pc t ≠ .deregBody ∧ x'.c.log.pc t ≠ .deregBody)
    (hcore : LogBuf.core x'.c.log = LogBuf.core x.c.log)
    (hb : ∀ p (B : Buffer ε), x'.c.log.buffer = some p → BufSeen (x.buf p) B → BufSeen (x'.buf p) B)
    (hn : ∀ p i, seenChunk x t = some (p, i) → events x' t p i = events x t p i)
    (hnc : ∀ u, u ≠ t → ∀ p i, seenChunk x u = some (p, i) → x'.c.count p i = x.c.count p i) : Seen tid o x' s := by
  refine h.inner ha e (fun u => by rw [hlock, h.lock]) (fun _ _ => rfl) (fun _ _ => rfl) (by rw [hpt, h.pc])
    (by rw [hct, h.chunk]) ?_ (fun p hp => hb p _ hp (h.bufs p ?_)) (fun p i evs h1 h2 => ?_)
    (fun _ _ _ _ _ _ h => h) hnc h.stored (fun y hy => ?_)
  · rw [h.core]; symm
    refine seenCore_same (t := t) (by rw [← e.owner, h.owner]) ha.pcs (fun u hu => ha.chunk hu) ?_
      (by rw [← e.enabled, h.enabled]) hcore
    rcases hd with hd | hd
    · exact .inl ⟨hd, hct⟩
    · exact .inr hd
  · rw [← h.buffer, e.buffer]; exact hp
  · rw [hct] at h1; rw [hn p i h1]; exact h.count t p i evs h1 h2
  · rw [← e.nextBuf, h.nextBuf]; exact h.born y hy

/-- What deregistering does. -/
structure Dereg (tid : Nat → Nat) (s : St ε) (t : Nat) (s1 : St ε) : Prop where
  core : LogBuf.core s1 = unreg tid s.enabled t (LogBuf.core s)
  eqs : Eqs s s1
  pc : s1.pc = s.pc
  contents : s1.contents = s.contents
  stored : s1.stored = s.stored
  lock : ∀ u, (s1.tenant u).lock = (s.tenant u).lock
  other : ∀ u, u ≠ t → (s1.tenant u).chunk = (s.tenant u).chunk
  mine : (s1.tenant t).chunk = if (s.tenant t).initialised then none else (s.tenant t).chunk
  heap : (s.tenant t).chunk = none ∨ s.buffer = none ∨ (s.tenant t).initialised = false → s1.heap = s.heap
  gave : ∀ b i p, (s.tenant t).initialised = true → (s.tenant t).chunk = some (b, i) → s.buffer = some p →
    p = b ∧ s1.heap = setf s.heap p ((s.heap p).returnChunk i)

theorem dereg_after {s0 : St ε} (hi : (s.tenant t).initialised = true) (h1 : s0 = { s with heap := s0.heap })
    (hh : (s.tenant t).chunk = none ∨ s.buffer = none ∨ (s.tenant t).initialised = false → s0.heap = s.heap)
    (hg : ∀ b i p, (s.tenant t).initialised = true → (s.tenant t).chunk = some (b, i) → s.buffer = some p →
      p = b ∧ s0.heap = setf s.heap p ((s.heap p).returnChunk i)) {s1 : St ε}
    (h : (let s := { s0 with
        tenant := setf s0.tenant t { s0.tenant t with chunk := none, initialised := false }
        registered := s0.registered.filter (· ≠ t)
        hist := .deregOk t :: s0.hist }
      if s.enabled then some { s with dereg := tid t :: s.dereg.filter (· ≠ tid t) }
      else some { s with names := setf s.names (tid t) none }) = some s1) : Dereg tid s t s1 := by
  have hini : (fun u => (setf s.tenant t { s.tenant t with chunk := none, initialised := false } u).initialised) =
      setf (fun u => (s.tenant u).initialised) t false := by
    funext u
    by_cases hu : u = t
    · subst hu; simp only [setf_self]
    · simp only [setf_ne _ _ hu]
  generalize s0.heap = hp at *
  subst h1
  dsimp only at h hh hg
  split at h <;> rename_i he
  all_goals
    cases h
    refine ⟨?_, ⟨rfl, rfl, rfl, rfl, rfl, rfl, rfl, rfl⟩, rfl, rfl, rfl, fun u => ?_, fun u hu => ?_, ?_, hh, hg⟩
  · simp only [core, unreg, hi, he, if_true, hini]
  · by_cases hu : u = t
    · subst hu; simp only [setf_self]
    · simp only [setf_ne _ _ hu]
  · simp only [setf_ne _ _ hu]
  · simp only [setf_self, hi, if_true]
  · simp only [core, unreg, hi, he, if_true, hini]; rfl
  · by_cases hu : u = t
    · subst hu; simp only [setf_self]
    · simp only [setf_ne _ _ hu]
  · simp only [setf_ne _ _ hu]
  · simp only [setf_self, hi, if_true]

theorem deregisterBody_spec {s1 : St ε} (h : s.deregisterBody tid t = some s1) : Dereg tid s t s1 := by
  unfold St.deregisterBody at h
  split at h <;> rename_i hi
  · cases hro : s.returnOwn t with
    | none => rw [hro] at h; cases h
    | some s0 =>
      rw [hro] at h
      unfold St.returnOwn at hro
      split at hro
      · rename_i hc
        cases hro
        exact dereg_after hi rfl (fun _ => rfl) (fun b i p _ hc' => by rw [hc] at hc'; cases hc') h
      · rename_i b i hc
        split at hro
        · rename_i hb
          cases hro
          exact dereg_after hi rfl (fun _ => rfl) (fun b i p _ _ hb' => by rw [hb] at hb'; cases hb') h
        · rename_i q hb
          split at hro <;> rename_i hq
          · cases hro
            refine dereg_after (s0 := s.setBuf q ((s.heap q).returnChunk i)) hi rfl ?_ ?_ h
            · rintro (h | h | h)
              · rw [hc] at h; cases h
              · rw [hb] at h; cases h
              · rw [hi] at h; cases h
            · intro b' i' p' _ h1 h2
              rw [hc] at h1; rw [hb] at h2; cases h1; cases h2
              exact ⟨hq, rfl⟩
          · cases hro
  · cases h
    refine ⟨by simp [core, unreg, hi], ⟨rfl, rfl, rfl, rfl, rfl, rfl, rfl, rfl⟩, rfl, rfl, rfl, fun _ => rfl, fun _ _ => rfl,
      by simp [hi], fun _ => rfl, fun _ _ _ h => absurd h (by simpa using hi)⟩

end Phosphor.LogBuf
