import Verif.Proof.WeakCur
import Verif.Props.ChunkLockWeak
/-
Property C88, for the chunk lock: with its memory orders it has every execution the interleaving
model has, and it is always passed on.
-/
namespace Phosphor.ChunkLock.W
open Phosphor.Weak
variable {w w' : St} {s s' : ChunkLock.St} {t : Nat}

theorem wf_step (h : w.mem.Wf) (hs : Step w w') : w'.mem.Wf := by
  cases hs with
  | other => exact h.other
  | otherLoad hr => exact h.loadAcq hr.1
  | otherStore => exact h.storeRel
  | otherRmw hr => exact h.rmwAcqRel hr.1
  | callLockS => exact h
  | callTryS => exact h
  | callLockM => exact h
  | casOk _ hr => exact h.rmwAcqRel hr.1
  | casFail _ hr => exact h.loadAcq hr.1
  | read => exact h.read _
  | write => exact h.write _
  | unlock => exact h.storeRel
  | unlockDebug _ hr => exact h.rmwAcqRel hr.1

theorem Reachable.wf (h : Reachable w) : w.mem.Wf := by
  induction h with
  | init => exact .init _
  | step _ hs ih => exact wf_step ih hs

/-- The latest value of the lock word of `w` is that of `s`. -/
structure Now (w : St) (s : ChunkLock.St) : Prop where
  state : w.mem.Cur .lock s.state
  pc : w.pc = s.pc

/-- A successful exchange. -/
theorem Now.ok (h : Now w s) (hw : w.mem.Wf) {d : State} {q : Pc} (he : exchange (w.pc t) = some (d, q))
    (hu : s.state = .unlocked) : ∃ w', Step w w' ∧ w'.mem.Cur .lock d ∧ w'.pc = setf s.pc t q := by
  obtain ⟨ts, m, hr, hv, hn, -, hl⟩ := h.state.get hw t
  exact ⟨_, .casOk he hr (hv.trans hu) hn, .new hl rfl rfl, by rw [← h.pc]⟩

/-- An exchange that fails. -/
theorem Now.fail (h : Now w s) (hw : w.mem.Wf) {d : State} {q : Pc} (he : exchange (w.pc t) = some (d, q)) :
    ∃ w', Step w w' ∧ w'.mem.Cur .lock s.state ∧ w'.pc = setf s.pc t (afterFail (s.pc t) s.state) := by
  obtain ⟨ts, m, hr, hv, -⟩ := h.state.get hw t
  exact ⟨_, .casFail he hr, h.state.keep rfl, by rw [← h.pc, ← hv]⟩

theorem setf_same {α : Type} {f : Nat → α} {t : Nat} {a : α} (h : f t = a) : setf f t a = f := by
  funext u
  by_cases hu : u = t
  · subst hu; rw [setf_self, h]
  · rw [setf_ne _ _ hu]

/-- Every step of an interleaving is a step with the memory orders. -/
theorem Now.step (h : Now w s) (hw : w.mem.Wf) (hs : ChunkLock.Step s s') : ∃ w', Step w w' ∧ Now w' s' := by
  have unl : ∀ t, Holds w t → ∃ w', Step w w' ∧ w'.mem.Cur .lock .unlocked ∧ w'.pc = setf s.pc t .idle := by
    intro t ht
    obtain ⟨ts, m, -, -, -, hf, hl⟩ := h.state.get hw t
    exact ⟨_, .unlock ht hf, .new hl rfl rfl, by rw [← h.pc]⟩
  cases hs with
  | callLockS hp => exact ⟨_, .callLockS (by rw [h.pc]; exact hp), h.state, by simp [h.pc]⟩
  | callLockM hp => exact ⟨_, .callLockM (by rw [h.pc]; exact hp), h.state, by simp [h.pc]⟩
  | callTryS hp => exact ⟨_, .callTryS (by rw [h.pc]; exact hp), h.state, by simp [h.pc]⟩
  | @lockS t sp hp =>
    have he : exchange (w.pc t) = some (.slaveLocked, .heldS) := by rw [h.pc, hp]; rfl
    by_cases hc : s.state = .unlocked ∧ sp = false
    · obtain ⟨w', h1, h2, h3⟩ := h.ok hw he hc.1
      exact ⟨w', h1, by simpa [lockRound, casWeak, hc] using h2, by simpa [lockRound, casWeak, hc] using h3⟩
    · obtain ⟨w', h1, h2, h3⟩ := h.fail hw he
      refine ⟨w', h1, by simpa [lockRound, casWeak, hc] using h2, ?_⟩
      rw [h3, setf_same (by rw [hp]; simp [afterFail])]
      simp [lockRound, casWeak, hc]
  | @lockM t sp hp =>
    have he : exchange (w.pc t) = some (.masterLocked, .heldM) := by rw [h.pc, hp]; rfl
    by_cases hc : s.state = .unlocked ∧ sp = false
    · obtain ⟨w', h1, h2, h3⟩ := h.ok hw he hc.1
      exact ⟨w', h1, by simpa [lockRound, casWeak, hc] using h2, by simpa [lockRound, casWeak, hc] using h3⟩
    · obtain ⟨w', h1, h2, h3⟩ := h.fail hw he
      refine ⟨w', h1, by simpa [lockRound, casWeak, hc] using h2, ?_⟩
      rw [h3, setf_same (by rw [hp]; simp [afterFail])]
      simp [lockRound, casWeak, hc]
  | @tryAgain t sp hp hr =>
    have he : exchange (w.pc t) = some (.slaveLocked, .heldS) := by rw [h.pc, hp]; rfl
    obtain ⟨w', h1, h2, h3⟩ := h.fail hw he
    by_cases hc : s.state = .unlocked ∧ sp = false
    · simp [tryRound, casWeak, hc] at hr
    · by_cases hm : s.state = .masterLocked
      · simp [tryRound, casWeak, hm] at hr
      · refine ⟨w', h1, by simpa [tryRound, casWeak, hc, hm] using h2, ?_⟩
        rw [h3, setf_same (by rw [hp]; simp [afterFail, hm])]
  | @tryRet t sp r hp hr =>
    have he : exchange (w.pc t) = some (.slaveLocked, .heldS) := by rw [h.pc, hp]; rfl
    by_cases hc : s.state = .unlocked ∧ sp = false
    · obtain ⟨w', h1, h2, h3⟩ := h.ok hw he hc.1
      have e : r = true := by simpa [tryRound, casWeak, hc] using hr.symm
      subst e
      exact ⟨w', h1, by simpa [tryRound, casWeak, hc] using h2, by simpa using h3⟩
    · by_cases hm : s.state = .masterLocked
      · obtain ⟨w', h1, h2, h3⟩ := h.fail hw he
        have e : r = false := by simpa [tryRound, casWeak, hm] using hr.symm
        subst e
        refine ⟨w', h1, by simpa [tryRound, casWeak, hm] using h2, ?_⟩
        rw [h3, hp, hm]
        simp [afterFail]
      · simp [tryRound, casWeak, hc, hm] at hr
  | unlockS hp => obtain ⟨w', h1, h2, h3⟩ := unl _ (.inl (by rw [h.pc]; exact hp)); exact ⟨w', h1, h2, h3⟩
  | unlockM hp => obtain ⟨w', h1, h2, h3⟩ := unl _ (.inr (by rw [h.pc]; exact hp)); exact ⟨w', h1, h2, h3⟩

/-- C88: every state an interleaving of lock operations reaches is also reached with the memory
orders of the source. -/
theorem C88_lock {s : ChunkLock.St} (h : ChunkLock.Reachable s) :
    ∃ w, Reachable w ∧ w.pc = s.pc ∧ w.mem.Cur .lock s.state := by
  suffices hx : ∃ w, Reachable w ∧ Now w s by
    obtain ⟨w, h1, h2⟩ := hx
    exact ⟨w, h1, h2.pc, h2.state⟩
  induction h with
  | init => exact ⟨_, .init, .init _, rfl⟩
  | step _ hs ih =>
    obtain ⟨w, h1, h2⟩ := ih
    obtain ⟨w', h3, h4⟩ := h2.step h1.wf hs
    exact ⟨w', .step h1 h3, h4⟩

/-- C88: the lock is passed on: whatever stale values a thread in one of the loops has seen, it can
take the lock, at once if the lock is free, and otherwise as soon as the one that holds it has
released it, which that one can do. -/
theorem C88_passed_on (h : Reachable w) {t : Nat} {d : State} {q : Pc} (ht : exchange (w.pc t) = some (d, q)) :
    ∃ w1 w2, ((w1 = w ∧ ∀ u, ¬ Holds w u) ∨ ∃ u, Holds w u ∧ Step w w1 ∧ w1.pc = setf w.pc u .idle) ∧
      Step w1 w2 ∧ w2.pc t = q := by
  by_cases hh : ∃ u, Holds w u
  · obtain ⟨u, hu⟩ := hh
    obtain ⟨ts, hf⟩ := h.wf.free u .lock
    have hs : Step w _ := .unlock hu hf
    have hut : t ≠ u := by
      rintro rfl
      rcases hu with e | e <;> rw [e] at ht <;> cases ht
    obtain ⟨w2, h1, h2⟩ := C63_available (h.step hs) (t := t) (d := d) (q := q) (fun v hv => by
      by_cases e : v = u
      · subst e; rcases hv with e | e <;> simp [setf_self] at e
      · have : Holds w v := by
          rcases hv with e' | e'
          · left; rw [← e']; exact (setf_ne _ _ e).symm
          · right; rw [← e']; exact (setf_ne _ _ e).symm
        exact e (C63_exclusive h this hu)) (by
      show exchange (setf w.pc u .idle t) = _
      rw [setf_ne _ _ hut]; exact ht)
    exact ⟨_, w2, Or.inr ⟨u, hu, hs, rfl⟩, h1, h2⟩
  · have hn : ∀ u, ¬ Holds w u := fun u hu => hh ⟨u, hu⟩
    obtain ⟨w2, h1, h2⟩ := C63_available h hn ht
    exact ⟨w, w2, Or.inl ⟨rfl, hn⟩, h1, h2⟩

/-- C88: `tryLockSlave` can give up at once when the master holds the lock. -/
theorem C88_gives_up (h : Reachable w) {t u : Nat} (hu : w.pc u = .heldM) (ht : w.pc t = .tryS) :
    ∃ w', Step w w' ∧ w'.pc t = .idle := by
  obtain ⟨top, hi⟩ := inv_reachable h
  obtain ⟨m, h1, h2⟩ := hi.topMsg
  have h3 := (hi.held u (.inr hu)).2 m h1
  rw [hu] at h3
  have h4 : m.val = .masterLocked := Option.some.inj h3
  obtain ⟨m', hm'⟩ := h.wf.view t .lock
  refine ⟨_, .casFail (ts := top) (by rw [ht]; rfl) ⟨h1, hi.le _ _ hm'⟩, ?_⟩
  show setf w.pc t _ t = _
  rw [setf_self, ht]
  simp [afterFail, h4]

/-- The master holds the lock while the slave tries to take it. -/
example : ∃ w, Reachable w ∧ w.pc 0 = .heldM ∧ w.pc 1 = .tryS := by
  have h := ChunkLock.Reachable.init
  have h := h.step (.callLockM (t := 0) rfl)
  have h := h.step (.lockM (t := 0) (sp := false) rfl)
  have h := h.step (.callTryS (t := 1) rfl)
  obtain ⟨w, h1, h2, -⟩ := C88_lock h
  exact ⟨w, h1, by rw [h2]; rfl, by rw [h2]; rfl⟩

end Phosphor.ChunkLock.W
