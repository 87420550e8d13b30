import Verif.Proof.LogBufferRefineStep
/-
The functions of the log.
-/
namespace Phosphor.LogBuf
open TLog Custom
variable {ε : Type} {tid : Nat → Nat} {o o' : List (Nat × Nat × ε)} {x x' : XSt ε} {s s' : St ε} {t p : Nat}

/-- A step of the thread that has the mutex and stays where it is. -/
theorem Seen.note (h : Seen tid o x s) (hown : x.c.log.owner = some t) (hd : x.c.log.pc t ≠ .deregBody) {l s1 : St ε}
    (h1 : l.pc = x.c.log.pc) (h2 : s1.pc = s.pc) (h3 : l.tenant = x.c.log.tenant) (h4 : s1.tenant = s.tenant) (e : Eqs l s1)
    (ho : l.owner = x.c.log.owner) (hc : LogBuf.core s1 = LogBuf.core l)
    (hb : l.buffer = x.c.log.buffer ∨ l.buffer = none) (hheap : s1.heap = s.heap)
    (hcont : s1.contents = s.contents) (hst : s1.stored = s.stored) (hnb : l.nextBuf = x.c.log.nextBuf) :
    Seen tid o (x.at l) s1 := by
  have hsc : ∀ u, seenChunk (x.at l) u = seenChunk x u := fun u =>
    seenChunk_congr rfl (by show l.pc u = _; rw [h1]) (by show (l.tenant u).chunk = _; rw [h3]) (fun _ _ => rfl)
  have hev : ∀ u p i, events (x.at l) u p i = events x u p i := fun u p i => by
    unfold events
    show (match l.pc u with | .getWait _ _ => 0 | _ => x.c.count p i) = _
    rw [h1]; rfl
  refine ⟨e.config, e.enabled, e.owner, e.buffer, e.generation, e.status, e.nextBuf, e.contexts, ?_, fun u => ?_, fun u => ?_,
    fun u => ?_, fun p hp => ?_, fun u p i evs a b => ?_, fun b v => by rw [hst]; exact h.stored b v, fun y hy => ?_⟩
  · rw [hc, seenCore_none]
    · rfl
    · intro u hu
      have hu' : l.owner = some u := hu
      rw [ho, hown] at hu'
      cases hu'
      show l.pc t ≠ _
      rw [h1]; exact hd
  · rw [h4, h.lock]; show _ = (l.tenant u).lock; rw [h3]
  · rw [h4, hsc, h.chunk]
  · rw [h2, h.pc, seenPc, seenPc, hsc]
    show _ = seePc (l.pc u) _ (seenWait x u)
    rw [h1]
  · have hp' : l.buffer = some p := hp
    rcases hb with hb | hb
    · rw [hb] at hp'; rw [hheap]; exact h.bufs p hp'
    · rw [hb] at hp'; cases hp'
  · rw [hsc] at a; rw [hcont] at b; rw [hev]; exact h.count u p i evs a b
  · show y.1 < l.nextBuf
    rw [hnb]; exact h.born y hy

theorem sim_deregister (hS : Seen tid o x s) (hI : Custom.Inv x.c) (hin : x.c.inCall t = none)
    (hid : x.c.log.isIdle t = true) (hno : x.c.log.owner = none) :
    ∃ s', By tid t [.deregister] s s' ∧ Seen tid o (x.at (({ x.c.log with owner := some t } : St ε).goto t .deregBody)) s' := by
  have hp := isIdle_pc hid
  have hpc : s.pc t = _ := hS.pc_out hin hp (by sid)
  have hids : s.isIdle t = true := by simp [St.isIdle, hpc]
  have hce : core s = core x.c.log := hS.core_eq (t := t) (by simp [hno]) (by simp [hp])
  have hnext : s.next true tid t .deregister = .to (({ s with owner := some t } : St ε).goto t .deregBody) := by
    simp [St.next, hids, hS.owner, hno]
  have A : Apart x t (x.at (({ x.c.log with owner := some t } : St ε).goto t .deregBody)) :=
    ⟨fun _ _ => rfl, fun u hu => setf_ne _ _ hu, fun _ _ => rfl, fun _ _ _ _ => ⟨rfl, rfl⟩⟩
  have hin' : (x.at (({ x.c.log with owner := some t } : St ε).goto t .deregBody)).c.inCall t = none := hin
  have hsc : seenChunk (x.at (({ x.c.log with owner := some t } : St ε).goto t .deregBody)) t = (x.c.log.tenant t).chunk :=
    seenChunk_out hin'
  have hpt : (x.at (({ x.c.log with owner := some t } : St ε).goto t .deregBody)).c.log.pc t = .deregBody := by
    simp [XSt.at, St.goto]
  have hcnt : ∀ q j evs, (x.c.log.tenant t).chunk = some (q, j) → (s.contents q)[j]? = some (t, evs) →
      evs.length = events (x.at (({ x.c.log with owner := some t } : St ε).goto t .deregBody)) t q j := by
    intro q j evs h1 h2
    rw [hS.count t q j evs (by rw [seenChunk_out hin, h1]) h2, events_of (fun e p => notWait hI hin), events_of (by rw [hpt]; simp)]
    rfl
  cases hc : (x.c.log.tenant t).chunk with
  | some bi =>
    refine ⟨_, .one hnext, hS.inner (t := t) A ?_ hS.lock (fun u hu => setf_ne _ _ hu) (fun _ _ => rfl) ?_ ?_ ?_ hS.bufs
      (fun q j evs h1 h2 => hcnt q j evs (by rw [← hsc]; exact h1) h2) (fun _ _ _ _ _ _ h => h) (fun _ _ _ _ _ => rfl) hS.stored hS.born⟩
    · exact ⟨hS.config, hS.enabled, rfl, hS.buffer, hS.generation, hS.status, hS.nextBuf, hS.contexts⟩
    · rw [seenPc, hsc, hc, hpt]; simp [St.goto, seePc]
    · rw [hsc]
      show (s.tenant t).chunk = _
      exact hS.chunk_out hin
    · have : leaving (x.at (({ x.c.log with owner := some t } : St ε).goto t .deregBody)) = none := by
        unfold leaving
        rw [show (x.at (({ x.c.log with owner := some t } : St ε).goto t .deregBody)).c.log.owner = some t from rfl]
        simp only [hpt, hsc, hc]
        simp
      simp only [seenCore, this]
      exact hce
  | none =>
    have hcs : (s.tenant t).chunk = none := by rw [hS.chunk_out hin, hc]
    obtain ⟨s1, hd⟩ : ∃ s1, (({ s with owner := some t } : St ε).goto t .deregBody).deregisterBody tid t = some s1 := by
      simp only [St.deregisterBody, St.returnOwn, St.goto, hcs]
      split
      · split <;> exact ⟨_, rfl⟩
      · exact ⟨_, rfl⟩
    have D := deregisterBody_spec hd
    have E := D.eqs
    refine ⟨s1.goto t .release, .two hnext (c' := .step) (by simp [St.next, St.logStep, St.heldStep, St.goto] at hd ⊢; simp [hd]), ?_⟩
    have hheap : s1.heap = s.heap := D.heap (.inl hcs)
    refine hS.inner (t := t) A ?_ (fun u => ?_) (fun u hu => ?_) (fun u hu => D.other u hu) ?_ ?_ ?_ (fun q hq => ?_)
      (fun q j evs h1 h2 => ?_) (fun u hu q j evs h1 h2 => ?_) (fun _ _ _ _ _ => rfl) (fun b v => ?_) hS.born
    · exact ⟨E.1.trans hS.config, E.2.trans hS.enabled, E.3, E.4.trans hS.buffer, E.5.trans hS.generation,
        E.6.trans hS.status, E.7.trans hS.nextBuf, E.8.trans hS.contexts⟩
    · exact (D.lock u).trans (hS.lock u)
    · show setf s1.pc t _ u = _
      rw [D.pc, setf_ne _ _ hu]; exact setf_ne _ _ hu
    · rw [seenPc, hsc, hc, hpt]; simp [St.goto, seePc]
    · rw [hsc, hc]
      show (s1.tenant t).chunk = none
      rw [D.mine]
      split
      · rfl
      · exact hcs
    · have hl : leaving (x.at (({ x.c.log with owner := some t } : St ε).goto t .deregBody)) = some t := by
        unfold leaving
        rw [show (x.at (({ x.c.log with owner := some t } : St ε).goto t .deregBody)).c.log.owner = some t from rfl]
        simp only [hpt, hsc, hc]
        simp
      simp only [seenCore, hl]
      rw [core_goto, D.core]
      show unreg tid s.enabled t (core s) = unreg tid x.c.log.enabled t (core x.c.log)
      rw [hce, hS.enabled]
    · show BufSeen (x.buf q) (s1.heap q)
      rw [hheap]; exact hS.bufs q hq
    · rw [hsc, hc] at h1; cases h1
    · have h2' : (s1.contents q)[j]? = some (u, evs) := h2
      rw [D.contents] at h2'; exact h2'
    · show s1.stored b v = _
      rw [D.stored]; exact hS.stored b v

theorem pop_mine (st : List Frame) (h : Seen tid o x s) (hI : Custom.Inv x.c) (hin : x.c.inCall t = none)
    (hd : x.c.log.pc t ≠ .deregBody) : Seen tid o (x.at (x.c.log.pop t st)) (s.pop t st) := by
  obtain ⟨q, hq, hg⟩ := pop_goto (ε := ε) (t := t) st
  rw [hg, hg]
  exact h.goto hI hin hd (hq _ _) (seePc_dereg (fun b => hq b _))

theorem unwind_mine (st : List Frame) (h : Seen tid o x s) (hI : Custom.Inv x.c) (hin : x.c.inCall t = none)
    (hd : x.c.log.pc t ≠ .deregBody) : Seen tid o (x.at (x.c.log.unwind t st)) (s.unwind t st) := by
  obtain ⟨q, hq, hg⟩ := unwind_goto (ε := ε) (t := t) st
  rw [hg, hg]
  exact h.goto hI hin hd (hq _ _) (seePc_dereg (fun b => hq b _))

/-- The choices that do not touch the buffer. -/
theorem sim_choice (hS : Seen tid o x s) (hI : Custom.Inv x.c) (hin : x.c.inCall t = none) {c : Choice ε} {l : St ε}
    (hc : plainChoice c = true) (hs : x.c.log.next true tid t c = .to l) :
    ∃ s', By tid t [c] s s' ∧ Seen tid o (x.at l) s' := by
  have hidle : x.c.log.isIdle t = true → s.isIdle t = true := fun h => by
    have hpc : s.pc t = _ := hS.pc_out hin (isIdle_pc h) (by sid)
    simp [St.isIdle, hpc]
  have hnd : x.c.log.isIdle t = true → x.c.log.pc t ≠ .deregBody := fun h => by rw [isIdle_pc h]; simp
  cases c <;> simp only [plainChoice] at hc <;> (try (cases hc; done)) <;> simp only [St.next] at hs
  case log e =>
    split at hs <;> rename_i h
    · cases hs
      exact ⟨_, .one (c := .log e) (by simp [St.next, hidle h]), hS.goto hI hin (hnd h) (by sid) (by simp)⟩
    · cases hs
  case lock =>
    split at hs <;> rename_i h
    · cases hs
      have hce : core s = core x.c.log := hS.core_eq (t := t) (by simp [h.2]) (hnd h.1)
      refine ⟨_, .one (c := .lock) (by simp [St.next, hidle h.1, hS.owner, h.2]; rfl), ?_⟩
      exact hS.mine (q := .held .user []) (s1 := { s with owner := some t }) (l := { x.c.log with owner := some t }) hI hin rfl rfl rfl rfl
        rfl rfl ⟨hS.config, hS.enabled, rfl, hS.buffer, hS.generation, hS.status, hS.nextBuf, hS.contexts⟩ hce hS.lock
        (fun u => .inl ⟨rfl, rfl⟩) (fun u hu => by cases hu; rfl) (by sid) (.inl rfl) rfl rfl rfl rfl
    · cases hs
  case register n =>
    split at hs <;> rename_i h
    · cases hs
      have hce : core s = core x.c.log := hS.core_eq (t := t) (by simp [h.2]) (hnd h.1)
      refine ⟨_, .one (c := .register n) (by simp [St.next, hidle h.1, hS.owner, h.2]; rfl), ?_⟩
      exact hS.mine (q := .regBody n) (s1 := { s with owner := some t }) (l := { x.c.log with owner := some t }) hI hin rfl rfl rfl rfl
        rfl rfl ⟨hS.config, hS.enabled, rfl, hS.buffer, hS.generation, hS.status, hS.nextBuf, hS.contexts⟩ hce hS.lock
        (fun u => .inl ⟨rfl, rfl⟩) (fun u hu => by cases hu; rfl) (by sid) (.inl rfl) rfl rfl rfl rfl
    · cases hs
  case deregister =>
    split at hs <;> rename_i h
    · cases hs
      exact sim_deregister hS hI hin h.1 h.2
    · cases hs
  case stop sh =>
    split at hs
    · rename_i st hp
      have hpc : s.pc t = _ := hS.pc_out hin hp (by sid)
      have hown := owner_me (t := t) hI (by simp [hp, Pc.holdsMutex])
      have hce : core s = core x.c.log := hS.core_eq (t := t) (by simp [hown]) (by simp [hp])
      split at hs <;> rename_i he
      · cases hs
        have := hS.begin (cfg := x.c.log.config) (h0 := []) (sh := sh) (full := none) (st := .resumeUser :: st) hI hin hown hce
        have hse : ({ s with config := x.c.log.config, hist := [] ++ s.hist } : St ε) = s := by rw [← hS.config]; rfl
        rw [hse] at this
        exact ⟨_, .one (c := .stop sh) (by simp only [St.next, hpc, hS.enabled, he, if_true]), this⟩
      · cases hs
        exact ⟨s, .one (c := .stop sh) (by simp only [St.next, hpc, hS.enabled, he]; rfl), hS⟩
    · cases hs
  case ret =>
    split at hs
    · rename_i st hp
      have hpc : s.pc t = _ := hS.pc_out hin hp (by sid)
      cases hs
      exact ⟨_, .one (c := .ret) (by simp only [St.next, hpc]), pop_mine st hS hI hin (by simp [hp])⟩
    · cases hs
  case throw =>
    split at hs
    · rename_i st hp
      have hpc : s.pc t = _ := hS.pc_out hin hp (by sid)
      cases hs
      exact ⟨_, .one (c := .throw) (by simp only [St.next, hpc]), unwind_mine st hS hI hin (by simp [hp])⟩
    · cases hs


end Phosphor.LogBuf
