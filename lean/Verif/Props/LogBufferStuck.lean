import Verif.Props.LogBuffer
import Verif.Props.RingConc
/-
C100, continued: what a thread that stands still inside the buffer holds up.
-/
namespace Phosphor.LogBuf
open TLog
variable {ε : Type} {tid : Nat → Nat} {x x' : XSt ε} {t u v : Nat}

/-- A step of one thread leaves the others where they are. -/
theorem next_other {a : XAct ε} (hI : XInv tid x) (hs : x.next tid t a = .to x') (h : u ≠ t) :
    x'.c.log.pc u = x.c.log.pc u ∧ x'.c.inCall u = x.c.inCall u := by
  have hi := hI.inv
  have key : ∀ {o : Out (Custom.CSt ε)}, (∀ c', o = .to c' → LogStep x.c t c') →
      x.logged t o = .to x' → x'.c.log.pc u = x.c.log.pc u ∧ x'.c.inCall u = x.c.inCall u := by
    intro o ho hs
    unfold XSt.logged at hs
    split at hs
    case h_2 => cases hs
    case h_3 => cases hs
    case h_1 c' =>
      have h1 := ho c' rfl
      split at hs <;> cases hs
      refine ⟨h1.pcs u h, ?_⟩
      cases h1 with
      | quiet _ _ _ _ ins => exact ins u h
      | get e p hp eq => subst eq; exact setf_ne _ _ h
      | ret p i hr eq => subst eq; exact setf_ne _ _ h
      | create n st hp log calls ins => exact congrFun ins u
  have left : ∀ {b : Nat → Buf}, XSt.back b (x.c.next tid t (.act .step)) = .to x' → ∀ p, x.c.inCall t = some p →
      x'.c.log.pc u = x.c.log.pc u ∧ x'.c.inCall u = x.c.inCall u := by
    intro b hs p hin
    unfold XSt.back at hs
    split at hs <;> cases hs
    rename_i c' hc
    simp only [Custom.CSt.next, hin, Custom.CSt.leave] at hc
    split at hc
    · split at hc <;> cases hc
      exact ⟨setf_ne _ _ h, setf_ne _ _ h⟩
    · split at hc <;> cases hc
      exact ⟨rfl, setf_ne _ _ h⟩
    · cases hc; exact ⟨rfl, setf_ne _ _ h⟩
    · cases hc
  cases a with
  | log a =>
    simp only [XSt.next] at hs
    split at hs
    · rename_i hin
      exact key (fun c' hc => logStep_act hi hin hc) hs
    · cases hs
  | stats =>
    simp only [XSt.next] at hs
    split at hs
    · exact key (fun c' hc => logStep_stats hc) hs
    · cases hs
  | access sp =>
    simp only [XSt.next] at hs
    split at hs
    case h_2 => cases hs
    case h_1 q hin =>
      unfold XSt.access at hs
      split at hs
      · exact left hs q hin
      · split at hs
        · cases hs
        · cases hs
        · cases hs; exact ⟨rfl, rfl⟩
        · unfold XSt.back at hs
          split at hs <;> cases hs
          rename_i c' hc
          simp only [Custom.CSt.next, Custom.CSt.result] at hc
          split at hc
          · split at hc
            · cases hc; exact ⟨setf_ne _ _ h, setf_ne _ _ h⟩
            · split at hc <;> cases hc
              exact ⟨setf_ne _ _ h, setf_ne _ _ h⟩
          · cases hc
        · exact left hs q hin

/-- Whatever a thread does, it makes at most one step in the ring of the log: an access, if it is inside `getChunk` or
`returnChunk`; or the beginning of a call. -/
theorem ring_next {a : XAct ε} {p : Nat} {s : RingConc.St} (hI : XInv tid x) (hs : x.next tid t a = .to x')
    (hp : x.c.log.buffer = some p) (hb : x.buf p = .ring s) :
    (∃ sp s', a = .access sp ∧ (∀ w st, x.c.log.pc t ≠ .held w st) ∧ x'.buf p = .ring s' ∧
      s.next t (if sp then .spurious else .step) = .to s') ∨
    ((∀ sp, a = .access sp → ∃ w st, x.c.log.pc t = .held w st) ∧
      (x'.buf p = .ring s ∨ ∃ c s', (c = .get ∨ ∃ i, c = .ret i) ∧ x'.buf p = .ring s' ∧ s.next t c = .to s')) := by
  have hi := hI.inv
  have key : ∀ {o : Out (Custom.CSt ε)}, (∀ c', o = .to c' → LogStep x.c t c') → x.logged t o = .to x' →
      x'.buf p = .ring s ∨ ∃ c s', (c = .get ∨ ∃ i, c = .ret i) ∧ x'.buf p = .ring s' ∧ s.next t c = .to s' := by
    intro o ho hs
    unfold XSt.logged at hs
    split at hs
    case h_2 => cases hs
    case h_3 => cases hs
    case h_1 c' =>
      have h1 := ho c' rfl
      split at hs <;> cases hs
      rename_i b hb'
      cases h1 with
      | quiet nb calls =>
        have e : x.bufs t c' = some x.buf := by unfold XSt.bufs; rw [if_pos nb]; exact enter_quiet calls
        rw [e] at hb'; cases hb'
        exact .inl hb
      | get e q hq eq =>
        subst eq
        unfold XSt.bufs at hb'
        rw [if_pos (by rfl), called_some (x := .getBegin t q) rfl] at hb'
        simp only [enter, Option.map_eq_some_iff] at hb'
        obtain ⟨b', hb', rfl⟩ := hb'
        by_cases hpq : p = q
        · subst hpq
          right
          rw [hb] at hb'
          simp only [Buf.get] at hb'
          unfold Buf.ringTo at hb'
          split at hb'
          · rename_i s' hn
            cases hb'
            exact ⟨.get, s', .inl rfl, by simp only [setf_self], hn⟩
          · cases hb'
        · left; simp only [setf_ne _ _ hpq]; exact hb
      | ret q i hr eq =>
        subst eq
        unfold XSt.bufs at hb'
        rw [if_pos (by rfl), called_some (x := .retBegin t q i) rfl] at hb'
        simp only [enter, Option.map_eq_some_iff] at hb'
        obtain ⟨b', hb', rfl⟩ := hb'
        by_cases hpq : p = q
        · subst hpq
          right
          rw [hb] at hb'
          simp only [Buf.ret] at hb'
          unfold Buf.ringTo at hb'
          split at hb'
          · rename_i s' hn
            cases hb'
            exact ⟨.ret i, s', .inr ⟨i, rfl⟩, by simp only [setf_self], hn⟩
          · cases hb'
        · left; simp only [setf_ne _ _ hpq]; exact hb
      | create n st hq log calls ins =>
        have hnb : c'.log.nextBuf ≠ x.c.log.nextBuf := by rw [log]; simp [St.goto, St.createBuffer]
        unfold XSt.bufs at hb'
        rw [if_neg hnb, hq] at hb'
        simp only [toCreate] at hb'
        split at hb' <;> cases hb'
        left
        have := hi.ctl.last _ hp
        have hne : p ≠ x.c.log.nextBuf := by omega
        simp only [setf_ne _ _ hne]; exact hb
  have left : ∀ {b : Nat → Buf} {o : Out (Custom.CSt ε)}, XSt.back b o = .to x' → x'.buf = b := by
    intro b o hs
    unfold XSt.back at hs
    split at hs <;> cases hs
    rfl
  cases a with
  | log a =>
    simp only [XSt.next] at hs
    split at hs
    · rename_i hin
      exact .inr ⟨fun _ h => (by cases h), key (fun c' hc => logStep_act hi hin hc) hs⟩
    · cases hs
  | stats =>
    simp only [XSt.next] at hs
    split at hs
    · exact .inr ⟨fun _ h => (by cases h), key (fun c' hc => logStep_stats hc) hs⟩
    · cases hs
  | access sp =>
    simp only [XSt.next] at hs
    split at hs
    case h_2 => cases hs
    case h_1 q hin =>
      have hq : q = p := by have := (hi.inside t q hin).2; rw [hp] at this; cases this; rfl
      subst hq
      unfold XSt.access at hs
      split at hs
      · rename_i w st hw
        exact .inr ⟨fun _ _ => ⟨w, st, hw⟩, .inl (by rw [left hs]; exact hb)⟩
      · rename_i hw
        left
        have e : s.next t (if sp then .spurious else .step) = s.access t sp := by cases sp <;> rfl
        rw [hb] at hs
        simp only [Buf.step, Buf.ringEv] at hs
        generalize ho : s.access t sp = o at hs
        cases o with
        | to s' =>
          refine ⟨sp, s', rfl, hw, ?_, by rw [e, ho]⟩
          dsimp only at hs
          split at hs
          · cases hs
          · cases hs
          · rename_i b hh
            cases hs
            split at hh <;> cases hh
            simp only [setf_self]
          · rename_i b r hh
            rw [left hs]
            split at hh <;> cases hh
            simp only [setf_self]
          · rename_i b hh
            rw [left hs]
            split at hh <;> cases hh
            simp only [setf_self]
        | ub => simp at hs
        | blocked => simp at hs

/-- C100, against what the mutex is for: a thread that stands still inside `getChunk` of the ring, where it holds no mutex,
keeps a thread that deregisters inside `returnChunk` if it needs the same slot of the queue, and with it the mutex of
the log taken, whatever the other threads do. -/
theorem C100_stuck {p i : Nat} {s : RingConc.St} (h : Reachable tid x) (hv : x.c.log.pc v = .deregBody)
    (hin : x.c.inCall v = some p) (hb : x.buf p = .ring s) (hg : s.giving v i)
    (hc : RingConc.capacity s.size ≤ s.q.enqPos) (hu : (s.q.pc u).deqAt = some (s.q.enqPos - RingConc.capacity s.size))
    {l : List (Nat × XAct ε)} (hl : ∀ a ∈ l, a.1 ≠ u) (hr : x.run tid l = .to x') :
    x'.c.log.pc v = .deregBody ∧ x'.c.inCall v = some p ∧ x'.c.log.owner = some v := by
  induction l generalizing x s with
  | nil =>
    cases hr
    exact ⟨hv, hin, (h.inv.inv.ctl.own v).2 (by rw [hv]; rfl)⟩
  | cons y l ih =>
    obtain ⟨t, a⟩ := y
    simp only [XSt.run] at hr
    split at hr
    case h_2 => cases hr
    case h_3 => cases hr
    case h_1 x1 hs =>
      have hI := h.inv
      have hi := hI.inv
      have hbuf := (hi.inside v p hin).2
      obtain ⟨n, n1, n2, hR⟩ := (C100_contract h).2 p s hbuf hb
      have htu : t ≠ u := hl (t, a) (by simp)
      have hme : x1.c.log.pc v = .deregBody ∧ x1.c.inCall v = some p := by
        by_cases e : v = t
        · subst e
          cases a with
          | log a => simp [XSt.next, hin] at hs
          | stats => simp [XSt.next, hin] at hs
          | access sp =>
            simp only [XSt.next, hin, XSt.access, hv, hb, Buf.step, hg.1, Buf.ringEv] at hs
            split at hs
            · cases hs
            · cases hs
            · cases hs; exact ⟨hv, hin⟩
            · rename_i hh; split at hh <;> cases hh
            · rename_i hh; split at hh <;> cases hh
        · have := next_other hI hs e
          rw [this.1, this.2]; exact ⟨hv, hin⟩
      have rest := fun p hp => hl p (List.mem_cons_of_mem (t, a) hp)
      have hring : x1.buf p = .ring s ∨ ∃ c s', x1.buf p = .ring s' ∧ s.next t c = .to s' := by
        rcases ring_next hI hs hbuf hb with ⟨sp, s', _, _, h1, h2⟩ | ⟨_, h1 | ⟨c, s', _, h1, h2⟩⟩
        · exact .inr ⟨_, s', h1, h2⟩
        · exact .inl h1
        · exact .inr ⟨c, s', h1, h2⟩
      rcases hring with hsame | ⟨c, s', hb', hn⟩
      · exact ih (.step h hs) hme.1 hme.2 hsame hg hc hu rest hr
      · have e1 := hR.size_eq
        have e2 := (hR.step hn).size_eq
        obtain ⟨g1, g2⟩ := RingConc.C98_return_stuck n1 n2 hR (u := u) (s' := s') (by rw [← e1]; exact hc) (by rw [← e1]; exact hu)
          (l := [(t, c)]) (fun p hp => by simp only [List.mem_singleton] at hp; subst hp; exact htu)
          (by simp only [RingConc.St.run, hn])
        have hq := (RingConc.next_other hn (Ne.symm htu)).2
        refine ih (.step h hs) hme.1 hme.2 hb' (g2 v i hg) ?_ ?_ rest hr
        · rw [g1, e2, ← e1]; exact hc
        · rw [hq, g1, e2, ← e1]; exact hu

/-- Thread `t` logs an event, with `n` accesses inside `getChunk`. -/
def logs (t n : Nat) : List (Nat × XAct Nat) := [(t, .log (.log 7))] ++ go t 9 ++ inb t n

/-- Thread 2 starts tracing into a ring of two chunks; thread 1 takes and returns both, one after the other; thread 0
takes the first from the queue and stops before it releases the slot; thread 1 takes the second and deregisters. -/
def jam : List (Nat × XAct Nat) :=
  [(2, .log .lock), (2, .log (.start { mode := .ring, size := 2 * sizeofTraceChunk }))] ++ go 2 2 ++ [(2, .log .ret)] ++ go 2 1
    ++ [(0, .log (.register []))] ++ go 0 2
    ++ [(1, .log (.register []))] ++ go 1 2 ++ logs 1 3 ++ go 1 2 ++ [(1, .log .deregister)] ++ go 1 1 ++ inb 1 6 ++ go 1 2
    ++ [(1, .log (.register []))] ++ go 1 2 ++ logs 1 3 ++ go 1 2 ++ [(1, .log .deregister)] ++ go 1 1 ++ inb 1 6 ++ go 1 2
    ++ logs 0 4
    ++ [(1, .log (.register []))] ++ go 1 2 ++ logs 1 8 ++ go 1 2 ++ [(1, .log .deregister)] ++ go 1 1

/-- C100, the witness: thread 0 stands still in `logEvent` and has no mutex; thread 1 deregisters and never finishes, and
never gives the mutex of the log back, whatever all threads but thread 0 do. -/
theorem C100_refuted_mutex : ∃ x : XSt Nat, Reachable id x ∧ x.c.log.pc 0 = .getWait 7 0 ∧ x.c.log.owner = some 1 ∧
    ∀ l x', (∀ a ∈ l, a.1 ≠ 0) → x.run id l = .to x' → x'.c.log.pc 1 = .deregBody ∧ x'.c.log.owner = some 1 := by
  obtain ⟨x, h, hp⟩ := check_run (l := jam) (P := fun x => x.c.log.pc 0 == .getWait 7 0 &&
    x.c.log.pc 1 == .deregBody && x.c.inCall 1 == some 0 &&
    match x.buf 0 with
    | .ring s => s.size == 2 && s.pc 1 == .give 1 && (s.q.pc 1).enqAt == none && s.q.enqPos == 2 && (s.q.pc 0).deqAt == some 0
    | .fixed _ => false) (by decide +kernel)
  simp only [Bool.and_eq_true, beq_iff_eq] at hp
  obtain ⟨⟨⟨h0, h1⟩, h2⟩, h3⟩ := hp
  split at h3
  case h_2 => cases h3
  case h_1 s hb =>
    simp only [Bool.and_eq_true, beq_iff_eq] at h3
    obtain ⟨⟨⟨⟨q1, q2⟩, q3⟩, q4⟩, q5⟩ := h3
    have cap : RingConc.capacity 2 = 2 := by decide +kernel
    have key := fun l x' (hl : ∀ a ∈ l, a.1 ≠ 0) (hr : x.run id l = .to x') =>
      C100_stuck (u := 0) (v := 1) h h1 h2 hb ⟨q2, q3⟩ (by rw [q1, q4, cap]; exact Nat.le_refl _) (by rw [q1, q4, q5, cap]) hl hr
    refine ⟨x, h, h0, (h.inv.inv.ctl.own 1).2 (by rw [h1]; rfl), fun l x' hl hr => ?_⟩
    have := key l x' hl hr
    exact ⟨this.1, this.2.2⟩

end Phosphor.LogBuf
