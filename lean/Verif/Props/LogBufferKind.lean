import Verif.Props.LogBufferFair
/-
C100: the buffers of the composition are of the kind and size the log asked for.
-/
namespace Phosphor.Custom
open TLog
variable {ε : Type} {tid : Nat → Nat} {c c' : CSt ε} {t : Nat}

/-- A step keeps the shape of the buffers there are. -/
theorem heap_next {a : Act ε} (hs : c.next tid t a = .to c') {b : Nat} (hb : b ≠ c.log.nextBuf) :
    SameShape (c'.log.heap b) (c.log.heap b) := by
  have lift : ∀ {k : Choice ε}, c.lift (c.log.next true tid t k) = .to c' → SameShape (c'.log.heap b) (c.log.heap b) := by
    intro k hs
    unfold CSt.lift at hs
    split at hs <;> cases hs
    rename_i l hl
    exact (next_bufop hl b hb).shape
  have out : ∀ {k : Choice ε}, c.moveOut (c.log.next true tid t k) = .to c' → SameShape (c'.log.heap b) (c.log.heap b) := by
    intro k hs
    unfold CSt.moveOut at hs
    split at hs <;> cases hs
    rename_i l hl
    exact (next_bufop hl b hb).shape
  have give : ∀ {p q i : Nat}, c.giveBack t p q i = .to c' → SameShape (c'.log.heap b) (c.log.heap b) := by
    intro p q i hs
    unfold CSt.giveBack at hs
    split at hs <;> cases hs
    exact .refl _
  have step : ∀ {sp : Bool}, c.step tid t sp = .to c' → SameShape (c'.log.heap b) (c.log.heap b) := by
    intro sp hs
    unfold CSt.step at hs
    split at hs
    · split at hs
      · cases hs; exact .refl _
      · split at hs <;> cases hs; exact .refl _
    · split at hs
      · cases hs
      · exact give hs
    · split at hs <;> cases hs; exact .refl _
    · cases hs
    · split at hs
      · cases hs
      · split at hs <;> cases hs; exact .refl _
    · split at hs
      · exact give hs
      · exact lift hs
    · cases hs
      simp only [St.goto, St.createBuffer, setf_ne _ _ hb]
      exact .refl _
    · exact lift hs
  cases a with
  | result r =>
    simp only [CSt.next, CSt.result] at hs
    split at hs
    · split at hs
      · cases hs; exact .refl _
      · split at hs <;> cases hs; exact .refl _
    · cases hs
  | stats =>
    simp only [CSt.next, CSt.stats] at hs
    split at hs
    · split at hs
      · split at hs
        · split at hs <;> cases hs; exact .refl _
        · cases hs
      · cases hs
    · cases hs
  | act k =>
    simp only [CSt.next] at hs
    split at hs
    · split at hs
      · unfold CSt.leave at hs
        split at hs
        · split at hs <;> cases hs; exact .refl _
        · split at hs <;> cases hs; exact .refl _
        · cases hs; exact .refl _
        · cases hs
      · cases hs
    · split at hs
      · exact step hs
      · exact step hs
      · unfold CSt.start at hs
        split at hs
        · split at hs
          · cases hs
          · split at hs
            · cases hs; exact .refl _
            · dsimp only at hs
              split at hs <;> cases hs <;> exact .refl _
        · cases hs
      · split at hs <;> cases hs
        rename_i l hl
        exact (next_bufop hl b hb).shape
      · exact out hs
      · exact out hs
      · exact lift hs

end Phosphor.Custom

namespace Phosphor.LogBuf
open TLog
variable {ε : Type} {tid : Nat → Nat} {x x' : XSt ε} {t u p : Nat}

/-- Whether a buffer is a ring, and its number of chunks. -/
def Buf.shape : Buf → Bool × Nat
  | .fixed s => (false, s.size)
  | .ring s => (true, s.size)

theorem ringTo_shape {s : RingConc.St} {c : RingConc.Choice} {b : Buf} (h : Buf.ringTo (s.next t c) = some b) :
    b.shape = (true, s.size) := by
  unfold Buf.ringTo at h
  split at h <;> cases h
  rename_i s' hs
  simp only [Buf.shape, RingConc.next_size hs]

theorem get_shape {b b' : Buf} (h : b.get t = some b') : b'.shape = b.shape := by
  cases b with
  | ring s => exact ringTo_shape h
  | fixed s =>
    simp only [Buf.get, FSt.get, Option.map_eq_some_iff] at h
    obtain ⟨s', h, rfl⟩ := h
    split at h <;> cases h; rfl

theorem ret_shape {b b' : Buf} {i : Nat} (h : b.ret t i = some b') : b'.shape = b.shape := by
  cases b with
  | ring s => exact ringTo_shape h
  | fixed s =>
    simp only [Buf.ret, FSt.ret, Option.map_eq_some_iff] at h
    obtain ⟨s', h, rfl⟩ := h
    split at h <;> cases h; rfl

/-- The buffer after an access. -/
def Ev.after {σ : Type} : Ev σ → Option σ
  | .inside s => some s
  | .got s _ => some s
  | .gave s => some s
  | _ => none

theorem step_shape {b b' : Buf} {sp : Bool} (h : (b.step t sp).after = some b') : b'.shape = b.shape := by
  cases b with
  | ring s =>
    simp only [Buf.step] at h
    have key : ∀ s', s.access t sp = .to s' → s'.size = s.size := fun s' hs =>
      RingConc.next_size (t := t) (c := if sp then .spurious else .step) (by cases sp <;> exact hs)
    unfold Buf.ringEv at h
    split at h
    · rename_i s' hs
      have := key s' hs
      split at h <;> cases h <;> simp only [Buf.shape, this]
    · cases h
    · cases h
  | fixed s =>
    simp only [Buf.step, FSt.step] at h
    split at h
    · cases h
    · split at h <;> cases h <;> rfl
    · split at h <;> cases h; rfl
    · cases h; rfl
    · cases h; rfl

/-- A step keeps the shape of the buffers there are; one that the log creates has the mode of the configuration and the
size the log has asked for. -/
theorem shape_next {a : XAct ε} (hI : XInv tid x) (hs : x.next tid t a = .to x') :
    (x'.c.log.nextBuf = x.c.log.nextBuf ∨ x'.c.log.nextBuf = x.c.log.nextBuf + 1 ∧
      ∃ n, (x'.buf x.c.log.nextBuf).shape = (decide (x.c.log.config.mode = .ring), n) ∧
        x'.c.log.heap x.c.log.nextBuf = makeBuffer x.c.log.config x.c.log.generation n) ∧
    ∀ p, p < x.c.log.nextBuf → (x'.buf p).shape = (x.buf p).shape := by
  have hi := hI.inv
  have key : ∀ {o : Out (Custom.CSt ε)}, (∀ c', o = .to c' → LogStep x.c t c') → x.logged t o = .to x' →
      (x'.c.log.nextBuf = x.c.log.nextBuf ∨ x'.c.log.nextBuf = x.c.log.nextBuf + 1 ∧
      ∃ n, (x'.buf x.c.log.nextBuf).shape = (decide (x.c.log.config.mode = .ring), n) ∧
        x'.c.log.heap x.c.log.nextBuf = makeBuffer x.c.log.config x.c.log.generation n) ∧
      ∀ p, p < x.c.log.nextBuf → (x'.buf p).shape = (x.buf p).shape := by
    intro o ho hs
    unfold XSt.logged at hs
    split at hs
    case h_2 => cases hs
    case h_3 => cases hs
    case h_1 c' =>
      have h1 := ho c' rfl
      split at hs <;> cases hs
      rename_i b hb'
      cases h1 with
      | quiet nb calls =>
        have e : x.bufs t c' = some x.buf := by unfold XSt.bufs; rw [if_pos nb]; exact enter_quiet calls
        rw [e] at hb'; cases hb'
        exact ⟨.inl nb, fun _ _ => rfl⟩
      | get e q hq eq =>
        subst eq
        unfold XSt.bufs at hb'
        rw [if_pos (by rfl), called_some (x := .getBegin t q) rfl] at hb'
        simp only [enter, Option.map_eq_some_iff] at hb'
        obtain ⟨b', hb', rfl⟩ := hb'
        refine ⟨.inl rfl, fun p _ => ?_⟩
        by_cases hpq : p = q
        · subst hpq; simp only [setf_self]; exact get_shape hb'
        · simp only [setf_ne _ _ hpq]
      | ret q i hr eq =>
        subst eq
        unfold XSt.bufs at hb'
        rw [if_pos (by rfl), called_some (x := .retBegin t q i) rfl] at hb'
        simp only [enter, Option.map_eq_some_iff] at hb'
        obtain ⟨b', hb', rfl⟩ := hb'
        refine ⟨.inl rfl, fun p _ => ?_⟩
        by_cases hpq : p = q
        · subst hpq; simp only [setf_self]; exact ret_shape hb'
        · simp only [setf_ne _ _ hpq]
      | create n st hq log calls ins =>
        have hnb : c'.log.nextBuf ≠ x.c.log.nextBuf := by rw [log]; simp [St.goto, St.createBuffer]
        unfold XSt.bufs at hb'
        rw [if_neg hnb, hq] at hb'
        simp only [toCreate] at hb'
        split at hb' <;> cases hb'
        refine ⟨.inr ⟨by simp only [log]; rfl, n, ?_, ?_⟩, fun p hp => ?_⟩
        · simp only [setf_self]
          unfold Buf.init
          cases x.c.log.config.mode <;> rfl
        · simp only [log, St.goto, St.createBuffer, setf_self]
        · have hne : p ≠ x.c.log.nextBuf := by omega
          simp only [setf_ne _ _ hne]
  have back : ∀ {q : Nat} {b : Buf} {o : Out (Custom.CSt ε)}, b.shape = (x.buf q).shape →
      (∀ c', o = .to c' → c'.log.nextBuf = x.c.log.nextBuf) → XSt.back (setf x.buf q b) o = .to x' →
      x'.c.log.nextBuf = x.c.log.nextBuf ∧ ∀ p, (x'.buf p).shape = (x.buf p).shape := by
    intro q b o hb ho hs
    unfold XSt.back at hs
    split at hs <;> cases hs
    refine ⟨ho _ rfl, fun p => ?_⟩
    by_cases hpq : p = q
    · subst hpq; simp only [setf_self]; exact hb
    · simp only [setf_ne _ _ hpq]
  have left : ∀ {q : Nat}, x.c.inCall t = some q → ∀ c', x.c.next tid t (.act .step) = .to c' → c'.log.nextBuf = x.c.log.nextBuf := by
    intro q hin c' hc
    simp only [Custom.CSt.next, hin, Custom.CSt.leave] at hc
    split at hc
    · split at hc <;> cases hc; rfl
    · split at hc <;> cases hc; rfl
    · cases hc; rfl
    · cases hc
  cases a with
  | log a =>
    simp only [XSt.next] at hs
    split at hs
    · rename_i hin
      exact key (fun c' hc => logStep_act hi hin hc) hs
    · cases hs
  | stats =>
    simp only [XSt.next] at hs
    split at hs
    · exact key (fun c' hc => logStep_stats hc) hs
    · cases hs
  | access sp =>
    simp only [XSt.next] at hs
    split at hs
    case h_2 => cases hs
    case h_1 q hin =>
      unfold XSt.access at hs
      split at hs
      · unfold XSt.back at hs
        split at hs <;> cases hs
        exact ⟨.inl (left hin _ (by assumption)), fun _ _ => rfl⟩
      · split at hs
        · cases hs
        · cases hs
        · rename_i b hb
          cases hs
          refine ⟨.inl rfl, fun p _ => ?_⟩
          by_cases hpq : p = q
          · subst hpq; simp only [setf_self]; exact step_shape (t := t) (sp := sp) (by rw [hb]; rfl)
          · simp only [setf_ne _ _ hpq]
        · rename_i b r hb
          obtain ⟨h1, h2⟩ := back (step_shape (t := t) (sp := sp) (by rw [hb]; rfl)) (fun c' hc => by
            simp only [Custom.CSt.next, Custom.CSt.result] at hc
            split at hc
            · split at hc
              · cases hc; rfl
              · split at hc <;> cases hc; rfl
            · cases hc) hs
          exact ⟨.inl h1, fun p _ => h2 p⟩
        · rename_i b hb
          obtain ⟨h1, h2⟩ := back (step_shape (t := t) (sp := sp) (by rw [hb]; rfl)) (left hin) hs
          exact ⟨.inl h1, fun p _ => h2 p⟩

/-- C100: every buffer is of the kind and of the size that the log asked for when it created it; a ring in mode `ring`, a
fixed buffer in the others. -/
theorem C100_kind (h : Reachable tid x) (hp : p < x.c.log.nextBuf) :
    (x.buf p).shape = (decide ((x.c.log.heap p).mode = .ring), (x.c.log.heap p).chunks.length) := by
  induction h with
  | init => cases hp
  | @step x x' t a hr hs ih =>
    have hI := hr.inv
    obtain ⟨h1, h2⟩ := shape_next hI hs
    have old : p < x.c.log.nextBuf → (x'.buf p).shape = (decide ((x'.c.log.heap p).mode = .ring), (x'.c.log.heap p).chunks.length) := by
      intro hlt
      rw [h2 p hlt, ih hlt]
      rcases c_next hs with ⟨hc, _⟩ | ⟨A, hc, _⟩
      · rw [hc]
      · obtain ⟨_, e1, e2⟩ := Custom.heap_next hc (b := p) (by omega)
        rw [e1, e2]
    rcases h1 with h1 | ⟨h1, n, h3, h4⟩
    · exact old (by omega)
    · by_cases hlt : p < x.c.log.nextBuf
      · exact old hlt
      · have e : p = x.c.log.nextBuf := by omega
        subst e
        rw [h3, h4]
        unfold makeBuffer
        cases hm : x.c.log.config.mode <;> simp [Buffer.makeRing, Buffer.makeFixed]

/-- C100: `getChunk` never answers null when tracing is into a ring. -/
theorem C100_ring_answers (h : Reachable tid x) (hp : x.c.log.buffer = some p) (hm : (x.c.log.heap p).mode = .ring) :
    .getEnd u p none ∉ x.c.calls := by
  intro hu
  obtain ⟨s, hs, _⟩ := C100_null h hp hu
  have := C100_kind h (p := p) (by have := h.inv.inv.ctl.last p hp; omega)
  rw [hs, hm] at this
  simp [Buf.shape] at this

/-- A ring of one chunk, and a fixed buffer of one chunk, as the log asked for them. -/
example : check (begin1 .ring) (fun x => x.c.log.nextBuf == 1 && (x.c.log.heap 0).mode == .ring &&
    (x.buf 0).shape == (true, 1)) = true := by decide +kernel
example : check (begin1 .fixed) (fun x => x.c.log.nextBuf == 1 && (x.c.log.heap 0).mode == .fixed &&
    (x.buf 0).shape == (false, 1)) = true := by decide +kernel

end Phosphor.LogBuf
