import Verif.Proof.LogBufferInv
import Verif.Props.CustomBuffer
/-
C100: the trace log over the code of its built-in buffers. For any number of threads and every
interleaving of their accesses to shared memory, inside the buffers as well.
-/
namespace Phosphor.LogBuf
open TLog
variable {ε : Type} {tid : Nat → Nat} {x x' : XSt ε} {t u : Nat}

/-- C100: the log and its buffers keep their promises to one another: every execution of the log over
a built-in buffer is one of the log over some buffer that lends no chunk twice (so C92 applies), and
the ring the log is using is in a state that the threads of C98 and C99 can bring a ring to. -/
theorem C100_contract (h : Reachable tid x) :
    Custom.Reachable tid x.c ∧
    ∀ p s, x.c.log.buffer = some p → x.buf p = .ring s → ∃ n, 1 ≤ n ∧ n ≤ 2 ^ 32 ∧ RingConc.Reachable n s := by
  refine ⟨h.inv.reach, fun p s hp hs => ?_⟩
  have := (h.inv.link p hp).good
  rw [hs] at this
  exact this

/-- C100: nothing a thread does is undefined. -/
theorem C100_defined (h : Reachable tid x) (a : XAct ε) : x.next tid t a ≠ .ub := by
  have hI := h.inv
  have key : ∀ o : Out (Custom.CSt ε), o ≠ .ub → x.logged t o ≠ .ub := by
    intro o ho hx
    unfold XSt.logged at hx
    split at hx
    · split at hx <;> cases hx
    · exact ho rfl
    · cases hx
  intro hs
  cases a with
  | log a =>
    simp only [XSt.next] at hs
    split at hs
    · exact key _ (Custom.C92_defined hI.reach t _) hs
    · cases hs
  | stats =>
    simp only [XSt.next] at hs
    split at hs
    · exact key _ (Custom.C92_defined hI.reach t _) hs
    · cases hs
  | access sp =>
    simp only [XSt.next] at hs
    split at hs
    · rename_i p hin
      obtain ⟨y, h1, _⟩ := hI.access (sp := sp) hin
      rw [h1] at hs; cases hs
    · cases hs

/-- C100: a thread inside a function of a buffer can always go on, and the log accepts whatever the
buffer answers. -/
theorem C100_goes_on (h : Reachable tid x) {p : Nat} (ht : x.c.inCall t = some p) (sp : Bool) :
    ∃ x', x.next tid t (.access sp) = .to x' := by
  obtain ⟨y, h1, _⟩ := h.inv.access (sp := sp) ht
  exact ⟨y, by simp only [XSt.next, ht]; exact h1⟩

/-- C100: the buffers accept every call the log makes: a step the log can make can be made here too,
unless it creates a buffer of more than 2^32 chunks. -/
theorem C100_accepted (h : Reachable tid x) (ht : x.c.inCall t = none) {a : Choice ε} {c : Custom.CSt ε}
    (hc : x.c.next tid t (.act a) = .to c)
    (hn : ∀ n st, x.c.log.pc t = .held (.startCreate n) st → n ≤ 2 ^ 32) :
    ∃ x', x.next tid t (.log a) = .to x' ∧ x'.c = c := by
  have hI := h.inv
  obtain ⟨h1, h2, _⟩ := hI.bufs ht (.step hI.reach hc) (logStep_act hI.inv ht hc) (pos_next (hI.pos t) hc)
  simp only [XSt.next, ht, if_true, hc, XSt.logged]
  cases hb : x.bufs t c with
  | some b => exact ⟨_, rfl, rfl⟩
  | none =>
    exfalso
    by_cases he : ∃ n st, x.c.log.pc t = .held (.startCreate n) st
    · obtain ⟨n, st, he⟩ := he
      exact h1 n st he hb (hn n st he)
    · exact h2 (fun n st hx => he ⟨n, st, hx⟩) hb

/-- C100: the chunk a thread has, outside `returnChunk`, is a chunk of the buffer of the log, has the id
of this thread written in it, and is with no other thread, except that a thread that is about to leave
`returnChunk` may still have a pointer to it. -/
theorem C100_exclusive (h : Reachable tid x) {p i : Nat} (hc : (x.c.log.tenant t).chunk = some (p, i))
    (ht : x.c.inCall t = none) :
    x.c.log.buffer = some p ∧ i < (x.buf p).size ∧ (x.buf p).owner i = some t ∧
    ∀ u, u ≠ t → (x.c.log.tenant u).chunk = some (p, i) →
      x.c.inCall u = some p ∧ Custom.returning (x.c.log.pc u) = true := by
  have hI := h.inv
  have hi := hI.inv
  have hb := hi.ctl.chunkBuf t p i hc
  have hh := hi.hold t p i hc (.inl ht)
  have L := hI.link p hb
  have hg := good_owner L.good ((L.holds t i).2 hh)
  refine ⟨hb, hg.1, hg.2, fun u hu hcu => ?_⟩
  cases hin : x.c.inCall u with
  | none =>
    have := hi.hold u p i hcu (.inl hin)
    rw [hh] at this; cases this; exact absurd rfl hu
  | some q =>
    have hq := (hi.inside u q hin).2
    rw [hb] at hq; cases hq
    refine ⟨rfl, ?_⟩
    cases hr : Custom.returning (x.c.log.pc u)
    · have := hi.hold u p i hcu (.inr hr)
      rw [hh] at this; cases this; exact absurd rfl hu
    · rfl

/-- C100: a thread that stores an event does so into such a chunk, and there is room in it. -/
theorem C100_store (h : Reachable tid x) {e : ε} (ht : x.c.log.pc t = .store e) :
    ∃ p i, (x.c.log.tenant t).chunk = some (p, i) ∧ x.c.log.buffer = some p ∧ i < (x.buf p).size ∧
      (x.buf p).owner i = some t ∧ x.c.count p i < chunkSize := by
  have hI := h.inv
  have hi := hI.inv
  have hin : x.c.inCall t = none := by
    cases hin : x.c.inCall t with
    | none => rfl
    | some q => have := (hi.inside t q hin).1; rw [ht] at this; exact this.elim
  cases hc : (x.c.log.tenant t).chunk with
  | none => exact absurd hc (hi.ctl.needChunk t (by simp [ht, Pc.needChunk]))
  | some v =>
    obtain ⟨p, i⟩ := v
    obtain ⟨h1, h2, h3, _⟩ := C100_exclusive h hc hin
    exact ⟨p, i, rfl, h1, h2, h3, by rw [hi.count]; exact hi.room t e p i ht hc⟩

/-- The buffer has no chunk left to lend. -/
def Buf.spent : Buf → Prop
  | .fixed s => s.size ≤ s.issued
  | .ring _ => False

theorem spent_get {b b' : Buf} (h : b.get t = some b') (hb : b.spent) : b'.spent := by
  cases b with
  | fixed s =>
    simp only [Buf.get, FSt.get] at h
    split at h <;> simp at h
    subst h; exact hb
  | ring s => exact hb.elim

theorem spent_ret {b b' : Buf} {i : Nat} (h : b.ret t i = some b') (hb : b.spent) : b'.spent := by
  cases b with
  | fixed s =>
    simp only [Buf.ret, FSt.ret] at h
    split at h <;> simp at h
    subst h; exact hb
  | ring s => exact hb.elim

theorem spent_step {b : Buf} {sp : Bool} :
    (∀ b', b.step t sp = .inside b' ∨ b.step t sp = .gave b' → b.spent → b'.spent) ∧
    ∀ b' r, b.step t sp = .got b' r → (b.spent → b'.spent) ∧ (r = none → b'.spent) := by
  cases b with
  | fixed s =>
    simp only [Buf.step, FSt.step]
    cases s.pc t with
    | idle => simp [Buf.fixedEv]
    | count =>
      dsimp only
      split
      · rename_i hge
        refine ⟨by simp [Buf.fixedEv], fun b' r h => ?_⟩
        cases h
        exact ⟨fun _ => Nat.le_succ_of_le hge, fun _ => Nat.le_succ_of_le hge⟩
      · refine ⟨fun b' h hb => ?_, by simp [Buf.fixedEv]⟩
        rcases h with h | h
        · cases h; exact Nat.le_succ_of_le hb
        · cases h
    | reset i =>
      dsimp only
      split
      · refine ⟨fun b' h hb => ?_, by simp [Buf.fixedEv]⟩
        rcases h with h | h
        · cases h; exact hb
        · cases h
      · simp [Buf.fixedEv]
    | lend i =>
      refine ⟨by simp [Buf.fixedEv], fun b' r h => ?_⟩
      cases h
      exact ⟨id, by simp⟩
    | unlend =>
      refine ⟨fun b' h hb => ?_, by simp [Buf.fixedEv]⟩
      rcases h with h | h
      · cases h
      · cases h; exact hb
  | ring s =>
    refine ⟨fun b' _ hb => hb.elim, fun b' r h => ⟨fun hb => hb.elim, ?_⟩⟩
    rintro rfl
    simp only [Buf.step, Buf.ringEv] at h
    split at h
    · split at h <;> cases h
    · cases h
    · cases h

theorem spent_next {a : XAct ε} {p : Nat} (hI : XInv tid x) (hs : x.next tid t a = .to x') (hp : x.c.log.buffer = some p)
    (hp' : x'.c.log.buffer = some p) :
    ((x.buf p).spent → (x'.buf p).spent) ∧
    ∀ u, .getEnd u p none ∈ x'.c.calls → .getEnd u p none ∈ x.c.calls ∨ (x'.buf p).spent := by
  have hi := hI.inv
  have key : ∀ {o : Out (Custom.CSt ε)}, x.c.inCall t = none → (∀ c', o = .to c' → LogStep x.c t c') →
      x.logged t o = .to x' → ((x.buf p).spent → (x'.buf p).spent) ∧
      ∀ u, .getEnd u p none ∈ x'.c.calls → .getEnd u p none ∈ x.c.calls ∨ (x'.buf p).spent := by
    intro o hin ho hs
    unfold XSt.logged at hs
    split at hs
    · rename_i c'
      have h1 := ho c' rfl
      split at hs
      · rename_i b hb
        cases hs
        have quiet : ∀ {c' : Custom.CSt ε}, (c'.calls = x.c.calls ∨ ∃ y, quietCall y ∧ c'.calls = y :: x.c.calls) →
            ∀ u, .getEnd u p none ∈ c'.calls → .getEnd u p none ∈ x.c.calls := by
          intro c' hq u hu
          rcases hq with hq | ⟨y, hy, hq⟩
          · rwa [hq] at hu
          · rw [hq] at hu
            rcases List.mem_cons.1 hu with rfl | hu
            · exact hy.elim
            · exact hu
        cases h1 with
        | quiet nb calls =>
          have e : x.bufs t c' = some x.buf := by unfold XSt.bufs; rw [if_pos nb]; exact enter_quiet calls
          rw [e] at hb; cases hb
          exact ⟨id, fun u hu => .inl (quiet calls u hu)⟩
        | get e q hq eq =>
          subst eq
          refine ⟨fun hsp => ?_, fun u hu => ?_⟩
          · unfold XSt.bufs at hb
            rw [if_pos (by rfl), called_some (x := .getBegin t q) rfl] at hb
            simp only [enter, Option.map_eq_some_iff] at hb
            obtain ⟨b', hb', rfl⟩ := hb
            by_cases hpq : p = q
            · subst hpq; simp only [setf_self]; exact spent_get hb' hsp
            · simp only [setf_ne _ _ hpq]; exact hsp
          · rcases List.mem_cons.1 hu with hu | hu
            · cases hu
            · exact .inl hu
        | ret q i hr eq =>
          subst eq
          refine ⟨fun hsp => ?_, fun u hu => ?_⟩
          · unfold XSt.bufs at hb
            rw [if_pos (by rfl), called_some (x := .retBegin t q i) rfl] at hb
            simp only [enter, Option.map_eq_some_iff] at hb
            obtain ⟨b', hb', rfl⟩ := hb
            by_cases hpq : p = q
            · subst hpq; simp only [setf_self]; exact spent_ret hb' hsp
            · simp only [setf_ne _ _ hpq]; exact hsp
          · rcases List.mem_cons.1 hu with hu | hu
            · cases hu
            · exact .inl hu
        | create n st hq log calls ins =>
          exfalso
          have h1 : c'.log.buffer = some p := hp'
          rw [log] at h1
          simp [St.goto, St.createBuffer] at h1
          have := hi.ctl.last _ hp
          omega
      · cases hs
    · cases hs
    · cases hs
  cases a with
  | log a =>
    simp only [XSt.next] at hs
    split at hs
    · rename_i hin
      exact key hin (fun c' hc => logStep_act hi hin hc) hs
    · cases hs
  | stats =>
    simp only [XSt.next] at hs
    split at hs
    · rename_i hin
      exact key hin (fun c' hc => logStep_stats hc) hs
    · cases hs
  | access sp =>
    simp only [XSt.next] at hs
    split at hs
    case h_2 => cases hs
    case h_1 q hin =>
      have hq : q = p := by have := (hi.inside t q hin).2; rw [hp] at this; cases this; rfl
      subst hq
      have leave : ∀ c', x.c.next tid t (.act .step) = .to c' → ∀ u, .getEnd u q none ∈ c'.calls →
          .getEnd u q none ∈ x.c.calls := by
        intro c' hc u hu
        simp only [Custom.CSt.next, hin, Custom.CSt.leave] at hc
        split at hc
        · split at hc <;> cases hc
          simpa using hu
        · split at hc <;> cases hc
          simpa using hu
        · cases hc; simpa using hu
        · cases hc
      unfold XSt.access at hs
      split at hs
      · unfold XSt.back at hs
        split at hs <;> cases hs
        rename_i c' hc
        exact ⟨id, fun u hu => .inl (leave _ hc u hu)⟩
      · have sp1 := spent_step (b := x.buf q) (t := t) (sp := sp)
        split at hs
        · cases hs
        · cases hs
        · rename_i b' hb'
          cases hs
          exact ⟨fun hsp => by simp only [setf_self]; exact sp1.1 b' (.inl hb') hsp, fun u hu => .inl hu⟩
        · rename_i b' r hb'
          unfold XSt.back at hs
          split at hs <;> cases hs
          rename_i c' hc
          obtain ⟨s1, s2⟩ := sp1.2 b' r hb'
          refine ⟨fun hsp => by simp only [setf_self]; exact s1 hsp, fun u hu => ?_⟩
          simp only [setf_self]
          simp only [Custom.CSt.next, Custom.CSt.result] at hc
          split at hc
          · split at hc
            · exact .inr (s2 rfl)
            · split at hc <;> cases hc
              simp only [List.mem_cons] at hu
              rcases hu with hu | hu
              · cases hu
              · exact .inl hu
          · cases hc
        · rename_i b' hb'
          unfold XSt.back at hs
          split at hs <;> cases hs
          rename_i c' hc
          exact ⟨fun hsp => by simp only [setf_self]; exact sp1.1 b' (.inr hb') hsp, fun u hu => .inl (leave _ hc u hu)⟩

theorem old_next {a : XAct ε} (hI : XInv tid x) (hs : x.next tid t a = .to x') :
    x.c.log.nextBuf ≤ x'.c.log.nextBuf ∧ (∀ u p, .getEnd u p none ∈ x'.c.calls →
      .getEnd u p none ∈ x.c.calls ∨ x.c.log.buffer = some p) ∧
    ∀ p, x'.c.log.buffer = some p → x.c.log.buffer = some p ∨ p = x.c.log.nextBuf := by
  have hi := hI.inv
  have key : ∀ {o : Out (Custom.CSt ε)}, (∀ c', o = .to c' → LogStep x.c t c') →
      x.logged t o = .to x' → x.c.log.nextBuf ≤ x'.c.log.nextBuf ∧ (∀ u p, .getEnd u p none ∈ x'.c.calls →
      .getEnd u p none ∈ x.c.calls ∨ x.c.log.buffer = some p) ∧
    ∀ p, x'.c.log.buffer = some p → x.c.log.buffer = some p ∨ p = x.c.log.nextBuf := by
    intro o ho hs
    unfold XSt.logged at hs
    split at hs
    case h_2 => cases hs
    case h_3 => cases hs
    case h_1 c' =>
      have h1 := ho c' rfl
      split at hs <;> cases hs
      have quiet : (c'.calls = x.c.calls ∨ ∃ y, quietCall y ∧ c'.calls = y :: x.c.calls) →
          ∀ u p, .getEnd u p none ∈ c'.calls → .getEnd u p none ∈ x.c.calls ∨ x.c.log.buffer = some p := by
        intro hq u p hu
        rcases hq with hq | ⟨y, hy, hq⟩
        · rw [hq] at hu; exact .inl hu
        · rw [hq] at hu
          rcases List.mem_cons.1 hu with rfl | hu
          · exact hy.elim
          · exact .inl hu
      cases h1 with
      | quiet nb calls buf =>
        refine ⟨Nat.le_of_eq nb.symm, quiet calls, fun p hp => ?_⟩
        dsimp only at hp
        rcases buf with hb | hb
        · rw [hb] at hp; exact .inl hp
        · rw [hb] at hp; cases hp
      | get e q hq eq =>
        subst eq
        exact ⟨Nat.le_refl _, fun u p hu => .inl (by simpa using hu), fun p hp => .inl hp⟩
      | ret q i hr eq =>
        subst eq
        exact ⟨Nat.le_refl _, fun u p hu => .inl (by simpa using hu), fun p hp => .inl hp⟩
      | create n st hq log calls ins =>
        refine ⟨by rw [log]; simp [St.goto, St.createBuffer], quiet calls, fun p hp => .inr ?_⟩
        dsimp only at hp
        rw [log] at hp; simp [St.goto, St.createBuffer] at hp; exact hp.symm
  cases a with
  | log a =>
    simp only [XSt.next] at hs
    split at hs
    · rename_i hin
      exact key (fun c' hc => logStep_act hi hin hc) hs
    · cases hs
  | stats =>
    simp only [XSt.next] at hs
    split at hs
    · exact key (fun c' hc => logStep_stats hc) hs
    · cases hs
  | access sp =>
    simp only [XSt.next] at hs
    split at hs
    case h_2 => cases hs
    case h_1 q hin =>
      have hq := (hi.inside t q hin).2
      have leave : ∀ c', x.c.next tid t (.act .step) = .to c' → c'.log.nextBuf = x.c.log.nextBuf ∧
          c'.log.buffer = x.c.log.buffer ∧ ∀ u p, .getEnd u p none ∈ c'.calls → .getEnd u p none ∈ x.c.calls := by
        intro c' hc
        simp only [Custom.CSt.next, hin, Custom.CSt.leave] at hc
        split at hc
        · split at hc <;> cases hc
          exact ⟨rfl, rfl, fun u p hu => by simpa using hu⟩
        · split at hc <;> cases hc
          exact ⟨rfl, rfl, fun u p hu => by simpa using hu⟩
        · cases hc; exact ⟨rfl, rfl, fun u p hu => by simpa using hu⟩
        · cases hc
      have left : ∀ {b : Nat → Buf}, XSt.back b (x.c.next tid t (.act .step)) = .to x' →
          x.c.log.nextBuf ≤ x'.c.log.nextBuf ∧ (∀ u p, .getEnd u p none ∈ x'.c.calls →
          .getEnd u p none ∈ x.c.calls ∨ x.c.log.buffer = some p) ∧
          ∀ p, x'.c.log.buffer = some p → x.c.log.buffer = some p ∨ p = x.c.log.nextBuf := by
        intro b hs
        unfold XSt.back at hs
        split at hs <;> cases hs
        rename_i c' hc
        obtain ⟨l1, l2, l3⟩ := leave _ hc
        exact ⟨Nat.le_of_eq l1.symm, fun u p hu => .inl (l3 u p hu), fun p hp => .inl (by rw [← l2]; exact hp)⟩
      unfold XSt.access at hs
      split at hs
      · exact left hs
      · split at hs
        · cases hs
        · cases hs
        · cases hs; exact ⟨Nat.le_refl _, fun u p hu => .inl hu, fun p hp => .inl hp⟩
        · unfold XSt.back at hs
          split at hs <;> cases hs
          rename_i c' hc
          simp only [Custom.CSt.next, Custom.CSt.result] at hc
          split at hc
          case h_2 => cases hc
          case h_1 e q' hw =>
            have hqq : q' = q := by
              have := (hi.waits t e q' hw); rw [hin] at this; cases this; rfl
            subst hqq
            split at hc
            · cases hc
              refine ⟨Nat.le_refl _, fun u p hu => ?_, fun p hp => .inl hp⟩
              simp only [List.mem_cons, Custom.Call.getEnd.injEq] at hu
              rcases hu with ⟨_, rfl, _⟩ | hu
              · exact .inr hq
              · exact .inl hu
            · split at hc <;> cases hc
              exact ⟨Nat.le_refl _, fun u p hu => .inl (by simpa using hu), fun p hp => .inl hp⟩
        · exact left hs

/-- C100: `getChunk` of the log's buffer has returned a null pointer only if the buffer is of the fixed
kind and all its chunks have been issued: a ring never refuses, and a fixed buffer does not refuse
early. -/
theorem C100_null (h : Reachable tid x) {p : Nat} (hp : x.c.log.buffer = some p)
    (hu : .getEnd u p none ∈ x.c.calls) : ∃ s, x.buf p = .fixed s ∧ s.size ≤ s.issued := by
  have key : (∀ u p, .getEnd u p none ∈ x.c.calls → p < x.c.log.nextBuf) ∧
      ∀ u p, x.c.log.buffer = some p → .getEnd u p none ∈ x.c.calls → (x.buf p).spent := by
    clear hu hp
    induction h with
    | init => exact ⟨fun _ _ h => (by cases h), fun _ _ _ h => (by cases h)⟩
    | @step x x' t a hr hs ih =>
      obtain ⟨i1, i2⟩ := ih
      have hI := hr.inv
      obtain ⟨o1, o2, o3⟩ := old_next hI hs
      refine ⟨fun u p hu => ?_, fun u p hp hu => ?_⟩
      · rcases o2 u p hu with h1 | h1
        · have := i1 u p h1; omega
        · have := hI.inv.ctl.last p h1; omega
      · rcases o3 p hp with h1 | h1
        · obtain ⟨s1, s2⟩ := spent_next hI hs h1 hp
          rcases s2 u hu with h2 | h2
          · exact s1 (i2 u p h1 h2)
          · exact h2
        · subst h1
          rcases o2 u _ hu with h2 | h2
          · have := i1 u _ h2; omega
          · have := hI.inv.ctl.last _ h2; omega
  have := key.2 u p hp hu
  cases hb : x.buf p with
  | fixed s => rw [hb] at this; exact ⟨s, rfl, this⟩
  | ring s => rw [hb] at this; exact this.elim

/-! ### Cases that meet the hypotheses -/

/-- A log with one chunk. -/
def cfg1 (m : BufferMode) : TraceConfig := { mode := m, size := sizeofTraceChunk }

/-- `n` steps of thread `t` in the log. -/
def go (t n : Nat) : List (Nat × XAct Nat) := List.replicate n (t, .log .step)

/-- `n` accesses of thread `t` in the buffer. -/
def inb (t n : Nat) : List (Nat × XAct Nat) := List.replicate n (t, .access false)

/-- Thread 0 starts tracing, threads 1 and 2 register; thread 1 calls `getChunk`. -/
def begin1 (m : BufferMode) : List (Nat × XAct Nat) :=
  [(0, .log .lock), (0, .log (.start (cfg1 m)))] ++ go 0 2 ++ [(0, .log .ret)] ++ go 0 1
    ++ [(1, .log (.register []))] ++ go 1 2 ++ [(2, .log (.register []))] ++ go 2 2
    ++ [(1, .log (.log 7))] ++ go 1 9

/-- Whether a run ends in a state with a property. -/
def check (l : List (Nat × XAct Nat)) (P : XSt Nat → Bool) : Bool :=
  match (XSt.init.run id l : Out (XSt Nat)) with
  | .to x => P x
  | _ => false

theorem run_reachable (h : Reachable tid x) (l : List (Nat × XAct ε)) (hl : x.run tid l = .to x') : Reachable tid x' := by
  induction l generalizing x with
  | nil => cases hl; exact h
  | cons y l ih =>
    obtain ⟨t, a⟩ := y
    simp only [XSt.run] at hl
    split at hl
    · rename_i s1 h1; exact ih (h.step h1) hl
    · cases hl
    · cases hl

theorem check_run {l : List (Nat × XAct Nat)} {P : XSt Nat → Bool} (h : check l P = true) :
    ∃ x : XSt Nat, Reachable id x ∧ P x = true := by
  unfold check at h
  split at h
  · rename_i x hx; exact ⟨x, run_reachable .init l hx, h⟩
  · cases h

/-- Thread 1 is inside `getChunk`. -/
example : ∃ x : XSt Nat, Reachable id x ∧ x.c.inCall 1 = some 0 := by
  obtain ⟨x, h, hp⟩ := check_run (l := begin1 .ring) (P := fun x => x.c.inCall 1 == some 0) (by decide +kernel)
  exact ⟨x, h, by simpa using hp⟩

/-- Thread 1 logs; thread 2, which finds no chunk, waits in the loop around `dequeue`; thread 1
deregisters and puts the chunk into the queue; thread 2 gets it, and is about to store its event, while
thread 1 has not yet left `returnChunk`. -/
def handOver : List (Nat × XAct Nat) :=
  begin1 .ring ++ inb 1 3 ++ go 1 2 ++ [(2, .log (.log 8))] ++ go 2 9 ++ inb 2 3
    ++ [(1, .log .deregister)] ++ go 1 1 ++ inb 1 5 ++ inb 2 7

/-- C100, refuted as C44 says it of the log whose `returnChunk` is one step: two threads have a pointer
to the same chunk, and one of them is about to store an event into it. (The other is inside
`returnChunk` and will clear its pointer without using it.) -/
theorem C100_refuted_pointer : ∃ x : XSt Nat, Reachable id x ∧ x.c.log.pc 2 = .store 8 ∧
    (x.c.log.tenant 1).chunk = some (0, 0) ∧ (x.c.log.tenant 2).chunk = some (0, 0) ∧
    x.c.inCall 1 = some 0 ∧ x.c.inCall 2 = none := by
  obtain ⟨x, h, hp⟩ := check_run (l := handOver) (P := fun x => x.c.log.pc 2 == .store 8 &&
    (x.c.log.tenant 1).chunk == some (0, 0) && (x.c.log.tenant 2).chunk == some (0, 0) &&
    x.c.inCall 1 == some 0 && x.c.inCall 2 == none) (by decide +kernel)
  simp only [Bool.and_eq_true, beq_iff_eq] at hp
  exact ⟨x, h, hp.1.1.1.1, hp.1.1.1.2, hp.1.1.2, hp.1.2, hp.2⟩

/-- In that state the header of the chunk names thread 2. -/
example : check handOver (fun x => (x.buf 0).owner 0 == some 2) = true := by decide +kernel

/-- A fixed buffer of one chunk: the second thread is refused, and all chunks have been issued. -/
example : check (begin1 .fixed ++ inb 1 3 ++ go 1 2 ++ [(2, .log (.log 8))] ++ go 2 9 ++ inb 2 1) (fun x =>
    x.c.calls == [.getEnd 2 0 none, .getBegin 2 0, .add 1 0 0, .getEnd 1 0 (some 0), .getBegin 1 0] &&
    x.c.log.buffer == some 0 && (x.buf 0).size == 1) = true := by decide +kernel

/-- The buffer of the log is about to be created, with one chunk. -/
example : check [(0, .log .lock), (0, .log (.start (cfg1 .ring)))] (fun x =>
    x.c.log.pc 0 == .held (.startCreate 1) [.resumeUser]) = true := by decide +kernel

end Phosphor.LogBuf
