import Verif.Proof.LogBuffer
import Verif.Proof.LogBufferPos
import Verif.Proof.CustomBufferSteps
/-
The log over the code of its buffers: the calls of the log and the states of the buffers agree.
-/
namespace Phosphor.LogBuf
open TLog Custom
variable {ε : Type} {tid : Nat → Nat}

/-- A call that neither begins nor ends `getChunk` or `returnChunk`. -/
def quietCall : Call → Prop
  | .add _ _ _ | .statsBegin _ _ | .handed _ | .destroyed _ => True
  | _ => False

theorem holder_quiet {x : Call} (h : quietCall x) (l : List Call) (b c : Nat) : holder (x :: l) b c = holder l b c := by
  cases x <;> simp [quietCall] at h <;> rfl

/-- The kinds of steps of thread `t`, which is in no function of a buffer. -/
inductive LogStep (c : CSt ε) (t : Nat) (c' : CSt ε) : Prop
  | quiet (nb : c'.log.nextBuf = c.log.nextBuf)
      (calls : c'.calls = c.calls ∨ ∃ x, quietCall x ∧ c'.calls = x :: c.calls)
      (buf : c'.log.buffer = c.log.buffer ∨ c'.log.buffer = none)
      (pcs : ∀ u, u ≠ t → c'.log.pc u = c.log.pc u)
      (ins : ∀ u, u ≠ t → c'.inCall u = c.inCall u)
      (me : c'.inCall t = none ∨ ∃ w st, c'.log.pc t = .held w st)
  | get (e : ε) (p : Nat) (hp : c.log.pc t = .getDo e p)
      (eq : c' = { c with
        log := c.log.goto t (.getWait e p)
        inCall := setf c.inCall t (some p)
        calls := .getBegin t p :: c.calls })
  | ret (p i : Nat) (hr : returning (c.log.pc t) = true)
      (eq : c' = { c with
        lent := set2 c.lent p i false
        inCall := setf c.inCall t (some p)
        calls := .retBegin t p i :: c.calls })
  | create (n : Nat) (st : List Frame) (hp : c.log.pc t = .held (.startCreate n) st)
      (log : c'.log = (c.log.createBuffer n).goto t (.held .startEnable st))
      (calls : c'.calls = c.calls ∨ ∃ x, quietCall x ∧ c'.calls = x :: c.calls)
      (ins : c'.inCall = c.inCall)

theorem quietOne {c c' : CSt ε} {x : Call} (h : c'.calls = x :: c.calls) (hx : quietCall x) :
    c'.calls = c.calls ∨ ∃ x, quietCall x ∧ c'.calls = x :: c.calls := .inr ⟨x, hx, h⟩

theorem LogStep.pcs {c c' : CSt ε} {t : Nat} (h : LogStep c t c') (u : Nat) (hu : u ≠ t) : c'.log.pc u = c.log.pc u := by
  cases h with
  | quiet _ _ _ pcs => exact pcs u hu
  | get e p hp eq => subst eq; exact setf_ne _ _ hu
  | ret p i hr eq => subst eq; rfl
  | create n st hp log => rw [log]; exact setf_ne _ _ hu

theorem LogStep.same {c : CSt ε} {t : Nat} {l : St ε} (hi : c.inCall t = none) (h : SameCore c.log l t) :
    LogStep c t { c with log := l } :=
  .quiet h.nextBuf (.inl rfl) (.inl h.buffer) h.pcs (fun _ _ => rfl) (.inl hi)

theorem logStep_giveBack {c c' : CSt ε} {t p b i : Nat} (hr : returning (c.log.pc t) = true)
    (hs : c.giveBack t p b i = .to c') : LogStep c t c' := by
  unfold CSt.giveBack at hs
  split at hs
  · cases hs; exact .ret p i hr rfl
  · cases hs

theorem logStep_step {c c' : CSt ε} {t : Nat} {sp : Bool} (h : Custom.Inv c) (hi : c.inCall t = none)
    (hs : c.step tid t sp = .to c') : LogStep c t c' := by
  have hplain : plainPc c.log t → ∀ {sp : Bool},
      c.lift (c.log.next true tid t (if sp then .spurious else .step)) = .to c' → LogStep c t c' := by
    intro hpl sp hs
    unfold CSt.lift at hs
    split at hs
    · rename_i l hl
      cases hs
      cases sp
      · exact .same hi (same_step h.ctl hpl (by simpa using hl)).core
      · exact .same hi (same_spurious h.ctl hpl (by simpa using hl)).core
    · cases hs
    · cases hs
  have hgo : ∀ q, LogStep c t { c with log := c.log.goto t q } := by
    intro q
    exact .quiet rfl (.inl rfl) (.inl rfl) (fun u hu => setf_ne _ _ hu) (fun _ _ => rfl) (.inl hi)
  unfold CSt.step at hs
  split at hs
  case h_1 e hp =>
    split at hs
    · cases hs; exact hgo _
    · split at hs
      · cases hs; exact hgo _
      · cases hs
  case h_2 e p hp =>
    split at hs
    · cases hs
    · exact logStep_giveBack (by simp [hp, returning]) hs
  case h_3 e p hp =>
    split at hs
    · cases hs; exact .get e p hp rfl
    · cases hs
  case h_4 => cases hs
  case h_5 e hp =>
    split at hs
    · cases hs
    · split at hs
      · cases hs
        exact .quiet rfl (quietOne rfl (by constructor)) (.inl rfl) (fun u hu => setf_ne _ _ hu) (fun _ _ => rfl) (.inl hi)
      · cases hs
  case h_6 hp =>
    split at hs
    case h_1 => exact logStep_giveBack (by simp [hp, returning]) hs
    case h_2 hx =>
      refine hplain ?_ (sp := false) (by simpa using hs)
      simp only [plainPc, hp]
      rcases hi : (c.log.tenant t).initialised with _ | _
      · simp
      · rcases hc : (c.log.tenant t).chunk with _ | ⟨b, i⟩
        · simp
        · rcases hb : c.log.buffer with _ | p
          · simp
          · exact absurd hb (hx b i p hi hc)
  case h_7 n st hp =>
    cases hs
    refine .create n st hp rfl ?_ rfl
    cases hb : c.log.buffer with
    | none => exact .inl rfl
    | some b => exact .inr ⟨.destroyed b, trivial, rfl⟩
  case h_8 =>
    refine hplain ?_ hs
    unfold plainPc
    split <;> simp_all

theorem logStep_moveOut {c c' : CSt ε} {t : Nat} {a : Choice ε} (hi : c.inCall t = none)
    (ha : a = .getBuffer ∨ a = .getTraceContext)
    (hs : c.moveOut (c.log.next true tid t a) = .to c') : LogStep c t c' := by
  unfold CSt.moveOut at hs
  split at hs
  case h_2 => cases hs
  case h_3 => cases hs
  case h_1 l hl =>
    cases hs
    have key : l.nextBuf = c.log.nextBuf ∧ (l.buffer = c.log.buffer ∨ l.buffer = none) ∧ l.pc = c.log.pc := by
      rcases ha with rfl | rfl
      · simp only [St.next] at hl
        split at hl
        · split at hl <;> cases hl
          · exact ⟨rfl, .inl rfl, rfl⟩
          · exact ⟨rfl, .inr rfl, rfl⟩
        · cases hl
      · simp only [St.next] at hl
        split at hl
        · split at hl <;> cases hl
          · exact ⟨rfl, .inl rfl, rfl⟩
          · exact ⟨rfl, .inr rfl, rfl⟩
        · cases hl
    refine .quiet key.1 ?_ key.2.1 (fun u _ => by rw [key.2.2]) (fun _ _ => rfl) (.inl hi)
    dsimp only
    cases c.log.enabled with
    | true => exact .inl rfl
    | false =>
      cases hb : c.log.buffer with
      | none => exact .inl rfl
      | some b => exact .inr ⟨.handed b, trivial, rfl⟩

theorem logStep_start {c c' : CSt ε} {t : Nat} {cfg : TraceConfig} (hi : c.inCall t = none)
    (hs : c.start t cfg = .to c') : LogStep c t c' := by
  unfold CSt.start at hs
  split at hs
  case h_2 => cases hs
  case h_1 st hp =>
    split at hs
    · cases hs
    · dsimp only at hs
      split at hs
      · cases hs
        exact .quiet rfl (.inl rfl) (.inl rfl) (fun _ _ => rfl) (fun _ _ => rfl) (.inl hi)
      · split at hs
        · cases hs
          refine .quiet rfl (.inl rfl) (.inl rfl) (fun u hu => ?_) (fun _ _ => rfl) (.inl hi)
          exact setf_ne _ _ hu
        · cases hs
          refine .quiet rfl (.inl rfl) (.inl rfl) (fun u hu => ?_) (fun _ _ => rfl) (.inl hi)
          exact setf_ne _ _ hu

theorem logStep_act {c c' : CSt ε} {t : Nat} {a : Choice ε} (h : Custom.Inv c) (hi : c.inCall t = none)
    (hs : c.next tid t (.act a) = .to c') : LogStep c t c' := by
  simp only [CSt.next, hi] at hs
  split at hs
  · exact logStep_step h hi hs
  · exact logStep_step h hi hs
  · exact logStep_start hi hs
  · rename_i b
    split at hs
    · rename_i l hl
      cases hs
      simp only [St.next] at hl
      split at hl
      · cases hl
        exact .quiet rfl (quietOne rfl (by constructor)) (.inl rfl) (fun _ _ => rfl) (fun _ _ => rfl) (.inl hi)
      · cases hl
    · cases hs
    · cases hs
  · exact logStep_moveOut hi (.inl rfl) hs
  · exact logStep_moveOut hi (.inr rfl) hs
  · unfold CSt.lift at hs
    split at hs
    · rename_i l hl
      cases hs
      refine .same hi (same_choice ?_ hl).core
      cases a <;> simp_all [plainChoice]
    · cases hs
    · cases hs

theorem logStep_stats {c c' : CSt ε} {t : Nat}
    (hs : c.next tid t .stats = .to c') : LogStep c t c' := by
  simp only [CSt.next, CSt.stats] at hs
  split at hs
  · rename_i w hp
    split at hs
    · split at hs
      · split at hs
        · cases hs
          exact .quiet rfl (quietOne rfl (by constructor)) (.inl rfl) (fun _ _ => rfl) (fun u hu => setf_ne _ _ hu) (.inr ⟨_, _, hp⟩)
        · cases hs
      · cases hs
    · cases hs
  · cases hs

/-- What a thread inside a function of the buffer is doing there. -/
def kind : Pc ε → Phase
  | .getWait _ _ => .getting
  | .retDo _ _ | .deregBody => .returning
  | _ => .out

/-- What thread `t` is doing in buffer `p`, as the log sees it. -/
def doing (c : CSt ε) (p t : Nat) : Phase := if c.inCall t = some p then kind (c.log.pc t) else .out

/-- The buffer is in the state that the calls of the log have brought it to. -/
structure Linked (c : CSt ε) (p : Nat) (b : Buf) : Prop where
  good : b.Good
  phase : ∀ t, b.phase t = doing c p t
  holds : ∀ t i, (t, i) ∈ b.holds ↔ holder c.calls p i = some t

structure XInv (tid : Nat → Nat) (x : XSt ε) : Prop where
  reach : Custom.Reachable tid x.c
  link : ∀ p, x.c.log.buffer = some p → Linked x.c p (x.buf p)
  pos : ∀ t, posPc (x.c.log.pc t)

theorem XInv.inv {x : XSt ε} (h : XInv tid x) : Custom.Inv x.c := h.reach.inv

theorem called_none {c c' : CSt ε} (h : c'.calls = c.calls) : called c c' = none := by simp [called, h]
theorem called_some {c c' : CSt ε} {x : Call} (h : c'.calls = x :: c.calls) : called c c' = some x := by
  simp [called, h]

theorem enter_quiet {c c' : CSt ε} {buf : Nat → Buf} (h : c'.calls = c.calls ∨ ∃ x, quietCall x ∧ c'.calls = x :: c.calls) :
    enter buf (called c c') = some buf := by
  rcases h with h | ⟨x, hx, h⟩
  · rw [called_none h]; rfl
  · rw [called_some h]; cases x <;> simp [quietCall] at hx <;> rfl

theorem holder_same {c c' : CSt ε} (h : c'.calls = c.calls ∨ ∃ x, quietCall x ∧ c'.calls = x :: c.calls) (b i : Nat) :
    holder c'.calls b i = holder c.calls b i := by
  rcases h with h | ⟨x, hx, h⟩
  · rw [h]
  · rw [h, holder_quiet hx]

/-- The buffers accept whatever the log calls them with, unless the buffer to be created is too large. -/
theorem XInv.bufs {x : XSt ε} {t : Nat} {c' : CSt ε} (h : XInv tid x) (hin : x.c.inCall t = none)
    (hr : Custom.Reachable tid c') (hs : LogStep x.c t c') (hpos : posPc (c'.log.pc t)) :
    (∀ n st, x.c.log.pc t = .held (.startCreate n) st → x.bufs t c' = none → ¬ n ≤ 2 ^ 32) ∧
    ((∀ n st, x.c.log.pc t ≠ .held (.startCreate n) st) → x.bufs t c' ≠ none) ∧
    ∀ b, x.bufs t c' = some b → XInv tid ⟨c', b⟩ := by
  have hpos' : ∀ u, posPc (c'.log.pc u) := by
    intro u
    by_cases hu : u = t
    · subst hu; exact hpos
    · rw [hs.pcs u hu]; exact h.pos u
  have hI := h.inv
  have hI' := hr.inv
  cases hs with
  | quiet nb calls buf pcs ins me =>
    have e : x.bufs t c' = some x.buf := by
      unfold XSt.bufs; rw [if_pos nb]; exact enter_quiet calls
    refine ⟨fun n st _ hn => (by rw [e] at hn; cases hn), fun _ hn => (by rw [e] at hn; cases hn), ?_⟩
    intro b hb
    rw [e] at hb; cases hb
    refine ⟨hr, fun p hp => ?_, hpos'⟩
    have hp' : x.c.log.buffer = some p := by
      rcases buf with h1 | h1
      · rw [← h1]; exact hp
      · rw [h1] at hp; cases hp
    have L := h.link p hp'
    refine ⟨L.good, fun u => ?_, fun u i => by rw [L.holds, holder_same calls]⟩
    rw [L.phase]
    unfold doing
    by_cases hu : u = t
    · subst hu
      rw [hin]
      rcases me with me | ⟨w, st, me⟩
      · rw [me]; rfl
      · rw [me]; simp [kind]
    · rw [ins u hu, pcs u hu]
  | get e p hp eq =>
    subst eq
    have hb := hI.ctl.ptr t p (by simp [hp, Pc.bufPtr])
    have L := h.link p hb
    have hout : (x.buf p).phase t = .out := by rw [L.phase]; simp [doing, hin]
    obtain ⟨b', e1, e2, e3, e4, e5⟩ := good_get L.good hout
    have e : x.bufs t { x.c with log := x.c.log.goto t (.getWait e p), inCall := setf x.c.inCall t (some p), calls := .getBegin t p :: x.c.calls }
        = some (setf x.buf p b') := by
      unfold XSt.bufs
      rw [if_pos (by rfl), called_some (x := .getBegin t p) rfl]
      simp [enter, e1]
    refine ⟨fun n st _ hn => (by rw [e] at hn; cases hn), fun _ hn => (by rw [e] at hn; cases hn), ?_⟩
    intro b hb'
    rw [e] at hb'; cases hb'
    refine ⟨hr, fun q hq => ?_, hpos'⟩
    have hq' : x.c.log.buffer = some q := hq
    have : q = p := by rw [hb] at hq'; cases hq'; rfl
    subst this
    simp only [setf_self]
    refine ⟨e2, fun u => ?_, fun u i => ?_⟩
    · unfold doing
      by_cases hu : u = t
      · subst hu; rw [e4]; simp [setf_self, St.goto, kind]
      · rw [e5 u hu, L.phase]; simp [doing, setf_ne _ _ hu, St.goto]
    · rw [e3, L.holds]; simp [holder]
  | ret p i hret eq =>
    subst eq
    have hA : Allowed x.c.calls (.retBegin t p i) := hI'.legal.1
    have hb : x.c.log.buffer = some p := (hI'.inside t p (by simp [setf_self])).2
    have L := h.link p hb
    have hout : (x.buf p).phase t = .out := by rw [L.phase]; simp [doing, hin]
    have hm : (t, i) ∈ (x.buf p).holds := (L.holds t i).2 hA.2.2
    obtain ⟨b', e1, e2, e3, e4, e5⟩ := good_ret L.good hout hm
    have e : x.bufs t { x.c with lent := set2 x.c.lent p i false, inCall := setf x.c.inCall t (some p), calls := .retBegin t p i :: x.c.calls }
        = some (setf x.buf p b') := by
      unfold XSt.bufs
      rw [if_pos (by rfl), called_some (x := .retBegin t p i) rfl]
      simp [enter, e1]
    refine ⟨fun n st _ hn => (by rw [e] at hn; cases hn), fun _ hn => (by rw [e] at hn; cases hn), ?_⟩
    intro b hb'
    rw [e] at hb'; cases hb'
    refine ⟨hr, fun q hq => ?_, hpos'⟩
    have hq' : x.c.log.buffer = some q := hq
    have : q = p := by rw [hb] at hq'; cases hq'; rfl
    subst this
    simp only [setf_self]
    refine ⟨e2, fun u => ?_, fun u j => ?_⟩
    · unfold doing
      by_cases hu : u = t
      · subst hu
        rw [e4]
        simp only [setf_self, if_true]
        revert hret
        generalize x.c.log.pc u = q
        intro hret
        cases q <;> simp [returning] at hret <;> rfl
      · rw [e5 u hu, L.phase]; simp [doing, setf_ne _ _ hu]
    · rw [e3, (good_nodup L.good).mem_erase_iff, L.holds]
      have hA' := hA.2.2
      simp only [holder]
      by_cases hij : i = j
      · subst hij
        simp only [and_self, if_true]
        rw [hA']
        constructor
        · rintro ⟨h1, h2⟩; cases h2; exact absurd rfl h1
        · intro h1; cases h1
      · simp [hij, Ne.symm hij]
  | create n st hp log calls ins =>
    have hnb : c'.log.nextBuf ≠ x.c.log.nextBuf := by rw [log]; simp [St.goto, St.createBuffer]
    have e : x.bufs t c' = if n ≤ 2 ^ 32 then some (setf x.buf x.c.log.nextBuf (Buf.init x.c.log.config n)) else none := by
      unfold XSt.bufs; rw [if_neg hnb, hp]; rfl
    refine ⟨?_, fun hno => absurd hp (hno n st), ?_⟩
    · intro n' st' hp' hn hok
      rw [hp] at hp'
      cases hp'
      rw [e, if_pos hok] at hn; cases hn
    · intro b hb
      rw [e] at hb
      split at hb
      case isFalse => cases hb
      case isTrue hok =>
        cases hb
        refine ⟨hr, fun q hq => ?_, hpos'⟩
        have : q = x.c.log.nextBuf := by
          rw [log] at hq; simp [St.goto, St.createBuffer] at hq; exact hq.symm
        subst this
        simp only [setf_self]
        obtain ⟨g1, g2, g3⟩ := good_init x.c.log.config (by have := h.pos t; rw [hp] at this; exact this.1) hok
        refine ⟨g1, fun u => ?_, fun u i => ?_⟩
        · rw [g3]
          unfold doing
          split
          · rename_i hu
            rw [ins] at hu
            have h1 := (hI.inside u _ hu).2
            have h2 := hI.ctl.last _ h1
            omega
          · rfl
        · rw [g2, holder_same calls]
          constructor
          · intro h1; cases h1
          · intro h1
            have := hI.born _ _ (by rw [h1]; simp)
            omega

theorem XInv.init : XInv tid (XSt.init : XSt ε) :=
  ⟨.init, fun p hp => (by simp [XSt.init, CSt.init, St.init] at hp), fun t => (by simp [XSt.init, CSt.init, St.init, posPc])⟩

/-- An access inside the buffer never goes wrong. -/
theorem XInv.access {x : XSt ε} {t p : Nat} {sp : Bool} (h : XInv tid x) (hin : x.c.inCall t = some p) :
    ∃ x', x.access tid t p sp = .to x' ∧ XInv tid x' := by
  have hI := h.inv
  obtain ⟨hins, hb⟩ := hI.inside t p hin
  have L := h.link p hb
  have hdo : doing x.c p t = kind (x.c.log.pc t) := by simp [doing, hin]
  unfold XSt.access
  split
  case h_1 w st hp =>
    rw [hp] at hins
    have hw : w = .user := by cases w <;> simp [insidePc] at hins <;> rfl
    subst hw
    have e : x.c.next tid t (.act .step) = .to { x.c with inCall := setf x.c.inCall t none, calls := .statsEnd t p :: x.c.calls } := by
      simp [CSt.next, hin, CSt.leave, hp]
    rw [e]
    refine ⟨_, rfl, .step h.reach e, fun q hq => ?_, h.pos⟩
    have hq' : x.c.log.buffer = some q := hq
    have L' := h.link q hq'
    refine ⟨L'.good, fun u => ?_, fun u i => by rw [L'.holds]; simp [holder]⟩
    rw [L'.phase]
    unfold doing
    by_cases hu : u = t
    · subst hu; simp [setf_self, hp, kind]
    · simp [setf_ne _ _ hu]
  case h_2 hno =>
    have hph : (x.buf p).phase t ≠ .out := by
      rw [L.phase, hdo]
      revert hins hno
      generalize x.c.log.pc t = q
      intro hins hno
      cases q <;> simp [insidePc] at hins <;> first
        | simp [kind]; done
        | exact absurd rfl (hno _ _)
    have hst := good_step (sp := sp) L.good hph
    revert hst
    cases hev : (x.buf p).step t sp with
    | blocked => exact fun hst => hst.elim
    | ub => exact fun hst => hst.elim
    | inside b' =>
      rintro ⟨g1, g2, g3⟩
      refine ⟨_, rfl, h.reach, fun q hq => ?_, h.pos⟩
      have : q = p := by have hq' : x.c.log.buffer = some q := hq; rw [hb] at hq'; cases hq'; rfl
      subst this
      simp only [setf_self]
      exact ⟨g1, fun u => by rw [g3, L.phase], fun u i => by rw [g2, L.holds]⟩
    | got b' r =>
      rintro ⟨g1, g2, g3, g4, g5⟩
      have hw : ∃ e, x.c.log.pc t = .getWait e p := by
        rw [L.phase, hdo] at g1
        revert hins g1
        generalize x.c.log.pc t = q
        intro hins g1
        cases q <;> simp [kind] at g1
        rename_i e' p'
        simp only [insidePc] at hins
        exact ⟨e', by rw [hins]⟩
      obtain ⟨e', hw⟩ := hw
      have hnone : ∀ i, r = some i → x.c.lent p i = false := by
        rintro i rfl
        rw [hI.lent]
        cases hh : holder x.c.calls p i with
        | none => rfl
        | some u => exact absurd ((L.holds u i).2 hh) (g5.2 u)
      have e : ∃ c', x.c.next tid t (.result r) = .to c' ∧ c'.log.buffer = x.c.log.buffer ∧
          c'.inCall = setf x.c.inCall t none ∧ c'.calls = .getEnd t p r :: x.c.calls ∧
          ∀ u, u ≠ t → c'.log.pc u = x.c.log.pc u := by
        simp only [CSt.next, CSt.result, hw]
        cases r with
        | none => exact ⟨_, rfl, rfl, rfl, rfl, fun u hu => by simp [St.goto, setf_ne _ _ hu]⟩
        | some i =>
          simp only [hnone i rfl]
          exact ⟨_, rfl, rfl, rfl, rfl, fun u hu => by simp [St.goto, St.setChunk, setf_ne _ _ hu]⟩
      obtain ⟨c', e, f1, f2, f3, f4⟩ := e
      dsimp only
      rw [e]
      refine ⟨_, rfl, .step h.reach e, fun q hq => ?_, fun u => (by
        by_cases hu : u = t
        · subst hu; exact pos_next (h.pos _) e
        · show posPc (c'.log.pc u); rw [f4 u hu]; exact h.pos u)⟩
      have : q = p := by
        have hq' : c'.log.buffer = some q := hq
        rw [f1, hb] at hq'; cases hq'; rfl
      subst this
      simp only [setf_self]
      refine ⟨g2, fun u => ?_, fun u i => ?_⟩
      · unfold doing
        rw [f2]
        by_cases hu : u = t
        · subst hu; rw [g3]; simp [setf_self]
        · rw [g4 u hu, L.phase, f4 u hu]; simp [doing, setf_ne _ _ hu]
      · rw [f3]
        cases r with
        | none => simp only at g5; rw [g5, L.holds]; simp [holder]
        | some j =>
          obtain ⟨g5, g6⟩ := g5
          rw [g5]
          simp only [List.mem_cons, Prod.mk.injEq, holder, L.holds, true_and]
          by_cases hij : j = i
          · subst hij
            have : holder x.c.calls q j = none := by
              have := hI.lent q j
              rw [hnone j rfl] at this
              cases hh : holder x.c.calls q j with
              | none => rfl
              | some v => rw [hh] at this; cases this
            simp [this, eq_comm]
          · simp [hij, Ne.symm hij]
    | gave b' =>
      rintro ⟨g1, g2, g3, g4, g5⟩
      have hret : returning (x.c.log.pc t) = true := by
        rw [L.phase, hdo] at g1
        revert g1
        generalize x.c.log.pc t = q
        intro g1
        cases q <;> simp [kind] at g1 <;> rfl
      have hch := hI.retChunk t p hin hret
      have e : ∃ c' i, x.c.next tid t (.act .step) = .to c' ∧ c'.log.buffer = x.c.log.buffer ∧
          c'.inCall = setf x.c.inCall t none ∧ c'.calls = .retEnd t p i :: x.c.calls ∧
          ∀ u, u ≠ t → c'.log.pc u = x.c.log.pc u := by
        cases hc : (x.c.log.tenant t).chunk with
        | none => exact absurd hc hch
        | some v =>
          obtain ⟨b0, i⟩ := v
          simp only [CSt.next, hin, CSt.leave]
          revert hret
          cases hq : x.c.log.pc t <;> intro hret <;> simp [returning] at hret
          · simp only [hc]
            exact ⟨_, i, rfl, rfl, rfl, rfl, fun u hu => by simp [St.goto, St.setChunk, setf_ne _ _ hu]⟩
          · simp only [hc]
            exact ⟨_, i, rfl, rfl, rfl, rfl, fun u hu => rfl⟩
      obtain ⟨c', i, e, f1, f2, f3, f4⟩ := e
      dsimp only
      rw [e]
      refine ⟨_, rfl, .step h.reach e, fun q hq => ?_, fun u => (by
        by_cases hu : u = t
        · subst hu; exact pos_next (h.pos _) e
        · show posPc (c'.log.pc u); rw [f4 u hu]; exact h.pos u)⟩
      have : q = p := by
        have hq' : c'.log.buffer = some q := hq
        rw [f1, hb] at hq'; cases hq'; rfl
      subst this
      simp only [setf_self]
      refine ⟨g2, fun u => ?_, fun u i => ?_⟩
      · unfold doing
        rw [f2]
        by_cases hu : u = t
        · subst hu; rw [g4]; simp [setf_self]
        · rw [g5 u hu, L.phase, f4 u hu]; simp [doing, setf_ne _ _ hu]
      · rw [f3, g3, L.holds]; simp [holder]

theorem XInv.next {x x' : XSt ε} {t : Nat} {a : XAct ε} (h : XInv tid x) (hs : x.next tid t a = .to x') : XInv tid x' := by
  have key : ∀ {o : Out (CSt ε)}, x.c.inCall t = none → (∀ c', o = .to c' → LogStep x.c t c' ∧ Custom.Reachable tid c' ∧ posPc (c'.log.pc t)) →
      x.logged t o = .to x' → XInv tid x' := by
    intro o hin ho hs
    unfold XSt.logged at hs
    split at hs
    · rename_i c'
      obtain ⟨h1, h2, h3⟩ := ho c' rfl
      split at hs
      · rename_i b hb
        cases hs
        exact (h.bufs hin h2 h1 h3).2.2 b hb
      · cases hs
    · cases hs
    · cases hs
  cases a with
  | log a =>
    simp only [XSt.next] at hs
    split at hs
    · rename_i hin
      exact key hin (fun c' hc => ⟨logStep_act h.inv hin hc, .step h.reach hc, pos_next (h.pos t) hc⟩) hs
    · cases hs
  | stats =>
    simp only [XSt.next] at hs
    split at hs
    · rename_i hin
      exact key hin (fun c' hc => ⟨logStep_stats hc, .step h.reach hc, pos_next (h.pos t) hc⟩) hs
    · cases hs
  | access sp =>
    simp only [XSt.next] at hs
    split at hs
    · rename_i p hin
      obtain ⟨y, h1, h2⟩ := h.access (sp := sp) hin
      rw [h1] at hs; cases hs; exact h2
    · cases hs

theorem Reachable.inv {x : XSt ε} (h : Reachable tid x) : XInv tid x := by
  induction h with
  | init => exact XInv.init
  | step _ hs ih => exact ih.next hs

end Phosphor.LogBuf
