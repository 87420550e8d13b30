import Verif.Proof.TraceLogLoan
import Verif.Proof.RingOrder
/-
A ring buffer into which one thread logs.
-/
namespace Phosphor.TLog
variable {ε : Type} {tid : Nat → Nat} {s s' : St ε} {t : Nat} {pol : Bool}

/-- What a step outside `logEvent` may do to buffer `b` and to the chunks of the threads. -/
structure Quiet (b t : Nat) (c : Choice ε) (s s' : St ε) : Prop where
  same : SameBuf b s s'
  pc : (s'.pc t).logging = false
  dereg : s'.pc t = .deregBody → c = .deregister ∨ s.pc t = .deregBody
  chunk : ∀ v, (s'.tenant v).chunk = (s.tenant v).chunk ∨
    (s'.tenant v).chunk = none ∧ ((s.pc t).isOff = true ∨ v = t ∧ s.pc t = .deregBody)

theorem Quiet.mk' {b : Nat} {c : Choice ε} {x : St ε} {q : Pc ε} (h1 : SameBuf b s x)
    (h2 : q.logging = false) (h3 : q = .deregBody → c = .deregister)
    (h4 : ∀ v, (x.tenant v).chunk = (s.tenant v).chunk) : Quiet b t c s (x.goto t q) :=
  ⟨⟨h1.1, h1.2, h1.3⟩, by rw [goto_pc]; exact h2, fun h => Or.inl (h3 (by rw [goto_pc] at h; exact h)), fun v => Or.inl (h4 v)⟩

theorem Quiet.pop {b : Nat} {c : Choice ε} {x : St ε} {st : List Frame} (h1 : SameBuf b s x)
    (h4 : ∀ v, (x.tenant v).chunk = (s.tenant v).chunk) : Quiet b t c s (x.pop t st) := by
  unfold St.pop
  split <;> exact .mk' h1 rfl (fun h => by cases h) h4

theorem Quiet.unwind {b : Nat} {c : Choice ε} {x : St ε} {st : List Frame} (h1 : SameBuf b s x)
    (h4 : ∀ v, (x.tenant v).chunk = (s.tenant v).chunk) : Quiet b t c s (x.unwind t st) := by
  rw [unwind_eq]
  split <;> exact .mk' h1 rfl (fun h => by cases h) h4

theorem registerBody_chunk (n : Str) (v : Nat) :
    ((s.registerBody tid t n).tenant v).chunk = (s.tenant v).chunk := by
  unfold St.registerBody
  split
  · rfl
  · dsimp only
    split
    · simp only [setf]; split <;> simp_all
    · simp only [setf]; split <;> simp_all

theorem registerBody_same (n : Str) (b : Nat) : SameBuf b s (s.registerBody tid t n) := by
  unfold St.registerBody
  split
  · exact ⟨rfl, rfl, rfl⟩
  · dsimp only; split <;> exact ⟨rfl, rfl, rfl⟩

theorem heldStep_quiet {other : Bool} {b : Nat} {c : Choice ε} (hs : s.heldStep tid t other = .to s')
    (hn : b ≠ s.nextBuf) (hd : s.pc t = .deregBody → ∀ i, (s.tenant t).chunk ≠ some (b, i)) : Quiet b t c s s' := by
  unfold St.heldStep at hs
  split at hs
  case h_1 n hp =>
    cases hs
    exact .mk' (registerBody_same _ _) rfl (fun h => by cases h) (registerBody_chunk _)
  case h_2 hp =>
    split at hs
    · rename_i x hx
      cases hs
      by_cases hi : (s.tenant t).initialised = true
      · have hsb : SameBuf b s x := by
          have hx' := hx
          unfold St.deregisterBody at hx'
          rw [if_pos hi] at hx'
          split at hx'
          · cases hx'
          · rename_i y hy
            have : SameBuf b s y := by
              unfold St.returnOwn at hy
              split at hy
              · cases hy; exact .refl _ _
              · rename_i p i hc
                split at hy
                · cases hy; exact .refl _ _
                · rename_i p' hp'
                  split at hy
                  · rename_i hm
                    cases hy
                    have hne : b ≠ p' := by
                      rintro rfl
                      exact hd hp i (by rw [hm]; exact hc)
                    exact ⟨by simp [St.setBuf, setf, hne], rfl, rfl⟩
                  · cases hy
            dsimp only at hx'
            split at hx' <;> cases hx' <;> exact ⟨this.1, this.2, this.3⟩
        refine ⟨⟨hsb.1, hsb.2, hsb.3⟩, by rw [goto_pc]; rfl, (fun h => by rw [goto_pc] at h; cases h), fun v => ?_⟩
        obtain ⟨h', rfl⟩ := deregisterBody_eq hi hx
        by_cases hv : v = t
        · subst hv
          right
          refine ⟨?_, Or.inr ⟨rfl, hp⟩⟩
          simp [St.goto]
        · left; simp [St.goto, setf, hv]
      · simp only [St.deregisterBody, hi] at hx
        cases hx
        exact .mk' ⟨rfl, rfl, rfl⟩ rfl (fun h => by cases h) (fun _ => rfl)
    · cases hs
  case h_3 => cases hs; exact .mk' ⟨rfl, rfl, rfl⟩ rfl (fun h => by cases h) (fun _ => rfl)
  case h_4 =>
    split at hs
    · cases hs; exact .mk' ⟨rfl, rfl, rfl⟩ rfl (fun h => by cases h) (fun _ => rfl)
    · cases hs; exact .pop ⟨rfl, rfl, rfl⟩ (fun _ => rfl)
  case h_5 u rest sh st hp =>
    split at hs
    · cases hs; exact .mk' ⟨rfl, rfl, rfl⟩ rfl (fun h => by cases h) (fun _ => rfl)
    · split at hs <;> cases hs
      · exact .mk' ⟨rfl, rfl, rfl⟩ rfl (fun h => by cases h) (setLock_chunk s u · _)
      · exact ⟨.refl _ _, by rw [hp]; rfl, (fun h => by rw [hp] at h; cases h), fun _ => Or.inl rfl⟩
  case h_6 u rest sh st hp =>
    cases hs
    refine ⟨⟨rfl, rfl, rfl⟩, by rw [goto_pc]; rfl, (fun h => by rw [goto_pc] at h; cases h), fun v => ?_⟩
    by_cases hv : v = u
    · subst hv; right
      exact ⟨by simp [St.goto, St.setChunk], Or.inl (by rw [hp]; rfl)⟩
    · left; simp [St.goto, St.setChunk, setf, hv]
  case h_7 u rest sh st hp =>
    cases hs; exact .mk' ⟨rfl, rfl, rfl⟩ rfl (fun h => by cases h) (setLock_chunk s u · _)
  case h_8 n st hp =>
    cases hs
    exact .mk' ⟨by simp [St.createBuffer, setf, hn], by simp [St.createBuffer, setf, hn],
      by simp [St.createBuffer, setf, hn]⟩ rfl (fun h => by cases h) (fun _ => rfl)
  case h_9 st hp => cases hs; exact .pop ⟨rfl, rfl, rfl⟩ (fun _ => rfl)
  case h_10 => cases hs

theorem logStep_quiet {sp : Bool} {b : Nat} {c : Choice ε} (hs : s.logStep tid t sp = .to s')
    (hl : (s.pc t).logging = false) : Quiet b t c s s' := by
  unfold St.logStep at hs
  split at hs
  case h_16 f g hp =>
    split at hs
    · cases hs; exact .mk' ⟨rfl, rfl, rfl⟩ rfl (fun h => by cases h) (fun _ => rfl)
    · split at hs
      · cases hs
        exact .mk' (x := { s with enabled := false, hist := _ }) ⟨rfl, rfl, rfl⟩ rfl (fun h => by cases h) (fun _ => rfl)
      · cases hs; exact .mk' ⟨rfl, rfl, rfl⟩ rfl (fun h => by cases h) (fun _ => rfl)
  case h_19 => cases hs
  all_goals (rename_i hp; rw [hp] at hl; cases hl)

/-- A step of a thread that is not in `logEvent`, other than a call of it. -/
theorem next_quiet {b : Nat} {c : Choice ε} (hs : s.next pol tid t c = .to s') (hl : (s.pc t).logging = false)
    (hc : ∀ e, c ≠ .log e) (hn : b ≠ s.nextBuf)
    (hd : s.pc t = .deregBody → ∀ i, (s.tenant t).chunk ≠ some (b, i)) : Quiet b t c s s' := by
  have key : ∀ sp, (match s.logStep tid t sp with
      | .blocked => s.heldStep tid t sp
      | o => o) = .to s' → Quiet b t c s s' := by
    intro sp hs
    split at hs
    · exact heldStep_quiet hs hn hd
    · exact logStep_quiet hs hl
  have stay : ∀ {x : St ε} {st : List Frame}, s.pc t = .held .user st → x.pc = s.pc → SameBuf b s x →
      (∀ v, (x.tenant v).chunk = (s.tenant v).chunk) → Quiet b t c s x := by
    intro x st hp hx h1 h2
    exact ⟨h1, by rw [hx]; exact hl, (fun h => by rw [hx, hp] at h; cases h), fun v => Or.inl (h2 v)⟩
  unfold St.next at hs
  cases c with
  | step => exact key false hs
  | spurious => exact key true hs
  | log e => exact absurd rfl (hc e)
  | lock => dsimp only at hs; split at hs <;> cases hs; exact .mk' ⟨rfl, rfl, rfl⟩ rfl (fun h => by cases h) (fun _ => rfl)
  | register n => dsimp only at hs; split at hs <;> cases hs; exact .mk' ⟨rfl, rfl, rfl⟩ rfl (fun h => by cases h) (fun _ => rfl)
  | deregister => dsimp only at hs; split at hs <;> cases hs; exact .mk' ⟨rfl, rfl, rfl⟩ rfl (fun _ => rfl) (fun _ => rfl)
  | free a =>
    dsimp only at hs
    split at hs <;> cases hs
    exact ⟨⟨rfl, rfl, rfl⟩, hl, fun h => Or.inr h, fun _ => Or.inl rfl⟩
  | start cfg =>
    dsimp only at hs
    split at hs
    · rename_i st hp
      split at hs
      · cases hs
      · split at hs
        · split at hs
          · cases hs; exact stay hp rfl ⟨rfl, rfl, rfl⟩ (fun _ => rfl)
          · split at hs
            · cases hs
              exact .mk' (x := { s with config := cfg, enabled := false, hist := _ }) ⟨rfl, rfl, rfl⟩ rfl (fun h => by cases h) (fun _ => rfl)
            · cases hs
              exact .mk' (x := { s with config := cfg, hist := _ }) ⟨rfl, rfl, rfl⟩ rfl (fun h => by cases h) (fun _ => rfl)
        · cases hs
    · cases hs
  | stop sh =>
    dsimp only at hs
    split at hs
    · rename_i st hp
      split at hs
      · cases hs
        exact .mk' (x := { s with enabled := false, hist := _ }) ⟨rfl, rfl, rfl⟩ rfl (fun h => by cases h) (fun _ => rfl)
      · cases hs; exact stay hp rfl ⟨rfl, rfl, rfl⟩ (fun _ => rfl)
    · cases hs
  | getBuffer =>
    dsimp only at hs
    split at hs
    · rename_i st hp
      split at hs <;> cases hs <;> exact stay hp rfl ⟨rfl, rfl, rfl⟩ (fun _ => rfl)
    · cases hs
  | getTraceContext =>
    dsimp only at hs
    split at hs
    · rename_i st hp
      split at hs <;> cases hs <;> exact stay hp rfl ⟨rfl, rfl, rfl⟩ (fun _ => rfl)
    · cases hs
  | ret =>
    dsimp only at hs
    split at hs
    · cases hs; exact .pop ⟨rfl, rfl, rfl⟩ (fun _ => rfl)
    · cases hs
  | throw =>
    dsimp only at hs
    split at hs
    · cases hs; exact .unwind ⟨rfl, rfl, rfl⟩ (fun _ => rfl)
    · cases hs

/-- A step of a thread that has neither a pointer to buffer `b` nor one of its chunks. -/
theorem next_same {b : Nat} {c : Choice ε} (hs : s.next pol tid t c = .to s') (hn : b ≠ s.nextBuf)
    (hp : (s.pc t).bufPtr ≠ some b) (hc : ∀ i, (s.tenant t).chunk ≠ some (b, i)) : SameBuf b s s' := by
  have key : ∀ sp, (match s.logStep tid t sp with
      | .blocked => s.heldStep tid t sp
      | o => o) = .to s' → SameBuf b s s' := by
    intro sp hs
    split at hs
    · exact (heldStep_quiet (c := c) hs hn (fun _ => hc)).same
    · exact logStep_writes hs b (Or.inr ⟨hp, hc⟩)
  unfold St.next at hs
  cases c with
  | step => exact key false hs
  | spurious => exact key true hs
  | log e => dsimp only at hs; split at hs <;> cases hs; exact ⟨rfl, rfl, rfl⟩
  | lock => dsimp only at hs; split at hs <;> cases hs; exact ⟨rfl, rfl, rfl⟩
  | register n => dsimp only at hs; split at hs <;> cases hs; exact ⟨rfl, rfl, rfl⟩
  | deregister => dsimp only at hs; split at hs <;> cases hs; exact ⟨rfl, rfl, rfl⟩
  | free c => dsimp only at hs; split at hs <;> cases hs; exact ⟨rfl, rfl, rfl⟩
  | start cfg =>
    dsimp only at hs
    split at hs
    · split at hs
      · cases hs
      · split at hs
        · split at hs
          · cases hs; exact ⟨rfl, rfl, rfl⟩
          · split at hs <;> cases hs <;> exact ⟨rfl, rfl, rfl⟩
        · cases hs
    · cases hs
  | stop sh =>
    dsimp only at hs
    split at hs
    · split at hs <;> cases hs <;> exact ⟨rfl, rfl, rfl⟩
    · cases hs
  | getBuffer =>
    dsimp only at hs
    split at hs
    · split at hs <;> cases hs <;> exact ⟨rfl, rfl, rfl⟩
    · cases hs
  | getTraceContext =>
    dsimp only at hs
    split at hs
    · split at hs <;> cases hs <;> exact ⟨rfl, rfl, rfl⟩
    · cases hs
  | ret =>
    dsimp only at hs
    split at hs
    · cases hs; exact pop_same _ _ _ _
    · cases hs
  | throw =>
    dsimp only at hs
    split at hs
    · cases hs; exact unwind_same _ _ _ _
    · cases hs

/-- The thread returns the chunk it has. -/
def Pc.returning : Pc ε → Bool
  | .recheck _ | .retLoad _ | .retDo _ _ => true
  | _ => false

def Pc.isStore : Pc ε → Bool
  | .store _ => true
  | _ => false

/-- Where the events of `t` are in the ring buffer `b`. -/
structure Placed (t b : Nat) (x : St ε) (cur : Option Nat) (dropped : List ε) : Prop where
  order : Order (x.contents b) (x.heap b).queue cur dropped (x.stored b t) (x.heap b).chunks.length
  used : ∀ i, cur = some i → evAt (x.contents b) i ≠ [] ∨ (x.pc t).isStore = true ∧ (x.tenant t).chunk = some (b, i)
  chunk : ∀ i, (x.tenant t).chunk = some (b, i) → cur = some i ∧
    ((x.pc t).returning = true → (evAt (x.contents b) i).length = chunkSize)
  fetch : x.buffer = some b → (x.pc t).noChunk = true → cur = none
  gone : x.buffer = some b → x.enabled = true → (x.tenant t).chunk = none → cur = none

/-- Only `t` logs into the ring buffer `b`. -/
structure Ringing (t b : Nat) (x : St ε) : Prop where
  lt : b < x.nextBuf
  ring : (x.heap b).mode = .ring
  others : ∀ u, u ≠ t → (x.pc u).logging = false ∧ ∀ i, (x.tenant u).chunk ≠ some (b, i)
  stays : x.pc t ≠ .deregBody
  mine : ∀ p ∈ x.contents b, p.1 = t
  late : ∀ o, (x.pc o).isEnable = true → b + 1 < x.nextBuf
  placed : ∃ cur dropped, Placed t b x cur dropped

theorem Placed.quiet {b u : Nat} {cur : Option Nat} {dropped : List ε} {c : Choice ε} (h : Placed t b s cur dropped)
    (hc' : Ctl s') (hc : Ctl s) (hq : Quiet b u c s s') (hu : (s.pc u).logging = false) (hpc : u ≠ t → s'.pc t = s.pc t)
    (hd : s.pc t ≠ .deregBody)
    (hb : s'.buffer = some b → s.buffer = some b ∧ (s'.enabled = true → s.enabled = true)) :
    Placed t b s' cur dropped := by
  obtain ⟨⟨g1, g2, g3⟩, q2, q3, q4⟩ := hq
  have hkeep : ∀ i, (s'.tenant t).chunk = some (b, i) → (s.tenant t).chunk = some (b, i) := by
    intro i hi
    rcases q4 t with e | ⟨e, _⟩
    · rw [← e]; exact hi
    · rw [e] at hi; cases hi
  refine ⟨by rw [g1, g2, g3]; exact h.order, ?_, ?_, ?_, ?_⟩
  · intro i hi
    rw [g2]
    rcases h.used i hi with h' | ⟨h1, h2⟩
    · exact Or.inl h'
    · right
      have hut : u ≠ t := by
        rintro rfl
        cases hp : s.pc u <;> rw [hp] at h1 hu <;> cases h1 <;> cases hu
      have hp := hpc hut
      refine ⟨by rw [hp]; exact h1, ?_⟩
      rcases q4 t with e | ⟨e, _⟩
      · rw [e]; exact h2
      · have := hc'.needChunk t (by rw [hp]; cases hp : s.pc t <;> rw [hp] at h1 <;> first | (cases h1; done) | rfl)
        exact absurd e this
  · intro i hi
    obtain ⟨h1, h2⟩ := h.chunk i (hkeep i hi)
    refine ⟨h1, fun hr => ?_⟩
    rw [g2]
    apply h2
    by_cases hut : u = t
    · subst hut
      cases hp : s'.pc u <;> rw [hp] at hr q2 <;> first | (cases hr; done) | cases q2
    · rw [← hpc hut]; exact hr
  · intro hb' hn
    refine h.fetch (hb hb').1 ?_
    by_cases hut : u = t
    · subst hut
      cases hp : s'.pc u <;> rw [hp] at hn q2 <;> first | (cases hn; done) | cases q2
    · rw [← hpc hut]; exact hn
  · intro hb' he hn
    have he0 := (hb hb').2 he
    refine h.gone (hb hb').1 he0 ?_
    rcases q4 t with e | ⟨e, e1 | ⟨rfl, e1⟩⟩
    · rw [← e]; exact hn
    · rw [hc.off u e1] at he0; cases he0
    · exact absurd e1 hd

/-- How the buffer of the log, `enabled` and the next buffer change. -/
theorem next_bufs {b u : Nat} {c : Choice ε} (hc : Ctl s) (hs : s.next pol tid u c = .to s') (hlt : b < s.nextBuf)
    (hl : ∀ o, (s.pc o).isEnable = true → b + 1 < s.nextBuf) :
    s.nextBuf ≤ s'.nextBuf ∧ (∀ o, (s'.pc o).isEnable = true → b + 1 < s'.nextBuf) ∧
    (s'.buffer = some b → s.buffer = some b ∧ (s'.enabled = true → s.enabled = true)) := by
  have hon : s'.buffer = some b → s.buffer = some b → s'.enabled = true → s.enabled = true := by
    intro _ hb he
    have : s.enabled = true ∨ (s.pc u).isEnable = true := by
      cases next_move hc hs with
      | calm _ _ _ _ on => exact on he
      | loan _ _ _ _ _ _ _ _ on => rw [on] at he; exact Or.inl he
      | ret _ _ _ _ _ _ _ _ on => rw [on] at he; exact Or.inl he
      | clear _ _ _ _ _ _ _ _ on => rw [on] at he; exact Or.inl he
      | create _ _ _ _ _ _ on => rw [on] at he; exact Or.inl he
      | member _ _ _ _ _ _ on => rw [on] at he; exact Or.inl he
    rcases this with h | h
    · exact h
    · have h1 := hl u h
      have h2 := hc.last b hb
      omega
  cases next_book hs with
  | calm new hn ha hd hb hst hh hp _ _ hk =>
    exact ⟨by omega, fun o ho => by rw [hn]; exact hl o (hk o ho),
      fun h => ⟨by rw [← hb]; exact h, hon h (by rw [← hb]; exact h)⟩⟩
  | free a ha e => subst e; exact ⟨Nat.le_refl _, hl, fun h => ⟨h, hon h h⟩⟩
  | retrieve cs st hp he e => subst e; exact ⟨Nat.le_refl _, hl, fun h => by cases h⟩
  | create n st hp e =>
    subst e
    refine ⟨Nat.le_succ _, fun o _ => ?_, fun h => ?_⟩
    · show b + 1 < s.nextBuf + 1
      omega
    · have : some s.nextBuf = some b := h
      cases this
      omega
  | enable st hp e =>
    obtain ⟨q, hq, e'⟩ := pop_goto s.enable u st
    rw [e'] at e
    refine ⟨by rw [e]; exact Nat.le_refl _, fun o ho => ?_, fun h => ?_⟩
    · rw [e] at ho ⊢
      by_cases hou : o = u
      · subst hou; rw [goto_pc, hq.2.2] at ho; cases ho
      · rw [goto_other _ _ _ _ hou] at ho; exact hl o ho
    · have h0 : s.buffer = some b := by rw [e] at h; exact h
      exact ⟨h0, hon h h0⟩
  | reg n hp hi e =>
    subst e
    obtain ⟨e1, e2⟩ := registerBody_frame (s := s) (tid := tid) (t := u) n
    refine ⟨Nat.le_of_eq e1.symm, fun o ho => ?_, fun h => ?_⟩
    · have : b + 1 < s.nextBuf := by
        by_cases hou : o = u
        · subst hou; rw [goto_pc] at ho; cases ho
        · rw [next_pc hs hou] at ho; exact hl o ho
      show b + 1 < (s.registerBody tid u n).nextBuf
      omega
    · have h0 : s.buffer = some b := by
        have hx : (s.registerBody tid u n).buffer = s.buffer := by
          unfold St.registerBody
          split
          · rfl
          · dsimp only; split <;> rfl
        rw [← hx]; exact h
      exact ⟨h0, hon h h0⟩
  | dereg x hp hi hx e =>
    obtain ⟨hp', rfl⟩ := deregisterBody_eq hi hx
    subst e
    refine ⟨Nat.le_refl _, fun o ho => ?_, fun h => ⟨h, hon h h⟩⟩
    by_cases hou : o = u
    · subst hou; rw [goto_pc] at ho; cases ho
    · rw [next_pc hs hou] at ho; exact hl o ho

/-- A step outside `logEvent` by anybody. -/
theorem Ringing.quiet {b u : Nat} {c : Choice ε} (h : Ringing t b s) (hr : Reachable true tid s)
    (hs : s.next true tid u c = .to s') (hu : (s.pc u).logging = false) (hc : ∀ e, c ≠ .log e)
    (hd : u = t → c ≠ .deregister) : Ringing t b s' := by
  have hq : Quiet b u c s s' := by
    refine next_quiet hs hu hc (Nat.ne_of_lt h.lt) (fun hp i => ?_)
    by_cases hut : u = t
    · subst hut; exact absurd hp h.stays
    · exact (h.others u hut).2 i
  obtain ⟨b1, b2, b3⟩ := next_bufs hr.ctl hs h.lt h.late
  have hcs : ∀ v i, (s'.tenant v).chunk = some (b, i) → (s.tenant v).chunk = some (b, i) := by
    intro v i hi
    rcases hq.chunk v with e | ⟨e, _⟩
    · rw [← e]; exact hi
    · rw [e] at hi; cases hi
  refine ⟨by have := h.lt; omega, by rw [hq.same.heap]; exact h.ring, ?_, ?_, by rw [hq.same.contents]; exact h.mine, b2, ?_⟩
  · intro v hv
    refine ⟨?_, fun i hi => (h.others v hv).2 i (hcs v i hi)⟩
    by_cases hvu : v = u
    · subst hvu; exact hq.pc
    · rw [next_pc hs hvu]; exact (h.others v hv).1
  · intro hp
    by_cases hut : u = t
    · subst hut
      rcases hq.dereg hp with e | e
      · exact hd rfl e
      · exact h.stays e
    · rw [next_pc hs (Ne.symm hut)] at hp; exact h.stays hp
  · obtain ⟨cur, dropped, hpl⟩ := h.placed
    exact ⟨cur, dropped, hpl.quiet (hr.step hs).ctl hr.ctl hq hu (fun hut => next_pc hs (Ne.symm hut)) h.stays b3⟩

/-- A step of `t` that leaves the buffer and its chunk alone. -/
theorem Placed.goto {b : Nat} {cur : Option Nat} {dropped : List ε} {x : St ε} {q : Pc ε}
    (h : Placed t b s cur dropped) (hx : SameBuf b s x) (h1 : (x.tenant t).chunk = (s.tenant t).chunk)
    (h2 : x.buffer = s.buffer) (h3 : x.enabled = s.enabled) (hst : (s.pc t).isStore = false)
    (hret : q.returning = true → ∀ i, (s.tenant t).chunk = some (b, i) → (evAt (s.contents b) i).length = chunkSize)
    (hn : q.noChunk = true → s.buffer = some b → cur = none) : Placed t b (x.goto t q) cur dropped := by
  obtain ⟨g1, g2, g3⟩ := hx
  refine ⟨?_, fun i hi => ?_, fun i hi => ?_, fun hb hq => ?_, fun hb he hc => ?_⟩
  · show Order (x.contents b) (x.heap b).queue cur dropped (x.stored b t) (x.heap b).chunks.length
    rw [g1, g2, g3]; exact h.order
  · rcases h.used i hi with h' | ⟨h', _⟩
    · left
      show evAt (x.contents b) i ≠ []
      rw [g2]; exact h'
    · rw [hst] at h'; cases h'
  · have hi' : (s.tenant t).chunk = some (b, i) := by rw [← h1]; exact hi
    refine ⟨(h.chunk i hi').1, fun hr => ?_⟩
    show (evAt (x.contents b) i).length = chunkSize
    rw [g2]
    rw [goto_pc] at hr
    exact hret hr i hi'
  · rw [goto_pc] at hq
    exact hn hq (by rw [← h2]; exact hb)
  · exact h.gone (by rw [← h2]; exact hb) (by rw [← h3]; exact he) (by rw [← h1]; exact hc)

theorem Ringing.log {b : Nat} (h : Ringing t b s) (h1 : s'.nextBuf = s.nextBuf)
    (h2 : (s'.heap b).mode = (s.heap b).mode) (h3 : ∀ u, u ≠ t → s'.pc u = s.pc u)
    (h4 : ∀ u, u ≠ t → (s'.tenant u).chunk = (s.tenant u).chunk) (h5 : s'.pc t ≠ .deregBody)
    (h6 : (s'.pc t).isEnable = false)
    (h7 : ∀ p ∈ s'.contents b, p.1 = t) (h8 : ∃ cur dropped, Placed t b s' cur dropped) : Ringing t b s' := by
  refine ⟨by rw [h1]; exact h.lt, by rw [h2]; exact h.ring, fun u hu => ?_, h5, h7, fun o ho => ?_, h8⟩
  · rw [h3 u hu, h4 u hu]; exact h.others u hu
  · rw [h1]
    by_cases hot : o = t
    · subst hot; rw [h6] at ho; cases ho
    · rw [h3 o hot] at ho; exact h.late o ho

theorem Ringing.goto {b : Nat} {x : St ε} {q : Pc ε} (h : Ringing t b s) (h1 : x.nextBuf = s.nextBuf)
    (hx : SameBuf b s x) (h2 : x.buffer = s.buffer) (h3 : x.enabled = s.enabled) (h4 : x.pc = s.pc)
    (h5 : ∀ u, (x.tenant u).chunk = (s.tenant u).chunk) (hst : (s.pc t).isStore = false)
    (hq : q ≠ .deregBody) (hq' : q.isEnable = false)
    (hret : q.returning = true → ∀ i, (s.tenant t).chunk = some (b, i) → (evAt (s.contents b) i).length = chunkSize)
    (hn : q.noChunk = true → s.buffer = some b → (s.pc t).noChunk = true ∨ s.enabled = true ∧ (s.tenant t).chunk = none) :
    Ringing t b (x.goto t q) := by
  refine h.log h1 (by rw [show (x.goto t q).heap b = x.heap b from rfl, hx.heap])
    (fun u hu => by rw [goto_other _ _ _ _ hu, h4]) (fun u _ => h5 u) (by rw [goto_pc]; exact hq) (by rw [goto_pc]; exact hq')
    (by rw [show (x.goto t q).contents b = x.contents b from rfl, hx.contents]; exact h.mine) ?_
  obtain ⟨cur, dropped, hpl⟩ := h.placed
  refine ⟨cur, dropped, hpl.goto hx (h5 t) h2 h3 hst hret (fun h' hb => ?_)⟩
  rcases hn h' hb with h' | ⟨h1, h2⟩
  · exact hpl.fetch hb h'
  · exact hpl.gone hb h1 h2

/-- `t` gets chunk `i` of buffer `p`. -/
theorem Ringing.loan {b p i : Nat} {e : ε} {y : Buffer ε} (h : Ringing t b s) (hb : s.buffer = some p)
    (hn : (s.pc t).noChunk = true) (hm : y.mode = (s.heap p).mode) (hl : y.chunks.length = (s.heap p).chunks.length)
    (ho : p = b → ∀ dropped, Order (s.contents p) (s.heap p).queue none dropped (s.stored p t) (s.heap p).chunks.length →
      ∃ dropped', Order (if i < (s.contents p).length then (s.contents p).set i (t, []) else s.contents p ++ [(t, [])])
        y.queue (some i) dropped' (s.stored p t) (s.heap p).chunks.length) :
    Ringing t b ((((s.setBuf p y).loaned t p i).setChunk t (some (p, i))).goto t (.store e)) := by
  obtain ⟨cur, dropped, hpl⟩ := h.placed
  refine h.log rfl ?_ (fun u hu => goto_other _ _ _ _ hu) (fun u hu => by simp [St.goto, St.setChunk, St.loaned, St.setBuf, setf, hu])
    (by rw [goto_pc]; simp) (by rw [goto_pc]; rfl) ?_ ?_
  · by_cases hbp : b = p
    · subst hbp; simp [St.goto, St.setChunk, St.loaned, St.setBuf, hm]
    · simp [St.goto, St.setChunk, St.loaned, St.setBuf, setf, hbp]
  · by_cases hbp : b = p
    · subst hbp
      intro a ha
      replace ha : a ∈ setf s.contents b (if i < (s.contents b).length then (s.contents b).set i (t, [])
        else s.contents b ++ [(t, [])]) b := ha
      rw [setf_self] at ha
      by_cases hi : i < (s.contents b).length
      · rw [if_pos hi] at ha
        rcases List.mem_or_eq_of_mem_set ha with ha | ha
        · exact h.mine a ha
        · rw [ha]
      · rw [if_neg hi] at ha
        rcases List.mem_append.1 ha with ha | ha
        · exact h.mine a ha
        · simp at ha; rw [ha]
    · simp only [St.goto, St.setChunk, St.loaned, St.setBuf, setf, if_neg hbp]
      exact h.mine
  · by_cases hbp : b = p
    · subst hbp
      have hcur := hpl.fetch hb hn
      subst hcur
      obtain ⟨dropped', hor⟩ := ho rfl dropped hpl.order
      refine ⟨some i, dropped', ?_, fun j hj => ?_, fun j hj => ?_, fun _ hq => ?_, fun _ _ hc => ?_⟩
      · simp only [St.goto, St.setChunk, St.loaned, St.setBuf, setf_self, hl]
        exact hor
      · cases hj
        exact Or.inr ⟨by rw [goto_pc]; rfl, by simp [St.goto, St.setChunk]⟩
      · simp [St.goto, St.setChunk] at hj
        subst hj
        exact ⟨rfl, fun hr => by rw [goto_pc] at hr; cases hr⟩
      · rw [goto_pc] at hq; cases hq
      · simp [St.goto, St.setChunk] at hc
    · have hpb : ¬ some p = some b := fun h => hbp (by cases h; rfl)
      have hst : (s.pc t).isStore = false := by
        cases hp : s.pc t <;> rw [hp] at hn <;> first | (cases hn; done) | rfl
      refine ⟨cur, dropped, ?_, fun j hj => ?_, fun j hj => ?_, fun hb' => ?_, fun hb' => ?_⟩
      · simp only [St.goto, St.setChunk, St.loaned, St.setBuf, setf, if_neg hbp]
        exact hpl.order
      · simp only [St.goto, St.setChunk, St.loaned, St.setBuf, setf, if_neg hbp]
        rcases hpl.used j hj with h' | ⟨h', _⟩
        · exact Or.inl h'
        · rw [hst] at h'; cases h'
      · simp [St.goto, St.setChunk] at hj
        exact absurd hj.1.symm hbp
      · exact absurd (hb.symm.trans hb') hpb
      · exact absurd (hb.symm.trans hb') hpb

/-- `t` stores an event. -/
theorem Ringing.push {b p i : Nat} {e : ε} {y : Buffer ε} (h : Ringing t b s) (hc : (s.tenant t).chunk = some (p, i))
    (hb : s.buffer = some p) (hm : y.mode = (s.heap p).mode)
    (hl : y.chunks.length = (s.heap p).chunks.length) (hq : y.queue = (s.heap p).queue) :
    Ringing t b (((s.setBuf p y).recorded t p i e).goto t .unlock) := by
  obtain ⟨cur, dropped, hpl⟩ := h.placed
  refine h.log rfl ?_ (fun u hu => goto_other _ _ _ _ hu) (fun u hu => rfl)
    (by rw [goto_pc]; simp) (by rw [goto_pc]; rfl) ?_ ?_
  · by_cases hbp : b = p
    · subst hbp; simp [St.goto, St.recorded, St.setBuf, hm]
    · simp [St.goto, St.recorded, St.setBuf, setf, hbp]
  · by_cases hbp : b = p
    · subst hbp
      intro a ha
      simp only [St.goto, St.recorded, St.setBuf, setf_self] at ha
      obtain ⟨j, hj⟩ := List.mem_iff_getElem?.1 ha
      rw [List.getElem?_modify] at hj
      simp only [Option.map_eq_map, Option.map_eq_some_iff] at hj
      obtain ⟨a', h1, h2⟩ := hj
      have := h.mine a' (List.mem_iff_getElem?.2 ⟨j, h1⟩)
      split at h2 <;> rw [← h2] <;> exact this
    · simp only [St.goto, St.recorded, St.setBuf, setf, if_neg hbp]
      exact h.mine
  · by_cases hbp : b = p
    · subst hbp
      obtain ⟨rfl, _⟩ := hpl.chunk i hc
      have hor := hpl.order.push e
      refine ⟨some i, dropped, ?_, fun j hj => ?_, fun j hj => ?_, fun _ hq => ?_, fun _ _ hn => ?_⟩
      · simp only [St.goto, St.recorded, St.setBuf, setf_self, hl, hq]
        exact hor
      · cases hj
        left
        simp only [St.goto, St.recorded, St.setBuf, setf_self]
        have hi := hpl.order.lt (j := i) (by simp)
        simp [evAt, hi]
      · have hj' : (s.tenant t).chunk = some (b, j) := hj
        rw [hc] at hj'
        cases hj'
        exact ⟨rfl, fun hr => by rw [goto_pc] at hr; cases hr⟩
      · rw [goto_pc] at hq; cases hq
      · have hn' : (s.tenant t).chunk = none := hn
        rw [hc] at hn'; cases hn'
    · have hpb : ¬ some p = some b := fun h => hbp (by cases h; rfl)
      refine ⟨cur, dropped, ?_, fun j hj => ?_, fun j hj => ?_, fun hb' => ?_, fun hb' => ?_⟩
      · simp only [St.goto, St.recorded, St.setBuf, setf, if_neg hbp]
        exact hpl.order
      · simp only [St.goto, St.recorded, St.setBuf, setf, if_neg hbp]
        rcases hpl.used j hj with h' | ⟨_, h'⟩
        · exact Or.inl h'
        · rw [hc] at h'; cases h'; exact absurd rfl hbp
      · have hj' : (s.tenant t).chunk = some (b, j) := hj
        rw [hc] at hj'; cases hj'; exact absurd rfl hbp
      · exact absurd (hb.symm.trans hb') hpb
      · exact absurd (hb.symm.trans hb') hpb

/-- `t` returns its chunk. -/
theorem Ringing.ret {b p i : Nat} {e : ε} (h : Ringing t b s) (hp : s.pc t = .retDo e p)
    (hc : (s.tenant t).chunk = some (p, i)) (hb : s.buffer = some p) :
    Ringing t b (((s.setBuf p ((s.heap p).returnChunk i)).setChunk t none).goto t (.getCheck e)) := by
  obtain ⟨cur, dropped, hpl⟩ := h.placed
  have hsh := SameShape.returnChunk (s.heap p) i
  refine h.log rfl ?_ (fun u hu => goto_other _ _ _ _ hu) (fun u hu => by simp [St.goto, St.setChunk, St.setBuf, setf, hu])
    (by rw [goto_pc]; simp) (by rw [goto_pc]; rfl) h.mine ?_
  · by_cases hbp : b = p
    · subst hbp
      have := h.ring
      simp [St.goto, St.setChunk, St.setBuf, Buffer.returnChunk, this, Buffer.returnChunkRing]
    · simp [St.goto, St.setChunk, St.setBuf, setf, hbp]
  · by_cases hbp : b = p
    · subst hbp
      obtain ⟨rfl, hf⟩ := hpl.chunk i hc
      have hor := hpl.order.ret (hf (by rw [hp]; rfl))
      refine ⟨none, dropped, ?_, (fun j hj => by cases hj), fun j hj => ?_, fun _ _ => rfl, fun _ _ _ => rfl⟩
      · have := h.ring
        simp only [St.goto, St.setChunk, St.setBuf, setf_self, Buffer.returnChunk, this, Buffer.returnChunkRing]
        exact hor
      · simp [St.goto, St.setChunk] at hj
    · have hpb : ¬ some p = some b := fun h => hbp (by cases h; rfl)
      refine ⟨cur, dropped, ?_, fun j hj => ?_, fun j hj => ?_, fun hb' => ?_, fun hb' => ?_⟩
      · simp only [St.goto, St.setChunk, St.setBuf, setf, if_neg hbp]
        exact hpl.order
      · rcases hpl.used j hj with h' | ⟨h', _⟩
        · exact Or.inl h'
        · rw [hp] at h'; cases h'
      · simp [St.goto, St.setChunk] at hj
      · exact absurd (hb.symm.trans hb') hpb
      · exact absurd (hb.symm.trans hb') hpb

/-- A step of `t` in `logEvent`. -/
theorem Ringing.logStep {b : Nat} {sp : Bool} (h : Ringing t b s) (hr : Reachable true tid s)
    (hl : (s.pc t).logging = true) (hs : s.logStep tid t sp = .to s') : Ringing t b s' := by
  have go : ∀ {p q : Pc ε}, s.pc t = p → p.isStore = false → q ≠ .deregBody → q.isEnable = false →
      (q.returning = true → p.returning = true) → (q.noChunk = true → p.noChunk = true) → Ringing t b (s.goto t q) := by
    intro p q hp h1 h2 h3 h4 h5
    refine h.goto rfl (.refl _ _) rfl rfl rfl (fun _ => rfl) (by rw [hp]; exact h1) h2 h3 (fun hq i hi => ?_)
      (fun hq _ => Or.inl (by rw [hp]; exact h5 hq))
    obtain ⟨cur, dropped, hpl⟩ := h.placed
    exact (hpl.chunk i hi).2 (by rw [hp]; exact h4 hq)
  have lock : ∀ {p q : Pc ε} (l : ChunkLock.State), s.pc t = p → p.isStore = false → q ≠ .deregBody → q.isEnable = false →
      q.returning = false → q.noChunk = false → Ringing t b ((s.setLock t l).goto t q) := by
    intro p q l hp h1 h2 h3 h4 h5
    exact h.goto rfl ⟨rfl, rfl, rfl⟩ rfl rfl rfl (setLock_chunk s t · _) (by rw [hp]; exact h1) h2 h3
      (fun hq => by rw [h4] at hq; cases hq) (fun hq => by rw [h5] at hq; cases hq)
  unfold St.logStep at hs
  split at hs
  case h_1 e hp => cases hs; split <;> exact go hp rfl (by simp) rfl (fun h => by cases h) (fun h => by cases h)
  case h_2 e hp =>
    split at hs
    · cases hs; exact lock _ hp rfl (by simp) rfl rfl rfl
    · cases hs; exact go hp rfl (by simp) rfl (fun h => by cases h) (fun h => by cases h)
    · cases hs; exact h
  case h_3 e hp => cases hs; split <;> exact go hp rfl (by simp) rfl (fun h => by cases h) (fun h => by cases h)
  case h_4 e hp =>
    split at hs
    · rename_i hc
      cases hs
      exact h.goto rfl (.refl _ _) rfl rfl rfl (fun _ => rfl) (by rw [hp]; rfl) (by simp) rfl
        (fun _ i hi => by rw [hc] at hi; cases hi) (fun hq => by cases hq)
    · rename_i p i hc
      split at hs
      case isFalse => cases hs
      obtain ⟨c, evs, hc', hi, hh⟩ := hr.data.chunkAt hc
      rw [hc'] at hs
      cases hs
      split
      · rename_i hf
        refine h.goto rfl (.refl _ _) rfl rfl rfl (fun _ => rfl) (by rw [hp]; rfl) (by simp) rfl
          (fun _ j hj => ?_) (fun hq => by cases hq)
        rw [hc] at hj
        cases hj
        rw [evAt_eq hi]
        exact (Chunk.isFull_iff c evs hh).1 hf
      · exact go hp rfl (by simp) rfl (fun h => by cases h) (fun h => by cases h)
  case h_5 e hp =>
    split at hs
    · rename_i he
      cases hs
      by_cases hc : (s.tenant t).chunk.isSome = true
      · rw [if_pos hc]; exact go hp rfl (by simp) rfl (fun _ => rfl) (fun h => by cases h)
      · rw [if_neg hc]
        exact h.goto rfl (.refl _ _) rfl rfl rfl (fun _ => rfl) (by rw [hp]; rfl) (by simp) rfl
          (fun hq => by cases hq) (fun _ _ => Or.inr ⟨he, by simpa using hc⟩)
    · cases hs; exact go hp rfl (by simp) rfl (fun h => by cases h) (fun h => by cases h)
  case h_6 e hp =>
    split at hs
    · cases hs
    · cases hs; exact go hp rfl (by simp) rfl (fun _ => rfl) (fun h => by cases h)
  case h_7 e p hp =>
    split at hs
    · cases hs
    · rename_i p' i hc
      split at hs
      · rename_i hm
        cases hs
        exact h.ret hp (by rw [hm.2]; exact hc) (hr.ctl.ptr t p (by rw [hp]; rfl))
      · cases hs
  case h_8 e hp => cases hs; split <;> exact go hp rfl (by simp) rfl (fun h => by cases h) (fun _ => rfl)
  case h_9 e hp => cases hs; split <;> exact go hp rfl (by simp) rfl (fun h => by cases h) (fun _ => rfl)
  case h_10 e hp =>
    split at hs
    · cases hs
    · cases hs; exact go hp rfl (by simp) rfl (fun h => by cases h) (fun _ => rfl)
  case h_11 e p hp =>
    have hb := hr.ctl.ptr t p (by rw [hp]; rfl)
    have hbuf := hr.data.bufs p
    have fail : ∀ {y : Buffer ε} {q : Pc ε}, SameShape y (s.heap p) → y.queue = (s.heap p).queue → q ≠ .deregBody →
        q.isEnable = false → q.returning = false → q.noChunk = true →
        Ringing t b ((s.setBuf p y).goto t q) := by
      intro y q hy hq h1 h2 h3 h4
      obtain ⟨cur, dropped, hpl⟩ := h.placed
      refine h.log rfl ?_ (fun u hu => goto_other _ _ _ _ hu) (fun u hu => rfl) (by rw [goto_pc]; exact h1)
        (by rw [goto_pc]; exact h2) h.mine ⟨cur, dropped, ?_, fun i hi => ?_, fun i hi => ?_, fun hb' _ => ?_,
          fun hb' he hc => ?_⟩
      · by_cases hbp : b = p
        · subst hbp; simp [St.goto, St.setBuf, hy.2.2]
        · simp [St.goto, St.setBuf, setf, hbp]
      · by_cases hbp : b = p
        · subst hbp
          simp only [St.goto, St.setBuf, setf_self, hy.2.1, hq]
          exact hpl.order
        · simp only [St.goto, St.setBuf, setf, if_neg hbp]
          exact hpl.order
      · rcases hpl.used i hi with h' | ⟨h', _⟩
        · exact Or.inl h'
        · rw [hp] at h'; cases h'
      · refine ⟨(hpl.chunk i hi).1, fun hr => ?_⟩
        rw [goto_pc, h3] at hr; cases hr
      · exact hpl.fetch hb' (by rw [hp]; rfl)
      · exact hpl.gone hb' he hc
    split at hs
    · split at hs
      · rename_i hmode
        split at hs
        · rename_i y i hg
          cases hs
          obtain ⟨k1, k2, k3, k4, _⟩ := hbuf.claim hg
          have hsh := SameShape.ringClaim (s.heap p) (tid t)
          rw [hg] at hsh
          refine h.loan hb (by rw [hp]; rfl) k4 hsh.2.1 (fun hpb dropped hor => ⟨dropped, ?_⟩)
          rw [k1, if_neg (Nat.lt_irrefl _), k3]
          refine hor.claim ?_
          have hle := k2.length_le
          rw [hsh.2.1] at hle
          simp at hle
          omega
        · rename_i y hg
          cases hs
          have hsh := SameShape.ringClaim (s.heap p) (tid t)
          rw [hg] at hsh
          exact fail hsh (hbuf.claimNone hg).2.2.1 (by simp) rfl rfl rfl
      · rename_i hnr
        have hpb : p ≠ b := by rintro rfl; exact hnr h.ring
        split at hs
        · rename_i y i hg
          cases hs
          obtain ⟨k1, k2, k3, k4, _⟩ := hbuf.getFixed hg
          have hsh := SameShape.getChunkFixed (s.heap p) (tid t)
          rw [hg] at hsh
          exact h.loan hb (by rw [hp]; rfl) k4 hsh.2.1 (fun e => absurd e hpb)
        · rename_i y r hn hg
          cases hs
          have hsh := SameShape.getChunkFixed (s.heap p) (tid t)
          rw [hg] at hsh
          exact fail hsh (hbuf.getFixedNull hg (fun i e => hn i (by rw [e]))).2.2.2.1 (by simp) rfl rfl rfl
    · cases hs
  case h_12 e p hp =>
    have hb := hr.ctl.ptr t p (by rw [hp]; rfl)
    have hbuf := hr.data.bufs p
    split at hs
    · split at hs
      · rename_i y i hg
        cases hs
        obtain ⟨k1, k2, k3, k4, _⟩ := hbuf.take hg
        have hsh := SameShape.ringTake hg
        refine h.loan hb (by rw [hp]; rfl) k4 hsh.2.1 (fun hpb dropped hor => ⟨dropped ++ evAt (s.contents p) i, ?_⟩)
        rw [if_pos k3]
        rw [k1] at hor
        refine hor.take ?_
        have hw := hr.waits t e p hp
        have hle := hbuf.length_eq
        have : (s.heap p).size = (s.heap p).chunks.length := rfl
        omega
      · cases hs; exact h
    · cases hs
  case h_13 f hp => cases hs; exact go hp rfl (by simp) rfl (fun h => by cases h) (fun h => by cases h)
  case h_14 f g hp => cases hs; exact lock _ hp rfl (by simp) rfl rfl rfl
  case h_15 f g hp =>
    split at hs
    · cases hs
      exact h.goto (x := { s with owner := some t }) rfl ⟨rfl, rfl, rfl⟩ rfl rfl rfl (fun _ => rfl) (by rw [hp]; rfl) (by simp) rfl
        (fun hq => by cases hq) (fun hq => by cases hq)
    · cases hs; exact go hp rfl (by simp) rfl (fun h => by cases h) (fun h => by cases h)
  case h_16 f g hp => rw [hp] at hl; cases hl
  case h_17 e hp =>
    split at hs
    · cases hs
    · rename_i p i hc
      split at hs
      · split at hs
        · rename_i y hy
          cases hs
          have hsh := SameShape.pushAt (s.heap p) i e
          rw [hy] at hsh
          obtain ⟨evs, hi⟩ := hr.data.owns t p i hc
          obtain ⟨y', k1, k2, k3, k4, _⟩ := (hr.data.bufs p).push hi (hr.data.room t e p i evs hp hc hi) e
          rw [hy] at k1
          cases k1
          exact h.push hc (hr.ctl.chunkBuf t p i hc) k4 hsh.2.1 k3
        · cases hs
      · cases hs
  case h_18 hp => cases hs; exact lock _ hp rfl (by simp) rfl rfl rfl
  case h_19 => cases hs

/-- Any step, if the other threads do not log and `t` does not deregister. -/
theorem Ringing.next {b u : Nat} {c : Choice ε} (h : Ringing t b s) (hr : Reachable true tid s)
    (hs : s.next true tid u c = .to s') (hu : ∀ e, c = .log e → u = t) (hd : u = t → c ≠ .deregister) :
    Ringing t b s' := by
  by_cases hl : (s.pc u).logging = true
  · have hut : u = t := by
      apply Classical.byContradiction
      intro hne
      rw [(h.others u hne).1] at hl
      cases hl
    subst hut
    have key : ∀ sp, (match s.logStep tid u sp with
        | .blocked => s.heldStep tid u sp
        | o => o) = .to s' → Ringing u b s' := by
      intro sp hs
      split at hs
      · exfalso
        unfold St.heldStep at hs
        split at hs <;> first | (rename_i hp; rw [hp] at hl; cases hl; done) | cases hs
      · exact h.logStep hr hl hs
    cases c with
    | step => exact key false hs
    | spurious => exact key true hs
    | free a =>
      simp only [St.next] at hs
      split at hs <;> cases hs
      exact ⟨h.lt, h.ring, h.others, h.stays, h.mine, h.late, by
        obtain ⟨cur, dropped, hpl⟩ := h.placed
        exact ⟨cur, dropped, hpl.order, hpl.used, hpl.chunk, hpl.fetch, hpl.gone⟩⟩
    | log e =>
      exfalso
      simp only [St.next] at hs
      split at hs
      · rename_i hi; rw [isIdle_iff.1 hi] at hl; cases hl
      · cases hs
    | lock =>
      exfalso
      simp only [St.next] at hs
      split at hs
      · rename_i hi; rw [isIdle_iff.1 hi.1] at hl; cases hl
      · cases hs
    | register n =>
      exfalso
      simp only [St.next] at hs
      split at hs
      · rename_i hi; rw [isIdle_iff.1 hi.1] at hl; cases hl
      · cases hs
    | deregister => exact absurd rfl (hd rfl)
    | start cfg => exfalso; simp only [St.next] at hs; split at hs <;> first | (rename_i hp; rw [hp] at hl; cases hl; done) | cases hs
    | stop sh => exfalso; simp only [St.next] at hs; split at hs <;> first | (rename_i hp; rw [hp] at hl; cases hl; done) | cases hs
    | getBuffer => exfalso; simp only [St.next] at hs; split at hs <;> first | (rename_i hp; rw [hp] at hl; cases hl; done) | cases hs
    | getTraceContext => exfalso; simp only [St.next] at hs; split at hs <;> first | (rename_i hp; rw [hp] at hl; cases hl; done) | cases hs
    | ret => exfalso; simp only [St.next] at hs; split at hs <;> first | (rename_i hp; rw [hp] at hl; cases hl; done) | cases hs
    | throw => exfalso; simp only [St.next] at hs; split at hs <;> first | (rename_i hp; rw [hp] at hl; cases hl; done) | cases hs
  · have hl' : (s.pc u).logging = false := by simpa using hl
    by_cases hc : ∃ e, c = .log e
    · obtain ⟨e, rfl⟩ := hc
      have hut := hu e rfl
      subst hut
      simp only [St.next] at hs
      split at hs
      · rename_i hi
        cases hs
        have hp := isIdle_iff.1 hi
        exact h.goto rfl (.refl _ _) rfl rfl rfl (fun _ => rfl) (by rw [hp]; rfl) (by simp) rfl
          (fun hq => by cases hq) (fun hq => by cases hq)
      · cases hs
    · exact h.quiet hr hs hl' (fun e he => hc ⟨e, he⟩) hd

end Phosphor.TLog
