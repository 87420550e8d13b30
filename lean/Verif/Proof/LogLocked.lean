import Verif.Model.LogLocked
import Verif.Props.TraceLogFull
/-
Lemmas about threads that pass trace points while they hold the lock of the log (C86).
-/
namespace Phosphor.LogLocked
open TLog
variable {ε : Type} {tid : Nat → Nat} {s s' : St ε} {t u : Nat} {c : Choice ε}

theorem own_ne_holder : own t ≠ holder u := by unfold own holder; omega
theorem holder_inj (h : holder t = holder u) : t = u := by unfold holder at h; omega
theorem own_inj (h : own t = own u) : t = u := by unfold own at h; omega

/-- A step is none, or the step of one of the two positions of the thread. -/
theorem next_cases (hs : next tid s t c = .to s') : s' = s ∨
    (s.next true (slot tid) (own t) c = .to s' ∧
      (s.pc (holder t) = .idle ∨ (∃ st, s.pc (holder t) = .held .user st) ∨ (∃ b, c = .free b) ∨ s.pc (own t) ≠ .idle)) ∨
    (s.next true (slot tid) (holder t) c = .to s' ∧ s.pc (own t) = .idle) := by
  unfold next at hs
  split at hs
  · split at hs
    · split at hs
      · exact Or.inr (Or.inl ⟨hs, Or.inl (by assumption)⟩)
      · exact Or.inr (Or.inl ⟨hs, Or.inr (Or.inl ⟨_, by assumption⟩)⟩)
      · cases hs
    · split at hs
      · cases hs
      · cases hs; exact Or.inl rfl
    · cases hs
  · split at hs
    · exact Or.inr (Or.inr ⟨hs, isIdle_iff.1 (by assumption)⟩)
    · cases hs
  · split at hs
    · exact Or.inr (Or.inl ⟨hs, Or.inl (isIdle_iff.1 (by assumption))⟩)
    · cases hs
  · split at hs
    · exact Or.inr (Or.inl ⟨hs, Or.inl (isIdle_iff.1 (by assumption))⟩)
    · cases hs
  · exact Or.inr (Or.inl ⟨hs, Or.inr (Or.inr (Or.inl ⟨_, rfl⟩))⟩)
  · split at hs
    · exact Or.inr (Or.inr ⟨hs, isIdle_iff.1 (by assumption)⟩)
    · split at hs
      · cases hs
      · rename_i hi _
        exact Or.inr (Or.inl ⟨hs, Or.inr (Or.inr (Or.inr (fun h => hi (isIdle_iff.2 h))))⟩)
  · split at hs
    · exact Or.inr (Or.inr ⟨hs, isIdle_iff.1 (by assumption)⟩)
    · split at hs
      · cases hs
      · rename_i hi _
        exact Or.inr (Or.inl ⟨hs, Or.inr (Or.inr (Or.inr (fun h => hi (isIdle_iff.2 h))))⟩)
  · split at hs
    · exact Or.inr (Or.inr ⟨hs, isIdle_iff.1 (by assumption)⟩)
    · rename_i hi
      exact Or.inr (Or.inl ⟨hs, Or.inr (Or.inr (Or.inr (fun h => hi (isIdle_iff.2 h))))⟩)

/-- What threads do here, they can do in the model of the log. -/
theorem Reachable.log (h : Reachable tid s) : TLog.Reachable true (slot tid) s := by
  induction h with
  | init => exact .init
  | step _ hs ih =>
    rcases next_cases hs with rfl | ⟨h, _⟩ | ⟨h, _⟩
    · exact ih
    · exact .step ih h
    · exact .step ih h

/-- A step of a position that does not own the mutex while another one does. -/
theorem foreign (hc : Ctl s) {n o : Nat} (ho : s.owner = some o) (hn : n ≠ o) {tid : Nat → Nat}
    (hs : s.next true tid n c = .to s') :
    s'.owner = s.owner ∧ s'.buffer = s.buffer ∧ s'.enabled = s.enabled ∧ s'.hist = s.hist ∧
    s'.generation = s.generation ∧ s'.config = s.config ∧ (s'.pc n).holdsMutex = false := by
  have hm : (s.pc n).holdsMutex = false := by
    cases h : (s.pc n).holdsMutex with
    | false => rfl
    | true => have := (hc.own n).2 h; rw [ho] at this; cases this; exact absurd rfl hn
  have key : ∀ sp, (match s.logStep tid n sp with
      | .blocked => s.heldStep tid n sp
      | o => o) = .to s' → s'.owner = s.owner ∧ s'.buffer = s.buffer ∧ s'.enabled = s.enabled ∧ s'.hist = s.hist ∧
        s'.generation = s.generation ∧ s'.config = s.config ∧ (s'.pc n).holdsMutex = false := by
    intro sp hs
    split at hs
    · unfold St.heldStep at hs
      split at hs <;> first | (rename_i hp; rw [hp] at hm; cases hm; done) | cases hs
    · rcases logStep_cases hs with rfl | h | ⟨f, g, _, h, _⟩ | ⟨f, g, h, _⟩ | ⟨f, g, h, _⟩
      · exact ⟨rfl, rfl, rfl, rfl, rfl, rfl, hm⟩
      · exact ⟨h.owner, h.buffer, h.enabled, h.hist, h.generation, h.config, h.after⟩
      · rw [ho] at h; cases h
      · rw [h] at hm; cases hm
      · rw [h] at hm; cases hm
  unfold St.next at hs
  cases c with
  | step => exact key false hs
  | spurious => exact key true hs
  | log e =>
    dsimp only at hs
    split at hs
    · cases hs; exact ⟨rfl, rfl, rfl, rfl, rfl, rfl, by rw [goto_pc]; rfl⟩
    · cases hs
  | lock => dsimp only at hs; rw [if_neg (by simp [ho])] at hs; cases hs
  | register n => dsimp only at hs; rw [if_neg (by simp [ho])] at hs; cases hs
  | deregister => dsimp only at hs; rw [if_neg (by simp [ho])] at hs; cases hs
  | free b =>
    dsimp only at hs
    split at hs
    · cases hs; exact ⟨rfl, rfl, rfl, rfl, rfl, rfl, hm⟩
    · cases hs
  | start cfg =>
    dsimp only at hs
    split at hs
    · rename_i hp; rw [hp] at hm; cases hm
    · cases hs
  | stop sh =>
    dsimp only at hs
    split at hs
    · rename_i hp; rw [hp] at hm; cases hm
    · cases hs
  | getBuffer =>
    dsimp only at hs
    split at hs
    · rename_i hp; rw [hp] at hm; cases hm
    · cases hs
  | getTraceContext =>
    dsimp only at hs
    split at hs
    · rename_i hp; rw [hp] at hm; cases hm
    · cases hs
  | ret =>
    dsimp only at hs
    split at hs
    · rename_i hp; rw [hp] at hm; cases hm
    · cases hs
  | throw =>
    dsimp only at hs
    split at hs
    · rename_i hp; rw [hp] at hm; cases hm
    · cases hs

/-- The buffer found full that `logEvent` carries to `maybe_stop`. -/
def carry : Pc ε → Option (Option Nat)
  | .failed f | .failUnlock f _ | .tryMutex f _ => some f
  | _ => none

theorem logStep_carry {n : Nat} {sp : Bool} {tid : Nat → Nat} {f : Option Nat} (hs : s.logStep tid n sp = .to s')
    (hf : carry (s'.pc n) = some f) :
    carry (s.pc n) = some f ∨ (s'.pc n).failedNone = true ∧ f = none ∨ ∃ p, f = some p ∧ s'.pc n = .failed (some p) := by
  have mv : ∀ {q : Pc ε} {x : St ε}, carry ((x.goto n q).pc n) = some f → carry q = none → False := by
    intro q x h hq; rw [goto_pc, hq] at h; cases h
  have fl : ∀ {q : Pc ε} {x : St ε} {g : Option Nat}, carry ((x.goto n q).pc n) = some f → q = .failed g →
      ((x.goto n q).pc n).failedNone = true ∧ f = none ∨ ∃ p, f = some p ∧ (x.goto n q).pc n = .failed (some p) := by
    intro q x g h hq
    rw [goto_pc, hq] at h
    cases h
    rw [goto_pc, hq]
    cases f with
    | none => exact Or.inl ⟨rfl, rfl⟩
    | some p => exact Or.inr ⟨p, rfl, rfl⟩
  unfold St.logStep at hs
  split at hs
  case h_1 => cases hs; exact (mv hf (by split <;> rfl)).elim
  case h_2 h =>
    split at hs <;> cases hs
    · exact (mv hf rfl).elim
    · exact (mv hf rfl).elim
    · rw [h] at hf; cases hf
  case h_3 => cases hs; exact (mv hf (by split <;> rfl)).elim
  case h_4 =>
    split at hs
    · cases hs; exact (mv hf rfl).elim
    · split at hs
      · split at hs
        · cases hs; exact (mv hf (by split <;> rfl)).elim
        · cases hs
      · cases hs
  case h_5 =>
    split at hs <;> cases hs
    · exact (mv hf (by split <;> rfl)).elim
    · exact (mv hf rfl).elim
  case h_6 =>
    split at hs
    · cases hs
    · cases hs; exact (mv hf rfl).elim
  case h_7 =>
    split at hs
    · cases hs
    · split at hs
      · cases hs; exact (mv hf rfl).elim
      · cases hs
  case h_8 =>
    cases hs
    split at hf
    · exact (mv hf rfl).elim
    · rename_i he; rw [if_neg he]; exact Or.inr (fl hf rfl)
  case h_9 =>
    cases hs
    split at hf
    · exact (mv hf rfl).elim
    · rename_i he; rw [if_neg he]; exact Or.inr (fl hf rfl)
  case h_10 =>
    split at hs
    · cases hs
    · cases hs; exact (mv hf rfl).elim
  case h_11 =>
    split at hs
    · split at hs
      · split at hs
        · cases hs; exact (mv hf rfl).elim
        · cases hs; exact (mv hf rfl).elim
      · split at hs
        · cases hs; exact (mv hf rfl).elim
        · cases hs; exact Or.inr (fl hf rfl)
    · cases hs
  case h_12 h =>
    split at hs
    · split at hs
      · cases hs; exact (mv hf rfl).elim
      · cases hs; rw [h] at hf; cases hf
    · cases hs
  case h_13 h => cases hs; rw [goto_pc] at hf; exact Or.inl (by rw [h]; exact hf)
  case h_14 h => cases hs; rw [goto_pc] at hf; exact Or.inl (by rw [h]; exact hf)
  case h_15 =>
    split at hs
    · cases hs; exact (mv hf rfl).elim
    · cases hs; exact (mv hf rfl).elim
  case h_16 h =>
    split at hs
    · cases hs; exact (mv hf rfl).elim
    · split at hs
      · cases hs; exact (mv hf rfl).elim
      · cases hs; exact (mv hf rfl).elim
  case h_17 =>
    split at hs
    · cases hs
    · split at hs
      · split at hs
        · cases hs; exact (mv hf rfl).elim
        · cases hs
      · cases hs
  case h_18 => cases hs; exact (mv hf rfl).elim
  case h_19 => cases hs

/-- Buffer `p` is the log's and has no chunk left to give. -/
def Spent (s : St ε) (p : Nat) : Prop :=
  s.buffer = some p ∧ (s.heap p).mode ≠ .ring ∧ (s.heap p).chunks.length ≤ (s.heap p).counter

theorem Spent.step (hc : Ctl s) {p n : Nat} {tid : Nat → Nat} (h : Spent s p) (hb : s'.buffer = s.buffer)
    (hs : s.next true tid n c = .to s') : Spent s' p := by
  have hop := next_bufop hs p (by have := hc.last p h.1; omega)
  have h1 := hop.shape
  have h2 := hop.counter
  refine ⟨by rw [hb]; exact h.1, by rw [h1.2.2]; exact h.2.1, ?_⟩
  rw [h1.2.1]; exact Nat.le_trans h.2.2 h2

/-- While a thread logs with the lock held, its other position stays in user code; and if it
found a buffer full, that is still the log's. -/
structure J (s : St ε) : Prop where
  user : ∀ t, s.owner = some (holder t) → s.pc (own t) ≠ .idle → ∃ st, s.pc (holder t) = .held .user st
  spent : ∀ t f, s.owner = some (holder t) → carry (s.pc (own t)) = some f → ∃ p, f = some p ∧ Spent s p

theorem J.init : J (St.init : St ε) :=
  ⟨fun t h => (by cases h), fun t f h => (by cases h)⟩

theorem Reachable.j (h : Reachable tid s) : J s := by
  induction h with
  | init => exact .init
  | @step s s' t c hr hs ih =>
    have hl := hr.log
    have hc := hl.ctl
    rcases next_cases hs with rfl | ⟨h, hp⟩ | ⟨h, hp⟩
    · exact ih
    · -- a step of `own t`
      have hc' : Ctl s' := (TLog.Reachable.step hl h).ctl
      have pre : ∀ u, s'.owner = some (holder u) → s.owner = some (holder u) := by
        intro u hu
        cases ho : s.owner with
        | none =>
          have h1 := (hc'.own (holder u)).1 hu
          rw [next_pc h own_ne_holder.symm] at h1
          have := (hc.own (holder u)).2 h1
          rw [ho] at this; cases this
        | some o =>
          by_cases hn : own t = o
          · have h1 := (hc'.own (holder u)).1 hu
            rw [next_pc h own_ne_holder.symm] at h1
            have := (hc.own (holder u)).2 h1
            rw [ho] at this; exact this
          · rw [(foreign hc ho hn h).1, ho] at hu; exact hu
      have jUser : ∀ u, s'.owner = some (holder u) → s'.pc (own u) ≠ .idle →
          ∃ st, s'.pc (holder u) = .held .user st := by
        intro u hu hi
        have ho := pre u hu
        rw [next_pc h own_ne_holder.symm]
        by_cases htu : u = t
        · subst htu
          rcases hp with hp | hp | ⟨b, rfl⟩ | hp
          · have := (hc.own _).1 ho; rw [hp] at this; cases this
          · exact hp
          · refine ih.user u ho ?_
            simp only [St.next] at h
            split at h
            · cases h; exact hi
            · cases h
          · exact ih.user u ho hp
        · rw [next_pc h (fun e => htu (own_inj e))] at hi
          exact ih.user u ho hi
      refine ⟨jUser, ?_⟩
      intro u f hu hf
      have ho := pre u hu
      have hfor := foreign hc ho own_ne_holder h
      by_cases htu : u = t
      · subst htu
        have old : carry (s.pc (own u)) = some f → ∃ p, f = some p ∧ Spent s' p := by
          intro h0
          obtain ⟨p, h1, h2⟩ := ih.spent u f ho h0
          exact ⟨p, h1, h2.step hc hfor.2.1 h⟩
        have key : ∀ sp, (match s.logStep (slot tid) (own u) sp with
            | .blocked => s.heldStep (slot tid) (own u) sp
            | o => o) = .to s' → ∃ p, f = some p ∧ Spent s' p := by
          intro sp hs
          split at hs
          · exfalso
            have hm : (s.pc (own u)).holdsMutex = false := by
              cases hq : (s.pc (own u)).holdsMutex with
              | false => rfl
              | true => have := (hc.own _).2 hq; rw [ho] at this; exact absurd (Option.some.inj this).symm own_ne_holder
            unfold St.heldStep at hs
            split at hs <;> first | (rename_i hp; rw [hp] at hm; cases hm; done) | cases hs
          · rcases logStep_carry hs hf with h0 | ⟨h0, _⟩ | ⟨p, rfl, h0⟩
            · exact old h0
            · exfalso
              have he : s'.enabled = false := hc'.failedNone _ h0
              obtain ⟨st, hst⟩ := jUser u hu (by intro hi; rw [hi] at h0; cases h0)
              have hcm : (s'.pc (own u)).committed = true := by
                generalize hq : s'.pc (own u) = q at *
                cases q <;> first | rfl | cases h0
              rcases hc'.comm (own u) (Or.inr hcm) with h1 | h1
              · rw [he] at h1; cases h1
              · simp only [St.pend, hu, hst, Pc.pending] at h1; cases h1
            · refine ⟨p, rfl, ?_⟩
              obtain ⟨e, h1, h2, h3⟩ := C46_found_full hs h0
              exact Spent.step hc ⟨hc.ptr (own u) p (by rw [h1]; rfl), h2, h3⟩ hfor.2.1 h
        unfold St.next at h
        cases c with
        | step => exact key false h
        | spurious => exact key true h
        | log e =>
          dsimp only at h
          split at h
          · cases h; rw [goto_pc] at hf; cases hf
          · cases h
        | lock => dsimp only at h; rw [if_neg (by simp [ho])] at h; cases h
        | register n => dsimp only at h; rw [if_neg (by simp [ho])] at h; cases h
        | deregister => dsimp only at h; rw [if_neg (by simp [ho])] at h; cases h
        | free b =>
          dsimp only at h
          split at h
          · cases h; exact ih.spent u f ho hf
          · cases h
        | _ =>
          dsimp only at h
          split at h
          · rename_i hq
            have := (hc.own (own u)).2 (by rw [hq]; rfl)
            rw [ho] at this; exact absurd (Option.some.inj this).symm own_ne_holder
          · cases h
      · rw [next_pc h (fun e => htu (own_inj e))] at hf
        obtain ⟨p, h1, h2⟩ := ih.spent u f ho hf
        exact ⟨p, h1, h2.step hc hfor.2.1 h⟩
    · -- a step of `holder t`, with `own t` idle
      have hc' : Ctl s' := (TLog.Reachable.step hl h).ctl
      have hown : ∀ u, s'.pc (own u) = s.pc (own u) := fun u => next_pc h own_ne_holder
      have pre : ∀ u, u ≠ t → s'.owner = some (holder u) → s.owner = some (holder u) := by
        intro u hut hu
        have h1 := (hc'.own (holder u)).1 hu
        rw [next_pc h (fun e => hut (holder_inj e))] at h1
        exact (hc.own (holder u)).2 h1
      refine ⟨?_, ?_⟩
      · intro u hu hi
        rw [hown] at hi
        have hut : u ≠ t := fun e => hi (e ▸ hp)
        rw [next_pc h (fun e => hut (holder_inj e))]
        exact ih.user u (pre u hut hu) hi
      · intro u f hu hf
        rw [hown] at hf
        have hut : u ≠ t := fun e => by subst e; rw [hp] at hf; cases hf
        have ho := pre u hut hu
        obtain ⟨p, h1, h2⟩ := ih.spent u f ho hf
        exact ⟨p, h1, h2.step hc (foreign hc ho (fun e => hut (holder_inj e).symm) h).2.1 h⟩

/-- A step is undefined only where the mutex is tried by its owner. -/
theorem ub_tries (h : Reachable tid s) (hs : next tid s t c = .ub) : tries s t = true := by
  have safe : ∀ n c, s.next true (slot tid) n c ≠ .ub := fun n c => C45_safe_partial h.log c
  unfold next at hs
  split at hs
  · split at hs
    · split at hs
      · exact absurd hs (safe _ _)
      · exact absurd hs (safe _ _)
      · cases hs
    · split at hs <;> cases hs
    · cases hs
  · split at hs
    · exact absurd hs (safe _ _)
    · cases hs
  · split at hs
    · exact absurd hs (safe _ _)
    · cases hs
  · split at hs
    · exact absurd hs (safe _ _)
    · cases hs
  · exact absurd hs (safe _ _)
  · split at hs
    · exact absurd hs (safe _ _)
    · split at hs
      · assumption
      · exact absurd hs (safe _ _)
  · split at hs
    · exact absurd hs (safe _ _)
    · split at hs
      · assumption
      · exact absurd hs (safe _ _)
  · split at hs
    · exact absurd hs (safe _ _)
    · exact absurd hs (safe _ _)

theorem tries_iff : tries s t = true ↔ s.owner = some (holder t) ∧ ∃ f g, s.pc (own t) = .tryMutex f g := by
  unfold tries
  split
  · rename_i f g h
    simp only [decide_eq_true_eq, h]
    exact ⟨fun h => ⟨h, f, g, rfl⟩, fun h => h.1⟩
  · rename_i h
    simp only [Bool.false_eq_true, false_iff]
    rintro ⟨_, f, g, h'⟩
    exact h f g h'

/-! ### A thread that goes on alone -/

/-- Going on alone, thread `t` comes to undefined behaviour. -/
def Crash (tid : Nat → Nat) (t : Nat) (s : St ε) : Prop :=
  ∃ n, run tid s (List.replicate n (t, .step)) = .ub

theorem Crash.step {x : St ε} (h : next tid s t .step = .to x) (h' : Crash tid t x) : Crash tid t s := by
  obtain ⟨n, h1⟩ := h'
  refine ⟨n + 1, ?_⟩
  rw [List.replicate_succ]
  simp only [run, h]
  exact h1

theorem Crash.here (h : next tid s t .step = .ub) : Crash tid t s :=
  ⟨1, by simp [run, h]⟩

theorem step_own {p : Pc ε} {x : St ε} (hp : s.pc (own t) = p) (h1 : p ≠ .idle) (h2 : ∀ f g, p ≠ .tryMutex f g)
    (h : s.logStep (slot tid) (own t) false = .to x) : next tid s t .step = .to x := by
  have hi : ¬ s.isIdle (own t) = true := fun h => h1 (by rw [← hp]; exact isIdle_iff.1 h)
  have ht : ¬ tries s t = true := by
    rw [tries_iff]; rintro ⟨_, f, g, h⟩; exact h2 f g (by rw [← hp]; exact h)
  simp only [next]
  rw [if_neg hi, if_neg ht]
  exact step_of_log h

/-- The lock held by `t`, the log traces into the spent buffer `b`. -/
structure Stuck (x : St ε) (t b : Nat) : Prop where
  en : x.enabled = true
  owner : x.owner = some (holder t)
  buf : x.buffer = some b
  init : (x.tenant (own t)).initialised = true
  mapped : x.mapped b = true
  mode : (x.heap b).mode ≠ .ring
  full : (x.heap b).chunks.length ≤ (x.heap b).counter

variable {x : St ε} {b : Nat}

theorem Stuck.goto (h : Stuck x t b) (q : Pc ε) : Stuck (x.goto (own t) q) t b :=
  ⟨h.1, h.2, h.3, h.4, h.5, h.6, h.7⟩

theorem Stuck.setLock (h : Stuck x t b) (l : ChunkLock.State) : Stuck (x.setLock (own t) l) t b :=
  ⟨h.1, h.2, h.3, by simpa [St.setLock] using h.4, h.5, h.6, h.7⟩

theorem Stuck.setChunk (h : Stuck x t b) (c : Option (Nat × Nat)) : Stuck (x.setChunk (own t) c) t b :=
  ⟨h.1, h.2, h.3, by simpa [St.setChunk] using h.4, h.5, h.6, h.7⟩

theorem Stuck.setBuf (h : Stuck x t b) {y : Buffer ε} (hy : TLog.BufOp tid (x.heap b) y) :
    Stuck (x.setBuf b y) t b := by
  have h1 := hy.shape
  have h2 := hy.counter
  have h3 := h.full
  refine ⟨h.1, h.2, h.3, h.4, h.5, ?_, ?_⟩
  · simp only [St.setBuf, setf_self]; rw [h1.2.2]; exact h.mode
  · simp only [St.setBuf, setf_self]; rw [h1.2.1]; omega

theorem Stuck.getCheck {e : ε} (h : Stuck x t b) (hp : x.pc (own t) = .getCheck e) : Crash tid t x := by
  refine .step (step_own (x := x.goto (own t) (.getNull e)) hp (by simp) (by simp) (by simp [St.logStep, hp, h.en])) ?_
  replace h := h.goto (.getNull e)
  generalize hx : x.goto (own t) (.getNull e) = x1 at *
  have hp1 : x1.pc (own t) = .getNull e := by rw [← hx, goto_pc]
  refine .step (step_own (x := x1.goto (own t) (.getLoad e)) hp1 (by simp) (by simp)
    (by simp [St.logStep, hp1, h.buf])) ?_
  replace h := h.goto (.getLoad e)
  generalize hx : x1.goto (own t) (.getLoad e) = x2 at *
  have hp2 : x2.pc (own t) = .getLoad e := by rw [← hx, goto_pc]
  refine .step (step_own (x := x2.goto (own t) (.getDo e b)) hp2 (by simp) (by simp)
    (by simp [St.logStep, hp2, h.buf])) ?_
  replace h := h.goto (.getDo e b)
  generalize hx : x2.goto (own t) (.getDo e b) = x3 at *
  have hp3 : x3.pc (own t) = .getDo e b := by rw [← hx, goto_pc]
  have hfull := h.full
  have hg : (x3.heap b).getChunkFixed (slot tid (own t)) =
      ({ x3.heap b with counter := (x3.heap b).counter + 1 }, .null) := by
    simp [Buffer.getChunkFixed, Buffer.size, hfull]
  refine .step (step_own
    (x := (x3.setBuf b ((x3.heap b).getChunkFixed (slot tid (own t))).1).goto (own t) (.failed (some b)))
    hp3 (by simp) (by simp) ?_) ?_
  · simp only [St.logStep, hp3]
    rw [if_pos h.mapped]
    split
    · rename_i hm; exact absurd hm h.mode
    · rw [hg]
  replace h := (h.setBuf (.fixed (tid := slot tid) (x3.heap b) (slot tid (own t)))).goto (.failed (some b))
  generalize hx : (x3.setBuf b ((x3.heap b).getChunkFixed (slot tid (own t))).1).goto (own t) (.failed (some b)) = x4 at *
  have hp4 : x4.pc (own t) = .failed (some b) := by rw [← hx, goto_pc]
  refine .step (step_own (x := x4.goto (own t) (.failUnlock (some b) x4.generation)) hp4 (by simp) (by simp)
    (by simp [St.logStep, hp4])) ?_
  refine .step (step_own (p := .failUnlock (some b) x4.generation)
    (x := ((x4.goto (own t) (.failUnlock (some b) x4.generation)).setLock (own t) .unlocked).goto (own t)
      (.tryMutex (some b) x4.generation)) (goto_pc _ _ _) (by simp) (by simp) (by simp only [St.logStep, goto_pc])) ?_
  replace h := ((h.goto (.failUnlock (some b) x4.generation)).setLock .unlocked).goto (.tryMutex (some b) x4.generation)
  have hp5 := goto_pc ((x4.goto (own t) (.failUnlock (some b) x4.generation)).setLock (own t) .unlocked) (own t)
    (.tryMutex (some b) x4.generation)
  generalize ((x4.goto (own t) (.failUnlock (some b) x4.generation)).setLock (own t) .unlocked).goto (own t)
      (.tryMutex (some b) x4.generation) = x5 at *
  refine .here ?_
  have hi : ¬ x5.isIdle (own t) = true := fun h => by rw [isIdle_iff.1 h] at hp5; cases hp5
  simp only [next]
  rw [if_neg hi, if_pos (tries_iff.2 ⟨h.owner, _, _, hp5⟩)]

theorem Stuck.recheck {e : ε} (h : Stuck x t b) (hp : x.pc (own t) = .recheck e)
    (hc : ∀ b' i, (x.tenant (own t)).chunk = some (b', i) → b' = b) : Crash tid t x := by
  cases hch : (x.tenant (own t)).chunk with
  | none =>
    refine .step (step_own (x := x.goto (own t) (.getCheck e)) hp (by simp) (by simp)
      (by simp [St.logStep, hp, h.en, hch])) ?_
    exact (h.goto _).getCheck (goto_pc _ _ _)
  | some p =>
    obtain ⟨b', i⟩ := p
    have := hc b' i hch
    subst this
    refine .step (step_own (x := x.goto (own t) (.retLoad e)) hp (by simp) (by simp)
      (by simp [St.logStep, hp, h.en, hch])) ?_
    replace h := h.goto (.retLoad e)
    have hch : ((x.goto (own t) (.retLoad e)).tenant (own t)).chunk = some (b', i) := hch
    generalize hx : x.goto (own t) (.retLoad e) = x1 at *
    have hp1 : x1.pc (own t) = .retLoad e := by rw [← hx, goto_pc]
    refine .step (step_own (x := x1.goto (own t) (.retDo e b')) hp1 (by simp) (by simp)
      (by simp [St.logStep, hp1, h.buf])) ?_
    replace h := h.goto (.retDo e b')
    have hch : ((x1.goto (own t) (.retDo e b')).tenant (own t)).chunk = some (b', i) := hch
    generalize hx : x1.goto (own t) (.retDo e b') = x2 at *
    have hp2 : x2.pc (own t) = .retDo e b' := by rw [← hx, goto_pc]
    refine .step (step_own
      (x := ((x2.setBuf b' ((x2.heap b').returnChunk i)).setChunk (own t) none).goto (own t) (.getCheck e))
      hp2 (by simp) (by simp) (by simp [St.logStep, hp2, hch, h.mapped])) ?_
    exact (((h.setBuf (.ret (tid := slot tid) _ i)).setChunk none).goto _).getCheck (goto_pc _ _ _)

end Phosphor.LogLocked
