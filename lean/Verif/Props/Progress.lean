import Verif.Proof.TraceLogProgress
import Mathlib.Tactic.ByContra
import Mathlib.Tactic.Choose
/-
Progress of logging threads and of stops: C74, and C47 for fair schedules.
-/
namespace Phosphor.TLog
variable {ε : Type} {tid : Nat → Nat} {s s' : St ε} {t : Nat} {pol : Bool}

/-! ### C74 Logging is wait free

In ring mode these theorems count an operation on the return queue as one step, as Model/TraceLog does. In the code
it is several, and `returnChunk` can be held up: C98_refuted_wait_free. So the theorems that include ring mode are
partial; C74_fixed is not. -/

/-- The choice is to go on. -/
def Choice.isStep : Choice ε → Bool
  | .step => true
  | _ => false

/-- The number of steps of its own thread `t` makes in `l`. Rounds lost to a spuriously failing
compare-exchange are not counted. -/
def ownSteps (t : Nat) (l : List (Nat × Choice ε)) : Nat := l.countP (fun x => x.1 == t && x.2.isStep)

theorem logStep_target {sp : Bool} (hs : s.logStep tid t sp = .to s') :
    0 < (s'.pc t).left ∨ s'.pc t = .idle ∨ ∃ rest, s'.pc t = .held (.evict rest false) [] := by
  unfold St.logStep at hs
  split at hs
  case h_2 hp =>
    split at hs <;> cases hs
    · rw [goto_pc]; simp [Pc.left]
    · rw [goto_pc]; simp [Pc.left]
    · rw [hp]; simp [Pc.left]
  case h_12 hp =>
    split at hs
    · split at hs <;> cases hs
      · rw [goto_pc]; simp [Pc.left]
      · rw [hp]; simp [Pc.left]
    · cases hs
  case h_16 hp =>
    split at hs
    · cases hs; rw [goto_pc]; simp [Pc.left]
    · split at hs <;> cases hs
      · exact Or.inr (Or.inr ⟨_, goto_pc _ _ _⟩)
      · rw [goto_pc]; simp [Pc.left]
  all_goals first
    | (cases hs; done)
    | (cases hs; rw [goto_pc]; first
        | (split <;> simp [Pc.left])
        | simp [Pc.left])
    | (split at hs <;> first
        | (cases hs; done)
        | (cases hs; rw [goto_pc]; first
            | (split <;> simp [Pc.left])
            | simp [Pc.left])
        | (split at hs <;> first
            | (cases hs; done)
            | (cases hs; rw [goto_pc]; simp [Pc.left])
            | (split at hs <;> first
                | (cases hs; done)
                | (cases hs; rw [goto_pc]; first
                    | (split <;> simp [Pc.left])
                    | simp [Pc.left]))))

theorem next_choice {c : Choice ε} (hni : s.isIdle t = false) (hnh : ∀ st, s.pc t ≠ .held .user st)
    (hs : s.next pol tid t c = .to s') :
    c = .step ∨ c = .spurious ∨ ∃ b, c = .free b ∧ s' = { s with status := setf s.status b .freed } := by
  cases c with
  | step => exact Or.inl rfl
  | spurious => exact Or.inr (Or.inl rfl)
  | free b =>
    simp only [St.next] at hs
    split at hs <;> cases hs
    exact Or.inr (Or.inr ⟨b, rfl, rfl⟩)
  | log e => simp [St.next, hni] at hs
  | lock => simp [St.next, hni] at hs
  | register n => simp [St.next, hni] at hs
  | deregister => simp [St.next, hni] at hs
  | _ =>
    exfalso
    simp only [St.next] at hs
    cases hs

theorem next_target {c : Choice ε} (hh : 0 < (s.pc t).left)
    (hs : s.next true tid t c = .to s') :
    0 < (s'.pc t).left ∨ s'.pc t = .idle ∨ ∃ rest, s'.pc t = .held (.evict rest false) [] := by
  have held : ∀ other, s.heldStep tid t other = .to s' → s'.pc t = .idle := by
    intro other hs
    have nheld : ∀ w st, s.pc t ≠ .held w st := by intro w st hp; rw [hp] at hh; cases hh
    unfold St.heldStep at hs
    split at hs
    case h_1 hp => rw [hp] at hh; cases hh
    case h_2 hp => rw [hp] at hh; cases hh
    case h_3 hp => cases hs; rw [goto_pc]
    case h_10 => cases hs
    all_goals (rename_i hp; exact absurd hp (nheld _ _))
  by_cases h0 : 0 < (s'.pc t).left
  · exact Or.inl h0
  have key : (c = .step ∨ c = .spurious) ∨ (s'.pc t) = s.pc t := by
    have nidle : s.isIdle t = false := by
      unfold St.isIdle; split
      · rename_i hp; rw [hp] at hh; cases hh
      · rfl
    rcases next_choice nidle (fun st hp => by rw [hp] at hh; cases hh) hs with h1 | h1 | ⟨b, _, h1⟩
    · exact Or.inl (Or.inl h1)
    · exact Or.inl (Or.inr h1)
    · right; rw [h1]
  rcases key with (rfl | rfl) | e
  · simp only [St.next] at hs
    split at hs
    · exact Or.inr (Or.inl (held _ hs))
    · exact logStep_target hs
  · simp only [St.next] at hs
    split at hs
    · exact Or.inr (Or.inl (held _ hs))
    · exact logStep_target hs
  · rw [e] at h0; exact absurd hh h0

/-- C74: a call of `logEvent` ends after at most seventeen steps of its own, whatever other threads
do in between, in fixed mode and in ring mode with a chunk for each registered thread: it has
returned, or it stops the run because the buffer is full. Partial: in ring mode an operation on the return queue
counts as one step. -/
theorem C74_wait_free_partial (h : Reachable true tid s) {l : List (Nat × Choice ε)} (hr : s.run true tid l = .to s')
    (hin : 0 < (s.pc t).left)
    (room : ∀ l1 s1, l1 <+: l → s.run true tid l1 = .to s1 → ∀ b, s1.buffer = some b → (s1.heap b).mode = .ring →
      s1.registered.length ≤ (s1.heap b).size)
    (hn : (s.pc t).left ≤ ownSteps t l) :
    ∃ l1 s1, l1 <+: l ∧ s.run true tid l1 = .to s1 ∧
      (s1.pc t = .idle ∨ ∃ rest, s1.pc t = .held (.evict rest false) []) := by
  induction l generalizing s with
  | nil => simp [ownSteps] at hn; omega
  | cons x l ih =>
    obtain ⟨u, c⟩ := x
    simp only [St.run] at hr
    split at hr <;> try cases hr
    rename_i y hy
    have hry : Reachable true tid y := .step h hy
    have lift : (∃ l1 s1, l1 <+: l ∧ y.run true tid l1 = .to s1 ∧
        (s1.pc t = .idle ∨ ∃ rest, s1.pc t = .held (.evict rest false) [])) →
        ∃ l1 s1, l1 <+: (u, c) :: l ∧ s.run true tid l1 = .to s1 ∧
          (s1.pc t = .idle ∨ ∃ rest, s1.pc t = .held (.evict rest false) []) := by
      rintro ⟨l1, s1, h1, h2, h3⟩
      exact ⟨(u, c) :: l1, s1, List.cons_prefix_cons.2 ⟨rfl, h1⟩, by simp only [St.run, hy]; exact h2, h3⟩
    have roomy : ∀ l1 s1, l1 <+: l → y.run true tid l1 = .to s1 → ∀ b, s1.buffer = some b →
        (s1.heap b).mode = .ring → s1.registered.length ≤ (s1.heap b).size := by
      intro l1 s1 h1 h2
      exact room ((u, c) :: l1) s1 (List.cons_prefix_cons.2 ⟨rfl, h1⟩) (by simp only [St.run, hy]; exact h2)
    by_cases hu : u = t
    · subst hu
      rcases next_target hin hy with h1 | h1
      · refine lift (ih hry hr h1 roomy ?_)
        obtain ⟨h2, h3⟩ := h.left_next hin hy
        cases hc : c.isStep with
        | false =>
          have : ownSteps u ((u, c) :: l) = ownSteps u l := by simp [ownSteps, hc]
          omega
        | true =>
          have hc' : c = .step := by cases c <;> simp_all [Choice.isStep]
          have : ownSteps u ((u, c) :: l) = ownSteps u l + 1 := by simp [ownSteps, hc]
          rcases h3 hc' with h3 | ⟨e, p, hp, _, hq⟩
          · omega
          · exact absurd hq (h.wait_some (room [] s (List.nil_prefix) rfl) hp)
      · exact ⟨[(u, c)], y, List.cons_prefix_cons.2 ⟨rfl, List.nil_prefix⟩, by simp [St.run, hy], h1⟩
    · have hp : y.pc t = s.pc t := next_pc hy (Ne.symm hu)
      refine lift (ih hry hr (by rw [hp]; exact hin) roomy ?_)
      have : ownSteps t ((u, c) :: l) = ownSteps t l := by simp [ownSteps, hu]
      rw [hp]; omega

/-- C74 from the start of the call: seventeen steps of its own are enough. Partial as above. -/
theorem C74_seventeen_partial (h : Reachable true tid s) {l : List (Nat × Choice ε)} (hr : s.run true tid l = .to s') {e : ε}
    (hin : s.pc t = .readEnabled e)
    (room : ∀ l1 s1, l1 <+: l → s.run true tid l1 = .to s1 → ∀ b, s1.buffer = some b → (s1.heap b).mode = .ring →
      s1.registered.length ≤ (s1.heap b).size)
    (hn : 17 ≤ ownSteps t l) :
    ∃ l1 s1, l1 <+: l ∧ s.run true tid l1 = .to s1 ∧
      (s1.pc t = .idle ∨ ∃ rest, s1.pc t = .held (.evict rest false) []) :=
  C74_wait_free_partial h hr (by rw [hin]; simp [Pc.left]) room (by rw [hin]; exact hn)

/-- C74 as long as the buffers are fixed ones: seventeen steps of its own are enough. -/
theorem C74_fixed (h : Reachable true tid s) {l : List (Nat × Choice ε)} (hr : s.run true tid l = .to s') {e : ε}
    (hin : s.pc t = .readEnabled e)
    (fixed : ∀ l1 s1, l1 <+: l → s.run true tid l1 = .to s1 → ∀ b, s1.buffer = some b → (s1.heap b).mode = .fixed)
    (hn : 17 ≤ ownSteps t l) :
    ∃ l1 s1, l1 <+: l ∧ s.run true tid l1 = .to s1 ∧
      (s1.pc t = .idle ∨ ∃ rest, s1.pc t = .held (.evict rest false) []) :=
  C74_seventeen_partial h hr hin (fun l1 s1 h1 h2 b hb hm => by rw [fixed l1 s1 h1 h2 b hb] at hm; cases hm) hn

/-- C74: and it can always make its next step: no thread in `logEvent` ever has to wait to be let go
on, or runs into undefined behaviour. -/
theorem C74_never_blocked (h : Reachable true tid s) (hin : 0 < (s.pc t).left) :
    ∃ s', s.next true tid t .step = .to s' := h.inv.left_step hin

theorem run_concat {l1 l2 : List (Nat × Choice ε)} {s1 : St ε} (h : s.run pol tid l1 = .to s1) :
    s.run pol tid (l1 ++ l2) = s1.run pol tid l2 := by
  induction l1 generalizing s with
  | nil => cases h; rfl
  | cons x l1 ih =>
    simp only [List.cons_append, St.run] at h ⊢
    split at h
    · exact ih h
    · cases h
    · cases h

/-- Thread 1 is about to log, in a ring of two chunks. -/
def logging : List (Nat × Choice Nat) :=
  registers 1 [] ++ starts { ring1 with size := 8100 } ++ [(1, .log 7)]

/-- It does, while thread 0 stops tracing; then it tries to log again and again. -/
def interleaved : List (Nat × Choice Nat) :=
  steps 1 5 ++ [(0, .lock), (0, .stop false)] ++ steps 1 4 ++ (List.replicate 8 [(1, .log 8), (1, .step)]).flatten

def Roomy.test (s : St Nat) : Bool :=
  match s.buffer with
  | none => true
  | some b => !decide ((s.heap b).mode = .ring) || decide (s.registered.length ≤ (s.heap b).size)

example : ∃ s s' : St Nat, Reachable true id s ∧ s.pc 1 = .readEnabled 7 ∧ s.run true id interleaved = .to s' ∧
    (s.pc 1).left ≤ ownSteps 1 interleaved ∧
    (∀ l1 s1, l1 <+: interleaved → s.run true id l1 = .to s1 → ∀ b, s1.buffer = some b → (s1.heap b).mode = .ring →
      s1.registered.length ≤ (s1.heap b).size) ∧ (s'.heap 0).mode = .ring ∧ s'.buffer = some 0 := by
  have h1 : ∃ s : St Nat, (St.init : St Nat).run true id logging = .to s ∧ s.pc 1 = .readEnabled 7 := by
    have : check true id logging (fun s => decide (s.pc 1 = .readEnabled 7)) = true := by decide +kernel
    unfold check at this
    split at this
    · rename_i s hs; exact ⟨s, hs, of_decide_eq_true this⟩
    · cases this
  obtain ⟨s, hs, hp⟩ := h1
  have h2 : ∃ s' : St Nat, s.run true id interleaved = .to s' ∧ (s'.heap 0).mode = .ring ∧ s'.buffer = some 0 := by
    have : check true id (logging ++ interleaved)
        (fun s => decide ((s.heap 0).mode = .ring ∧ s.buffer = some 0)) = true := by decide +kernel
    unfold check at this
    rw [run_concat hs] at this
    split at this
    · rename_i s' hs'; exact ⟨s', hs', of_decide_eq_true this⟩
    · cases this
  obtain ⟨s', hs', hm⟩ := h2
  refine ⟨s, s', run_reachable .init hs, hp, hs', by rw [hp]; decide, ?_, hm⟩
  have h3 : (List.range (interleaved.length + 1)).all (fun n => check true id (logging ++ interleaved.take n) Roomy.test) = true := by decide +kernel
  intro l1 s1 hl hr b hb hring
  have h4 := List.all_eq_true.1 h3 l1.length (List.mem_range.2 (by have := hl.length_le; omega))
  rw [← List.prefix_iff_eq_take.1 hl] at h4
  unfold check at h4
  rw [run_concat hs, hr] at h4
  simp only [Roomy.test, hb, hring] at h4
  simpa using h4

/-- C74_fixed: the same in a fixed buffer of two chunks. -/
def loggingFixed : List (Nat × Choice Nat) :=
  registers 1 [] ++ starts { ring1 with size := 8100, mode := .fixed } ++ [(1, .log 7)]

def Fixed.test (s : St Nat) : Bool :=
  match s.buffer with
  | none => true
  | some b => decide ((s.heap b).mode = .fixed)

example : ∃ s s' : St Nat, Reachable true id s ∧ s.pc 1 = .readEnabled 7 ∧ s.run true id interleaved = .to s' ∧
    17 ≤ ownSteps 1 interleaved ∧
    (∀ l1 s1, l1 <+: interleaved → s.run true id l1 = .to s1 → ∀ b, s1.buffer = some b → (s1.heap b).mode = .fixed) ∧
    s'.buffer = some 0 := by
  have h1 : ∃ s : St Nat, (St.init : St Nat).run true id loggingFixed = .to s ∧ s.pc 1 = .readEnabled 7 := by
    have : check true id loggingFixed (fun s => decide (s.pc 1 = .readEnabled 7)) = true := by decide +kernel
    unfold check at this
    split at this
    · rename_i s hs; exact ⟨s, hs, of_decide_eq_true this⟩
    · cases this
  obtain ⟨s, hs, hp⟩ := h1
  have h2 : ∃ s' : St Nat, s.run true id interleaved = .to s' ∧ s'.buffer = some 0 := by
    have : check true id (loggingFixed ++ interleaved) (fun s => decide (s.buffer = some 0)) = true := by decide +kernel
    unfold check at this
    rw [run_concat hs] at this
    split at this
    · rename_i s' hs'; exact ⟨s', hs', of_decide_eq_true this⟩
    · cases this
  obtain ⟨s', hs', hm⟩ := h2
  refine ⟨s, s', run_reachable .init hs, hp, hs', by decide, ?_, hm⟩
  have h3 : (List.range (interleaved.length + 1)).all (fun n => check true id (loggingFixed ++ interleaved.take n) Fixed.test) = true := by decide +kernel
  intro l1 s1 hl hr b hb
  have h4 := List.all_eq_true.1 h3 l1.length (List.mem_range.2 (by have := hl.length_le; omega))
  rw [← List.prefix_iff_eq_take.1 hl] at h4
  unfold check at h4
  rw [run_concat hs, hr] at h4
  simpa only [Fixed.test, hb, decide_eq_true_eq] using h4

/-! ### C47 for fair schedules -/

/-- An endless execution; `none`: nothing happens for a while. -/
structure Execution (tid : Nat → Nat) (σ : Nat → St ε) (act : Nat → Option (Nat × Choice ε)) : Prop where
  start : Reachable true tid (σ 0)
  step : ∀ n u c, act n = some (u, c) → (σ n).next true tid u c = .to (σ (n + 1))
  rest : ∀ n, act n = none → σ (n + 1) = σ n

/-- The scheduler is fair: a thread that can go on at all times from some time on does go on. -/
def Fair (tid : Nat → Nat) (σ : Nat → St ε) (act : Nat → Option (Nat × Choice ε)) : Prop :=
  ∀ u n, (∀ m, n ≤ m → ∃ s', (σ m).next true tid u .step = .to s') → ∃ m, n ≤ m ∧ act m = some (u, .step)

theorem Execution.reach {σ : Nat → St ε} {act : Nat → Option (Nat × Choice ε)} (x : Execution tid σ act) (n : Nat) :
    Reachable true tid (σ n) := by
  induction n with
  | zero => exact x.start
  | succ n ih =>
    cases ha : act n with
    | none => rw [x.rest n ha]; exact ih
    | some a => exact .step ih (x.step n a.1 a.2 ha)

/-- Steps still to be made before the stop is over, apart from waiting. -/
def Pc.evictLeft : Pc ε → Nat
  | .held (.evict rest _) _ => 3 * rest.length + 1
  | .held (.evictClear _ rest _) _ => 3 * rest.length + 3
  | .held (.evictUnlock _ rest _) _ => 3 * rest.length + 2
  | _ => 0

/-- A step of the thread that is stopping the run. -/
theorem evict_next (hc : Ctl s) {c : Choice ε} (he : (s.pc t).evicting = true) (hs : s.next true tid t c = .to s') :
    Finishes s.hist s' ∨ ((s'.pc t).evicting = true ∧ s'.hist = s.hist ∧ s'.enabled = false ∧
      s'.buffer = s.buffer ∧ s'.registered = s.registered ∧ s'.heap = s.heap ∧
      (s'.pc t).evictLeft ≤ (s.pc t).evictLeft ∧ (∀ u ∈ (s'.pc t).pending, u ∈ (s.pc t).pending) ∧
      (c = .step → (s'.pc t).evictLeft < (s.pc t).evictLeft ∨
        ∃ u ∈ (s.pc t).pending, (s.pc u).holdsSlave = true)) := by
  have hoff := hc.off t (Pc.evicting_spec _ he).2
  have held : ∀ other, s.heldStep tid t other = .to s' → Finishes s.hist s' ∨ ((s'.pc t).evicting = true ∧
      s'.hist = s.hist ∧ s'.enabled = false ∧ s'.buffer = s.buffer ∧ s'.registered = s.registered ∧ s'.heap = s.heap ∧
      (s'.pc t).evictLeft ≤ (s.pc t).evictLeft ∧ (∀ u ∈ (s'.pc t).pending, u ∈ (s.pc t).pending) ∧
      (other = false → (s'.pc t).evictLeft < (s.pc t).evictLeft ∨
        ∃ u ∈ (s.pc t).pending, (s.pc u).holdsSlave = true)) := by
    intro other hs
    unfold St.heldStep at hs
    split at hs
    case h_4 hp =>
      left
      split at hs <;> cases hs
      · exact ⟨_, rfl, Or.inr ⟨_, rfl⟩⟩
      · refine ⟨.noCall, ?_, Or.inl rfl⟩
        unfold St.pop; split <;> rfl
    case h_5 u rest sh st hp =>
      right
      split at hs
      · cases hs
        rename_i ho
        refine ⟨by rw [goto_pc]; rfl, rfl, hoff, rfl, rfl, rfl, ?_, ?_, fun h => by rw [ho] at h; cases h⟩
        · rw [goto_pc, hp]; simp [Pc.evictLeft]
        · rw [goto_pc, hp]; intro v hv
          simp [Pc.pending] at hv ⊢
          exact hv.symm
      · split at hs
        · cases hs
          refine ⟨by rw [goto_pc]; rfl, rfl, hoff, rfl, rfl, rfl, ?_, ?_, fun _ => Or.inl ?_⟩
          · rw [goto_pc, hp]; simp [Pc.evictLeft]; omega
          · rw [goto_pc, hp]; intro v hv; exact hv
          · rw [goto_pc, hp]; simp [Pc.evictLeft]; omega
        · rename_i hl
          cases hs
          refine ⟨he, rfl, hoff, rfl, rfl, rfl, Nat.le_refl _, fun v hv => hv, fun _ => Or.inr ⟨u, ?_, ?_⟩⟩
          · rw [hp]; simp [Pc.pending]
          · cases hl' : (s.tenant u).lock with
            | unlocked => rw [hl'] at hl; simp [ChunkLock.lockRound, ChunkLock.casWeak] at hl
            | slaveLocked => exact (hc.slave u).1 hl'
            | masterLocked =>
              exfalso
              have ho := (hc.own t).2 (by rw [hp]; rfl)
              have hm := (hc.master u).1 hl'
              simp [St.mastered, ho, hp, Pc.mastering] at hm
    case h_6 u rest sh st hp =>
      right
      cases hs
      refine ⟨by rw [goto_pc]; rfl, rfl, hoff, rfl, rfl, rfl, ?_, ?_, fun _ => Or.inl ?_⟩
      · rw [goto_pc, hp]; simp [Pc.evictLeft]
      · rw [goto_pc, hp]; intro v hv; exact List.mem_cons_of_mem _ hv
      · rw [goto_pc, hp]; simp [Pc.evictLeft]
    case h_7 u rest sh st hp =>
      right
      cases hs
      refine ⟨by rw [goto_pc]; rfl, rfl, hoff, rfl, rfl, rfl, ?_, ?_, fun _ => Or.inl ?_⟩
      · rw [goto_pc, hp]; simp [Pc.evictLeft]
      · rw [goto_pc, hp]; intro v hv; exact hv
      · rw [goto_pc, hp]; simp [Pc.evictLeft]
    case h_10 => cases hs
    all_goals (rename_i hp; rw [hp] at he; cases he)
  have nolog : ∀ other, s.logStep tid t other = .blocked := by
    intro other
    unfold Pc.evicting at he
    split at he
    · rename_i hp; simp only [St.logStep, hp]
    · rename_i hp; simp only [St.logStep, hp]
    · rename_i hp; simp only [St.logStep, hp]
    · cases he
  have nidle : s.isIdle t = false := by
    unfold St.isIdle; split
    · rename_i hp; rw [hp] at he; cases he
    · rfl
  rcases next_choice nidle (fun st hp => by rw [hp] at he; cases he) hs with rfl | rfl | ⟨b, rfl, rfl⟩
  · simp only [St.next, nolog] at hs; simpa using held _ hs
  · simp only [St.next, nolog] at hs
    rcases held _ hs with h1 | ⟨h1, h2, h3, h4, h5, h6, h7, h8, _⟩
    · exact Or.inl h1
    · exact Or.inr ⟨h1, h2, h3, h4, h5, h6, h7, h8, fun h => by cases h⟩
  · exact Or.inr ⟨he, rfl, hoff, rfl, rfl, rfl, Nat.le_refl _, fun _ h => h, fun h => by cases h⟩

/-- How far a thread is from being clear of its chunk lock when tracing is off. -/
def Pc.inside (p : Pc ε) : Nat :=
  match p with
  | .readEnabled _ => 0
  | p => p.left

theorem Pc.inside_le (p : Pc ε) : p.inside ≤ p.left := by cases p <;> simp [inside, left]

theorem Pc.holds_inside {p : Pc ε} (h : p.holdsSlave = true) : 0 < p.inside := by
  cases p <;> simp_all [inside, left, holdsSlave]

/-- A step of another thread while `t` is stopping the run. -/
theorem other_next (hc : Ctl s) {c : Choice ε} {u : Nat} (hu : u ≠ t) (he : (s.pc t).evicting = true)
    (hs : s.next true tid u c = .to s') :
    s'.pc t = s.pc t ∧ s'.hist = s.hist ∧ s'.buffer = s.buffer ∧ s'.registered = s.registered ∧
      (s'.pc u).inside ≤ (s.pc u).inside := by
  have hoff := hc.off t (Pc.evicting_spec _ he).2
  have hm := (Pc.evicting_spec _ he).1
  have hown := (hc.own t).2 hm
  have hum : (s.pc u).holdsMutex = false := by
    cases hx : (s.pc u).holdsMutex with
    | false => rfl
    | true => exact absurd (hc.same_holder hx hm) hu
  refine ⟨next_pc hs (Ne.symm hu), ?_⟩
  have nheld : ∀ w st, s.pc u ≠ .held w st := by intro w st hp; rw [hp] at hum; cases hum
  have nblock : ∀ other, s.heldStep tid u other ≠ .to s' := by
    intro other hs
    unfold St.heldStep at hs
    split at hs
    case h_1 hp => rw [hp] at hum; cases hum
    case h_2 hp => rw [hp] at hum; cases hum
    case h_3 hp => rw [hp] at hum; cases hum
    case h_10 => cases hs
    all_goals (rename_i hp; exact absurd hp (nheld _ _))
  have log : ∀ sp, s.logStep tid u sp = .to s' → s'.hist = s.hist ∧ s'.buffer = s.buffer ∧
      s'.registered = s.registered ∧ (s'.pc u).inside ≤ (s.pc u).inside := by
    intro sp hs
    have h1 : s'.hist = s.hist ∧ s'.buffer = s.buffer ∧ s'.registered = s.registered := by
      cases hh : (s.pc u).holdsSlave with
      | true => exact ⟨(logStep_progress hh hs).hist, (logStep_progress hh hs).buffer, (logStep_progress hh hs).registered⟩
      | false =>
        unfold St.logStep at hs
        split at hs
        case h_1 hp => cases hs; split <;> exact ⟨rfl, rfl, rfl⟩
        case h_2 hp => split at hs <;> cases hs <;> exact ⟨rfl, rfl, rfl⟩
        case h_15 hp => split at hs <;> cases hs <;> exact ⟨rfl, rfl, rfl⟩
        case h_16 hp => rw [hp] at hum; cases hum
        case h_19 => cases hs
        all_goals (rename_i hp; rw [hp] at hh; cases hh)
    refine ⟨h1.1, h1.2.1, h1.2.2, ?_⟩
    by_cases hre : ∃ e, s.pc u = .readEnabled e
    · obtain ⟨e, hp⟩ := hre
      simp only [St.logStep, hp, hoff] at hs
      cases hs; rw [goto_pc]; simp [Pc.inside, Pc.left]
    · have heq : (s.pc u).inside = (s.pc u).left := by
        cases hp : s.pc u <;> simp_all [Pc.inside]
      rw [heq]
      refine Nat.le_trans (Pc.inside_le _) ?_
      rcases logStep_left hs with h2 | ⟨_, _, rfl, _⟩ | ⟨_, _, _, rfl, _⟩
      · exact Nat.le_of_lt h2
      · exact Nat.le_refl _
      · exact Nat.le_refl _
  cases c with
  | step =>
    simp only [St.next] at hs
    split at hs
    · exact absurd hs (nblock _)
    · exact log _ hs
  | spurious =>
    simp only [St.next] at hs
    split at hs
    · exact absurd hs (nblock _)
    · exact log _ hs
  | free b =>
    simp only [St.next] at hs
    split at hs <;> cases hs
    exact ⟨rfl, rfl, rfl, Nat.le_refl _⟩
  | log e =>
    simp only [St.next] at hs
    split at hs
    · cases hs; refine ⟨rfl, rfl, rfl, ?_⟩; rw [goto_pc]; exact Nat.zero_le _
    · cases hs
  | lock => simp [St.next, hown] at hs
  | register n => simp [St.next, hown] at hs
  | deregister => simp [St.next, hown] at hs
  | _ =>
    exfalso
    simp only [St.next] at hs
    split at hs
    · rename_i hp; exact absurd hp (nheld _ _)
    · cases hs

/-- A sequence of numbers that never grows and again and again gets smaller while it is positive
reaches zero for good. -/
theorem descends {f : Nat → Nat} {n0 : Nat} (hle : ∀ m, n0 ≤ m → f (m + 1) ≤ f m)
    (hlt : ∀ n, n0 ≤ n → (∀ m, n ≤ m → 0 < f m) → ∃ m, n ≤ m ∧ f (m + 1) < f m) :
    ∃ n, n0 ≤ n ∧ ∀ m, n ≤ m → f m = 0 := by
  have mono : ∀ a b, n0 ≤ a → a ≤ b → f b ≤ f a := by
    intro a b ha hab
    induction hab with
    | refl => exact Nat.le_refl _
    | @step b hab ih => exact Nat.le_trans (hle b (Nat.le_trans ha hab)) ih
  have main : ∀ k n, n0 ≤ n → f n ≤ k → ∃ n', n0 ≤ n' ∧ ∀ m, n' ≤ m → f m = 0 := by
    intro k
    induction k with
    | zero => intro n hn hk; exact ⟨n, hn, fun m hm => by have := mono n m hn hm; omega⟩
    | succ k ih =>
      intro n hn hk
      by_cases hz : ∃ m, n ≤ m ∧ f m = 0
      · obtain ⟨m, hm, h0⟩ := hz
        exact ih m (by omega) (by omega)
      · obtain ⟨m, hm, hlt'⟩ := hlt n hn (fun m hm => by
          by_contra h0; exact hz ⟨m, hm, by omega⟩)
        exact ih (m + 1) (by omega) (by have := mono n m hn hm; omega)
  exact main _ n0 (Nat.le_refl _) (Nat.le_refl _)

/-- C47 for every fair schedule, as far as it holds: a stop that empties the tenants gets to its end,
in fixed mode or with a ring of at least one chunk for each registered thread, whatever threads go
on to do. Missing: smaller rings, see `C47_refuted`. -/
theorem C47_fair_partial {σ : Nat → St ε} {act : Nat → Option (Nat × Choice ε)} (x : Execution tid σ act)
    (fair : Fair tid σ act) {n : Nat} (he : ((σ n).pc t).evicting = true)
    (room : ∀ b, (σ n).buffer = some b → ((σ n).heap b).mode = .ring → (σ n).registered.length ≤ ((σ n).heap b).size) :
    ∃ m, n < m ∧ ∃ i, (σ m).hist = i :: (σ n).hist ∧ (i = .noCall ∨ ∃ cb, i = .call cb) := by
  by_contra hno
  -- the stop goes on for ever
  have inv : ∀ m, n ≤ m → ((σ m).pc t).evicting = true ∧ (σ m).hist = (σ n).hist ∧ (σ m).buffer = (σ n).buffer ∧
      (σ m).registered = (σ n).registered := by
    intro m hm
    induction hm with
    | refl => exact ⟨he, rfl, rfl, rfl⟩
    | @step m hm ih =>
      have hm : n ≤ m := hm
      obtain ⟨i1, i2, i3, i4⟩ := ih
      cases ha : act m with
      | none => rw [x.rest m ha]; exact ⟨i1, i2, i3, i4⟩
      | some a =>
        obtain ⟨u, c⟩ := a
        have hs := x.step m u c ha
        by_cases hu : u = t
        · subst hu
          rcases evict_next (x.reach m).ctl i1 hs with ⟨i, h1, h2⟩ | ⟨h1, h2, _, h4, h5, _⟩
          · exact absurd ⟨m + 1, by omega, i, by rw [h1, i2], h2⟩ hno
          · exact ⟨h1, by rw [h2, i2], by rw [h4, i3], by rw [h5, i4]⟩
        · obtain ⟨h1, h2, h3, h4, _⟩ := other_next (x.reach m).ctl hu i1 hs
          exact ⟨by rw [h1]; exact i1, by rw [h2, i2], by rw [h3, i3], by rw [h4, i4]⟩
  have roomy : ∀ m, n ≤ m → Roomy (σ m) := by
    intro m hm
    induction hm with
    | refl => exact room
    | @step m hm ih =>
      have hm : n ≤ m := hm
      cases ha : act m with
      | none => rw [x.rest m ha]; exact ih
      | some a =>
        have hs := x.step m a.1 a.2 ha
        intro b hb hring
        have hb' : (σ m).buffer = some b := by rw [(inv m hm).2.2.1, ← (inv (m + 1) (by omega)).2.2.1]; exact hb
        have hl := (x.reach m).ctl.last b hb'
        have sh := (next_bufop hs b (by omega)).shape
        have hr : (σ (m + 1)).registered = (σ m).registered := by
          rw [(inv m hm).2.2.2, (inv (m + 1) (by omega)).2.2.2]
        rw [hr, show ((σ (m + 1)).heap b).size = ((σ m).heap b).size from sh.2.1]
        exact ih b hb' (by rw [← sh.2.2]; exact hring)
  -- each thread gets clear of its chunk lock
  have clear : ∀ u, u ≠ t → ∃ k, n ≤ k ∧ ∀ m, k ≤ m → ((σ m).pc u).inside = 0 := by
    intro u hu
    have hle : ∀ m, n ≤ m → ((σ (m + 1)).pc u).inside ≤ ((σ m).pc u).inside := by
      intro m hm
      cases ha : act m with
      | none => rw [x.rest m ha]; exact Nat.le_refl _
      | some a =>
        obtain ⟨v, c⟩ := a
        have hs := x.step m v c ha
        by_cases hv : v = u
        · subst hv; exact (other_next (x.reach m).ctl hu (inv m hm).1 hs).2.2.2.2
        · rw [next_pc hs (Ne.symm hv)]; exact Nat.le_refl _
    refine descends hle ?_
    intro k hk hpos
    have hleft : ∀ m, k ≤ m → 0 < ((σ m).pc u).left := fun m hm =>
      Nat.lt_of_lt_of_le (hpos m hm) (Pc.inside_le _)
    obtain ⟨m, hm, ha⟩ := fair u k (fun m hm => (x.reach m).inv.left_step (hleft m hm))
    refine ⟨m, hm, ?_⟩
    have hs := x.step m u .step ha
    have hre : ∀ e, (σ m).pc u ≠ .readEnabled e := by
      intro e hp; have := hpos m hm; rw [hp] at this; cases this
    have heq : ((σ m).pc u).inside = ((σ m).pc u).left := by
      cases hp : (σ m).pc u <;> simp_all [Pc.inside]
    rcases ((x.reach m).left_next (hleft m hm) hs).2 rfl with h1 | ⟨e, p, hp, _, hq⟩
    · rw [heq]; exact Nat.lt_of_le_of_lt (Pc.inside_le _) h1
    · exact absurd hq ((x.reach m).wait_some (roomy m (by omega)) hp)
  -- all pending threads do
  have clears : ∀ l : List Nat, ∃ k, n ≤ k ∧ ∀ u ∈ l, ∀ m, k ≤ m → ((σ m).pc u).holdsSlave = false := by
    intro l
    induction l with
    | nil => exact ⟨n, Nat.le_refl _, fun u hu => by cases hu⟩
    | cons v l ih =>
      obtain ⟨k, hk, h1⟩ := ih
      have hv : ∃ k', n ≤ k' ∧ ∀ m, k' ≤ m → ((σ m).pc v).holdsSlave = false := by
        by_cases hvt : v = t
        · refine ⟨n, Nat.le_refl _, fun m hm => ?_⟩
          have := (inv m hm).1
          rw [hvt]
          revert this
          cases (σ m).pc t <;> simp [Pc.evicting, Pc.holdsSlave]
        · obtain ⟨k', hk', h2⟩ := clear v hvt
          refine ⟨k', hk', fun m hm => ?_⟩
          cases hx : ((σ m).pc v).holdsSlave with
          | false => rfl
          | true => have := Pc.holds_inside hx; rw [h2 m hm] at this; cases this
      obtain ⟨k', hk', h2⟩ := hv
      refine ⟨max k k', by omega, ?_⟩
      intro u hu m hm
      rcases List.mem_cons.1 hu with rfl | hu
      · exact h2 m (by omega)
      · exact h1 u hu m (by omega)
  have pend : ∀ m, n ≤ m → ∀ u ∈ ((σ m).pc t).pending, u ∈ ((σ n).pc t).pending := by
    intro m hm
    induction hm with
    | refl => exact fun u hu => hu
    | @step m hm ih =>
      have hm : n ≤ m := hm
      cases ha : act m with
      | none => rw [x.rest m ha]; exact ih
      | some a =>
        obtain ⟨v, c⟩ := a
        have hs := x.step m v c ha
        by_cases hv : v = t
        · subst hv
          rcases evict_next (x.reach m).ctl (inv m hm).1 hs with ⟨i, h1, h2⟩ | ⟨_, _, _, _, _, _, _, h8, _⟩
          · exact absurd ⟨m + 1, by omega, i, by rw [h1, (inv m hm).2.1], h2⟩ hno
          · exact fun u hu => ih u (h8 u hu)
        · rw [next_pc hs (Ne.symm hv)]; exact ih
  obtain ⟨k, hk, hclear⟩ := clears ((σ n).pc t).pending
  -- so the stop runs out of steps
  obtain ⟨k', hk', hz⟩ := descends (f := fun m => ((σ m).pc t).evictLeft) (n0 := k) (by
    intro m hm
    show ((σ (m + 1)).pc t).evictLeft ≤ _
    cases ha : act m with
    | none => rw [x.rest m ha]; exact Nat.le_refl _
    | some a =>
      obtain ⟨v, c⟩ := a
      have hs := x.step m v c ha
      by_cases hv : v = t
      · subst hv
        rcases evict_next (x.reach m).ctl (inv m (by omega)).1 hs with ⟨i, h1, h2⟩ | ⟨_, _, _, _, _, _, h7, _, _⟩
        · exact absurd ⟨m + 1, by omega, i, by rw [h1, (inv m (by omega)).2.1], h2⟩ hno
        · exact h7
      · rw [next_pc hs (Ne.symm hv)]; exact Nat.le_refl _) (by
    intro j hj _
    have can : ∀ m, j ≤ m → ∃ s', (σ m).next true tid t .step = .to s' := by
      intro m hm
      have he := (inv m (by omega)).1
      cases hp : (σ m).pc t with
      | held w st =>
        rw [hp] at he
        cases w with
        | evict rest sh =>
          cases rest with
          | nil => simp only [St.next, St.logStep, St.heldStep, hp]; split <;> exact ⟨_, rfl⟩
          | cons u rest =>
            simp only [St.next, St.logStep, St.heldStep, hp, Bool.false_eq_true, if_false]
            split <;> exact ⟨_, rfl⟩
        | evictClear u rest sh => simp only [St.next, St.logStep, St.heldStep, hp]; exact ⟨_, rfl⟩
        | evictUnlock u rest sh => simp only [St.next, St.logStep, St.heldStep, hp]; exact ⟨_, rfl⟩
        | _ => cases he
      | _ => rw [hp] at he; cases he
    obtain ⟨m, hm, ha⟩ := fair t j can
    refine ⟨m, hm, ?_⟩
    have hs := x.step m t .step ha
    rcases evict_next (x.reach m).ctl (inv m (by omega)).1 hs with ⟨i, h1, h2⟩ | ⟨_, _, _, _, _, _, _, _, h9⟩
    · exact absurd ⟨m + 1, by omega, i, by rw [h1, (inv m (by omega)).2.1], h2⟩ hno
    · rcases h9 rfl with h9 | ⟨u, hu, hh⟩
      · exact h9
      · rw [hclear u (pend m (by omega) u hu) m (by omega)] at hh; cases hh)
  have h0 := hz k' (Nat.le_refl _)
  have he' := (inv k' (by omega)).1
  revert h0 he'
  show ((σ k').pc t).evictLeft = 0 → ((σ k').pc t).evicting = true → False
  unfold Pc.evicting
  split <;> rename_i hp <;> simp [hp, Pc.evictLeft]

/-- An execution that ends with nobody able to go on is fair. -/
theorem exists_fair {l : List (Nat × Choice ε)} (hr : (St.init : St ε).run true tid l = .to s')
    (hq : ∀ u y, s'.next true tid u .step ≠ .to y) :
    ∃ σ act, Execution tid σ act ∧ Fair tid σ act ∧
      ∀ l1 s1, l1 <+: l → (St.init : St ε).run true tid l1 = .to s1 → σ l1.length = s1 := by
  have pre : ∀ n, ∃ s1, (St.init : St ε).run true tid (l.take n) = .to s1 := by
    intro n
    cases h : (St.init : St ε).run true tid (l.take n) with
    | to s1 => exact ⟨s1, rfl⟩
    | ub =>
      exfalso
      have key : ∀ (l1 l2 : List (Nat × Choice ε)) (s : St ε), s.run true tid l1 = .ub → s.run true tid (l1 ++ l2) = .ub := by
        intro l1 l2
        induction l1 with
        | nil => intro s h; cases h
        | cons x l1 ih =>
          intro s h
          simp only [List.cons_append, St.run] at h ⊢
          split at h <;> simp_all
      have := key _ (l.drop n) _ h
      rw [List.take_append_drop, hr] at this; cases this
    | blocked =>
      exfalso
      have key : ∀ (l1 l2 : List (Nat × Choice ε)) (s : St ε), s.run true tid l1 = .blocked →
          s.run true tid (l1 ++ l2) = .blocked := by
        intro l1 l2
        induction l1 with
        | nil => intro s h; cases h
        | cons x l1 ih =>
          intro s h
          simp only [List.cons_append, St.run] at h ⊢
          split at h <;> simp_all
      have := key _ (l.drop n) _ h
      rw [List.take_append_drop, hr] at this; cases this
  choose σ hσ using pre
  refine ⟨σ, fun n => l[n]?, ⟨?_, ?_, ?_⟩, ?_, ?_⟩
  · have := hσ 0
    rw [List.take_zero] at this
    simp only [St.run] at this
    injection this with e
    rw [← e]; exact .init
  · intro n u c ha
    have ha : l[n]? = some (u, c) := ha
    have h1 := hσ (n + 1)
    rw [List.take_add_one, ha, run_concat (hσ n)] at h1
    simp only [Option.toList_some, St.run] at h1
    split at h1
    · rename_i y hy; cases h1; exact hy
    · cases h1
    · cases h1
  · intro n ha
    have hn : l.length ≤ n := List.getElem?_eq_none_iff.1 ha
    have h1 := hσ (n + 1)
    have h2 := hσ n
    rw [List.take_of_length_le (by omega)] at h1
    rw [List.take_of_length_le hn, h1] at h2
    injection h2
  · intro u n h
    exfalso
    obtain ⟨y, hy⟩ := h (max n l.length) (by omega)
    have h1 := hσ (max n l.length)
    rw [List.take_of_length_le (by omega), hr] at h1
    cases h1
    exact hq u y hy
  · intro l1 s1 hl h1
    have h2 := hσ l1.length
    rw [← List.prefix_iff_eq_take.1 hl, h1] at h2
    cases h2; rfl

/-- The stop of `halting` in a fair execution, with a thread still taking its chunk and storing. -/
example : ∃ (σ : Nat → St Nat) (act : Nat → Option (Nat × Choice Nat)) (n : Nat), Execution id σ act ∧ Fair id σ act ∧
    ((σ n).pc 0).evicting = true ∧ ((σ n).pc 1).holdsSlave = true ∧ (σ n).buffer = some 0 ∧
    ((σ n).heap 0).mode = .ring ∧ (σ n).registered.length ≤ ((σ n).heap 0).size := by
  let full := halting ++ (steps 1 3 ++ steps 0 7 ++ [(0, .ret)] ++ steps 0 1)
  have h1 : ∃ s : St Nat, (St.init : St Nat).run true id full = .to s ∧ ∀ u < 3, s.pc u = .idle := by
    have : check true id full (fun s => (List.range 3).all (fun u => decide (s.pc u = .idle))) = true := by decide +kernel
    unfold check at this
    split at this
    · rename_i s hs
      exact ⟨s, hs, fun u hu => of_decide_eq_true (List.all_eq_true.1 this u (List.mem_range.2 hu))⟩
    · cases this
  obtain ⟨s, hs, hi⟩ := h1
  have idle : ∀ u, s.pc u = .idle := by
    intro u
    by_cases hu : u < 3
    · exact hi u hu
    · have hl : full.all (fun x => decide (x.1 < 3)) = true := by decide +kernel
      refine run_pc (s := St.init) ?_ hs
      intro x hx
      have := of_decide_eq_true (List.all_eq_true.1 hl x hx)
      omega
  obtain ⟨σ, act, hx, hf, hσ⟩ := exists_fair hs (by
    intro u y h
    simp [St.next, St.logStep, St.heldStep, idle u] at h)
  have h2 : ∃ s1 : St Nat, (St.init : St Nat).run true id halting = .to s1 ∧ (s1.pc 0).evicting = true ∧
      (s1.pc 1).holdsSlave = true ∧ s1.buffer = some 0 ∧ (s1.heap 0).mode = .ring ∧
      s1.registered.length ≤ (s1.heap 0).size := by
    have : check true id halting (fun s1 => decide ((s1.pc 0).evicting = true ∧
      (s1.pc 1).holdsSlave = true ∧ s1.buffer = some 0 ∧ (s1.heap 0).mode = .ring ∧
      s1.registered.length ≤ (s1.heap 0).size)) = true := by decide +kernel
    unfold check at this
    split at this
    · rename_i s hs; exact ⟨s, hs, of_decide_eq_true this⟩
    · cases this
  obtain ⟨s1, hs1, h3⟩ := h2
  refine ⟨σ, act, halting.length, hx, hf, ?_⟩
  rw [hσ halting s1 (List.prefix_append _ _) hs1]
  exact h3

end Phosphor.TLog
