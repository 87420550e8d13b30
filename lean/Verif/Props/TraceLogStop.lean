import Verif.Proof.TraceLogLoan
import Verif.Proof.TraceLogSolo
import Verif.Props.TraceLog
/-
Property C47: a stop completes.
-/
namespace Phosphor.TLog
variable {ε : Type} {tid : Nat → Nat} {s s' : St ε} {t : Nat} {pol : Bool}

/-- How far a thread is from releasing its chunk lock. -/
def Pc.rank : Pc ε → Nat
  | .checkInit _ => 12
  | .checkChunk _ => 11
  | .recheck _ => 10
  | .retLoad _ => 9
  | .retDo _ _ => 8
  | .getCheck _ => 7
  | .getNull _ => 6
  | .getLoad _ => 5
  | .getDo _ _ => 4
  | .getWait _ _ => 3
  | .store _ => 2
  | .failed _ => 2
  | _ => 1

/-- A step of a thread that holds its chunk lock: what it leaves alone, and progress. -/
structure Progress (s : St ε) (u : Nat) (s' : St ε) : Prop where
  registered : s'.registered = s.registered
  buffer : s'.buffer = s.buffer
  hist : s'.hist = s.hist
  enabled : s'.enabled = s.enabled
  less : (s'.pc u).holdsSlave = false ∨ (s'.pc u).rank < (s.pc u).rank ∨
    ∃ e p, s.pc u = .getWait e p ∧ (s.heap p).queue = []

theorem logStep_progress {sp : Bool} (hh : (s.pc t).holdsSlave = true) (hs : s.logStep tid t sp = .to s') :
    Progress s t s' := by
  have go : ∀ (p : Pc ε) (x : St ε) (q : Pc ε), s.pc t = p → x.registered = s.registered → x.buffer = s.buffer →
      x.hist = s.hist → x.enabled = s.enabled → (q.holdsSlave = false ∨ q.rank < p.rank) →
      Progress s t (x.goto t q) := by
    intro p x q hp h1 h2 h3 h4 h5
    refine ⟨h1, h2, h3, h4, ?_⟩
    rw [goto_pc, hp]
    rcases h5 with h5 | h5
    · exact Or.inl h5
    · exact Or.inr (Or.inl h5)
  unfold St.logStep at hs
  split at hs
  case h_1 hp => rw [hp] at hh; cases hh
  case h_2 hp => rw [hp] at hh; cases hh
  case h_3 hp =>
    cases hs; split
    · exact go _ _ _ hp rfl rfl rfl rfl (Or.inr (by simp [Pc.rank]))
    · exact go _ _ _ hp rfl rfl rfl rfl (Or.inr (by simp [Pc.rank]))
  case h_4 hp =>
    split at hs
    · cases hs; exact go _ _ _ hp rfl rfl rfl rfl (Or.inr (by simp [Pc.rank]))
    · split at hs
      · split at hs
        · cases hs; split
          · exact go _ _ _ hp rfl rfl rfl rfl (Or.inr (by simp [Pc.rank]))
          · exact go _ _ _ hp rfl rfl rfl rfl (Or.inr (by simp [Pc.rank]))
        · cases hs
      · cases hs
  case h_5 hp =>
    split at hs <;> cases hs
    · split
      · exact go _ _ _ hp rfl rfl rfl rfl (Or.inr (by simp [Pc.rank]))
      · exact go _ _ _ hp rfl rfl rfl rfl (Or.inr (by simp [Pc.rank]))
    · exact go _ _ _ hp rfl rfl rfl rfl (Or.inr (by simp [Pc.rank]))
  case h_6 hp =>
    split at hs
    · cases hs
    · cases hs; exact go _ _ _ hp rfl rfl rfl rfl (Or.inr (by simp [Pc.rank]))
  case h_7 hp =>
    split at hs
    · cases hs
    · split at hs
      · cases hs; exact go _ _ _ hp rfl rfl rfl rfl (Or.inr (by simp [Pc.rank]))
      · cases hs
  case h_8 hp =>
    cases hs; split
    · exact go _ _ _ hp rfl rfl rfl rfl (Or.inr (by simp [Pc.rank]))
    · exact go _ _ _ hp rfl rfl rfl rfl (Or.inr (by simp [Pc.rank]))
  case h_9 hp =>
    cases hs; split
    · exact go _ _ _ hp rfl rfl rfl rfl (Or.inr (by simp [Pc.rank]))
    · exact go _ _ _ hp rfl rfl rfl rfl (Or.inr (by simp [Pc.rank]))
  case h_10 hp =>
    split at hs
    · cases hs
    · cases hs; exact go _ _ _ hp rfl rfl rfl rfl (Or.inr (by simp [Pc.rank]))
  case h_11 hp =>
    split at hs
    · split at hs
      · split at hs <;> cases hs
        · exact go _ _ _ hp rfl rfl rfl rfl (Or.inr (by simp [Pc.rank]))
        · exact go _ _ _ hp rfl rfl rfl rfl (Or.inr (by simp [Pc.rank]))
      · split at hs <;> cases hs
        · exact go _ _ _ hp rfl rfl rfl rfl (Or.inr (by simp [Pc.rank]))
        · exact go _ _ _ hp rfl rfl rfl rfl (Or.inr (by simp [Pc.rank]))
    · cases hs
  case h_12 e p hp =>
    split at hs
    · split at hs
      · cases hs; exact go _ _ _ hp rfl rfl rfl rfl (Or.inr (by simp [Pc.rank]))
      · rename_i hx
        cases hs
        refine ⟨rfl, rfl, rfl, rfl, Or.inr (Or.inr ⟨e, p, hp, ?_⟩)⟩
        unfold Buffer.ringTake at hx
        split at hx
        · assumption
        · cases hx
    · cases hs
  case h_13 hp => cases hs; exact go _ _ _ hp rfl rfl rfl rfl (Or.inr (by simp [Pc.rank]))
  case h_14 hp => cases hs; exact go _ _ _ hp rfl rfl rfl rfl (Or.inl rfl)
  case h_15 hp => rw [hp] at hh; cases hh
  case h_16 hp => rw [hp] at hh; cases hh
  case h_17 hp =>
    split at hs
    · cases hs
    · split at hs
      · split at hs
        · cases hs; exact go _ _ _ hp rfl rfl rfl rfl (Or.inr (by simp [Pc.rank]))
        · cases hs
      · cases hs
  case h_18 hp => cases hs; exact go _ _ _ hp rfl rfl rfl rfl (Or.inl rfl)
  case h_19 => cases hs

/-- A thread that holds its chunk lock can always make a step. -/
theorem slave_step (h : Inv tid s) (hh : (s.pc t).holdsSlave = true) :
    ∃ s', s.next true tid t .step = .to s' ∧ s.logStep tid t false = .to s' := by
  have hne := h.logStep_safe (t := t) (sp := false)
  cases ho : s.logStep tid t false with
  | ub => exact absurd ho hne
  | to s' => exact ⟨s', by simp only [St.next, ho], rfl⟩
  | blocked =>
    exfalso
    unfold St.logStep at ho
    split at ho
    case h_19 hp =>
      revert hh
      cases hq : s.pc t <;> simp_all [Pc.holdsSlave]
    all_goals first
      | (cases ho; done)
      | (split at ho <;> first
          | (cases ho; done)
          | (split at ho <;> first
              | (cases ho; done)
              | (split at ho <;> first
                  | (cases ho; done)
                  | (split at ho <;> cases ho))))

/-! ### Room in a ring -/

theorem nodup_length_le {l m : List Nat} (hl : l.Nodup) (h : ∀ v ∈ l, v ∈ m) : l.length ≤ m.length := by
  induction l generalizing m with
  | nil => simp
  | cons a l ih =>
    have ha := h a List.mem_cons_self
    have hn := List.nodup_cons.1 hl
    have := ih (m := m.erase a) hn.2 (fun v hv =>
      (List.mem_erase_of_ne (fun e => hn.1 (by rw [← e]; exact hv))).2 (h v (List.mem_cons_of_mem _ hv)))
    rw [List.length_erase_of_mem ha] at this
    have : 0 < m.length := List.length_pos_of_mem ha
    simp only [List.length_cons]; omega

theorem countP_lt {l m : List Nat} (hl : l.Nodup) {f : Nat → Bool} {u : Nat} (hu : u ∈ m) (hf : f u = false)
    (h : ∀ v ∈ l, f v = true → v ∈ m) : l.countP f + 1 ≤ m.length := by
  rw [List.countP_eq_length_filter]
  have : (u :: l.filter f).length ≤ m.length := by
    refine nodup_length_le (List.nodup_cons.2 ⟨?_, hl.filter f⟩) ?_
    · intro hm; rw [(List.mem_filter.1 hm).2] at hf; cases hf
    · intro v hv
      rcases List.mem_cons.1 hv with rfl | hv
      · exact hu
      · exact h v (List.mem_filter.1 hv).1 (List.mem_filter.1 hv).2
  simpa using this

/-- The buffer in the log, if a ring, has a chunk for each registered thread. -/
def Roomy (s : St ε) : Prop :=
  ∀ b, s.buffer = some b → (s.heap b).mode = .ring → s.registered.length ≤ (s.heap b).size

/-- With a chunk for each registered thread, a thread waiting in `RingTraceBuffer::getChunk` finds one. -/
theorem Reachable.wait_some (h : Reachable true tid s) (room : Roomy s) {u p : Nat} {e : ε}
    (hp : s.pc u = .getWait e p) : (s.heap p).queue ≠ [] := by
  obtain ⟨h1, h2, h3⟩ := h.waits u e p hp
  have hc := h.ctl
  have hb := hc.ptr u p (by rw [hp]; rfl)
  have hr := room p hb h2
  have hcount := h.ringCount h1 h2
  have hnone : (s.tenant u).chunk = none := hc.noChunk u (by rw [hp]; rfl)
  have hhas : s.has p u = false := by simp [St.has, hnone]
  have hreg : u ∈ s.registered := (hc.reg u).2 (hc.pastInit u (by rw [hp]; rfl))
  have hlt : (s.heap p).onLoan < s.registered.length := by
    rcases hc.comm u (Or.inr (by rw [hp]; rfl)) with hen | hpend
    · have h4 := h.loan.on p hb hen
      have h5 : s.owners p + 1 ≤ s.registered.length := countP_lt hc.nodup hreg hhas (fun v hv _ => hv)
      omega
    · unfold St.pend at hpend
      split at hpend
      · cases hpend
      · rename_i o ho
        have hev : (s.pc o).evicting = true := by
          revert hpend; unfold Pc.pending Pc.evicting
          split <;> simp_all
        obtain ⟨_, _, h6⟩ := h.loan.evict p o hb hev
        have hoff := hc.off o (Pc.evicting_spec _ hev).2
        have h5 : s.owners p + 1 ≤ (s.pc o).pending.length := by
          refine countP_lt hc.nodup hpend hhas (fun v _ hv => ?_)
          have hne : (s.tenant v).chunk ≠ none := by
            intro hx; simp [St.has, hx] at hv
          rcases hc.comm v (Or.inl hne) with hx | hx
          · rw [hoff] at hx; cases hx
          · simpa only [St.pend, ho] using hx
        omega
  intro hq
  rw [hq] at hcount
  simp only [List.length_nil] at hcount
  omega

/-! ### Threads give up their chunk lock -/

/-- Threads reach `Q` by steps of their own. -/
def Can (tid : Nat → Nat) (s : St ε) (Q : St ε → Prop) : Prop :=
  ∃ l s', (∀ x ∈ l, x.2 = Choice.step) ∧ s.run true tid l = .to s' ∧ Q s'

theorem Can.here {Q : St ε → Prop} (h : Q s) : Can tid s Q := ⟨[], s, (fun x hx => by cases hx), rfl, h⟩

theorem Can.step {Q : St ε → Prop} (h : s.next true tid t .step = .to s') (h' : Can tid s' Q) : Can tid s Q := by
  obtain ⟨l, x, h1, h2, h3⟩ := h'
  refine ⟨(t, .step) :: l, x, ?_, ?_, h3⟩
  · intro y hy
    rcases List.mem_cons.1 hy with rfl | hy
    · rfl
    · exact h1 y hy
  · simp only [St.run, h]; exact h2

/-- A stop can finish: the next thing recorded is its callback being called or not being due. -/
def Finishes (hist : List Item) (s : St ε) : Prop :=
  ∃ i, s.hist = i :: hist ∧ (i = .noCall ∨ ∃ cb, i = .call cb)

/-- The thread holding its chunk lock gives it up. -/
theorem release {Q : St ε → Prop} {u : Nat} (hut : u ≠ t)
    (done : ∀ x, Reachable true tid x → Roomy x → x.pc t = s.pc t → x.hist = s.hist →
      (x.pc u).holdsSlave = false → Can tid x Q) :
    ∀ (n : Nat) (x : St ε), (x.pc u).rank ≤ n → Reachable true tid x → Roomy x → x.pc t = s.pc t →
      x.hist = s.hist → Can tid x Q := by
  intro n
  induction n with
  | zero =>
    intro x hn
    exfalso; revert hn
    cases x.pc u <;> simp [Pc.rank]
  | succ n ih =>
    intro x hn hr hroom hpc hhist
    cases hh : (x.pc u).holdsSlave with
    | false => exact done x hr hroom hpc hhist hh
    | true =>
      obtain ⟨y, hy, hy'⟩ := slave_step hr.inv hh
      have pr := logStep_progress hh hy'
      have hry : Reachable true tid y := .step hr hy
      have hroomy : Roomy y := by
        intro b hb hm
        rw [pr.buffer] at hb
        have hl := hr.ctl.last b hb
        have sh := (next_bufop hy b (by omega)).shape
        rw [pr.registered, show (y.heap b).size = (x.heap b).size from sh.2.1]
        exact hroom b hb (by rw [← sh.2.2]; exact hm)
      have hpy : y.pc t = s.pc t := by rw [next_pc hy (Ne.symm hut)]; exact hpc
      have hhy : y.hist = s.hist := by rw [pr.hist]; exact hhist
      refine Can.step hy ?_
      rcases pr.less with h1 | h1 | ⟨e, p, h1, h2⟩
      · exact done y hry hroomy hpy hhy h1
      · exact ih y (by omega) hry hroomy hpy hhy
      · exact absurd h2 (hr.wait_some hroom h1)

theorem Roomy.same {x y : St ε} (h : Roomy x) (h1 : y.registered = x.registered) (h2 : y.buffer = x.buffer)
    (h3 : y.heap = x.heap) : Roomy y := by
  unfold Roomy; rw [h1, h2, h3]; exact h

theorem clear_step {u : Nat} {rest : List Nat} {sh : Bool} {st : List Frame}
    (hp : s.pc t = .held (.evictClear u rest sh) st) :
    ∃ y, s.next true tid t .step = .to y ∧ y.pc t = .held (.evictUnlock u rest sh) st ∧ y.hist = s.hist ∧
      (Roomy s → Roomy y) := by
  refine ⟨(s.setChunk u none).goto t (.held (.evictUnlock u rest sh) st), ?_, goto_pc _ _ _, rfl,
    fun h => h.same rfl rfl rfl⟩
  simp only [St.next, St.logStep, St.heldStep, hp]

theorem unlock_step {u : Nat} {rest : List Nat} {sh : Bool} {st : List Frame}
    (hp : s.pc t = .held (.evictUnlock u rest sh) st) :
    ∃ y, s.next true tid t .step = .to y ∧ y.pc t = .held (.evict rest sh) st ∧ y.hist = s.hist ∧
      (Roomy s → Roomy y) := by
  refine ⟨(s.setLock u .unlocked).goto t (.held (.evict rest sh) st), ?_, goto_pc _ _ _, rfl,
    fun h => h.same rfl rfl rfl⟩
  simp only [St.next, St.logStep, St.heldStep, hp]

theorem lock_step {u : Nat} {rest : List Nat} {sh : Bool} {st : List Frame}
    (hp : s.pc t = .held (.evict (u :: rest) sh) st) (hl : (s.tenant u).lock = .unlocked) :
    ∃ y, s.next true tid t .step = .to y ∧ y.pc t = .held (.evictClear u rest sh) st ∧ y.hist = s.hist ∧
      (Roomy s → Roomy y) := by
  refine ⟨(s.setLock u .masterLocked).goto t (.held (.evictClear u rest sh) st), ?_, goto_pc _ _ _, rfl,
    fun h => h.same rfl rfl rfl⟩
  have : ChunkLock.lockRound (s.tenant u).lock .masterLocked false = (.masterLocked, true) := by rw [hl]; rfl
  simp only [St.next, St.logStep, St.heldStep, hp, this, Bool.false_eq_true, if_false]

theorem evicts_all : ∀ (n : Nat) (s : St ε) (rest : List Nat) (sh : Bool) (st : List Frame), rest.length = n →
    Reachable true tid s → Roomy s → s.pc t = .held (.evict rest sh) st → Can tid s (Finishes s.hist) := by
  intro n
  induction n with
  | zero =>
    intro s rest sh st hn hr _ hp
    cases rest with
    | cons => simp at hn
    | nil =>
      cases hcb : callbackDue s.config sh with
      | none =>
        refine Can.step (t := t) (s' := { s with hist := .noCall :: s.hist }.pop t st) ?_ (Can.here ⟨.noCall, ?_, Or.inl rfl⟩)
        · simp only [St.next, St.logStep, St.heldStep, hp, hcb]
        · unfold St.pop; split <;> rfl
      | some cb =>
        refine Can.step (t := t) (s' := { s with hist := .call cb :: s.hist }.goto t (.held .user st)) ?_
          (Can.here ⟨.call cb, rfl, Or.inr ⟨cb, rfl⟩⟩)
        simp only [St.next, St.logStep, St.heldStep, hp, hcb]
  | succ n ih =>
    intro s rest sh st hn hr hroom hp
    cases rest with
    | nil => simp at hn
    | cons u rest =>
      have free : ∀ x : St ε, Reachable true tid x → Roomy x → x.pc t = s.pc t → x.hist = s.hist →
          (x.pc u).holdsSlave = false → Can tid x (Finishes s.hist) := by
        intro x hrx hroomx hpx hhx hfree
        rw [hp] at hpx
        have hc := hrx.ctl
        have hl : (x.tenant u).lock = .unlocked := by
          cases hl : (x.tenant u).lock with
          | unlocked => rfl
          | slaveLocked => rw [(hc.slave u).1 hl] at hfree; cases hfree
          | masterLocked =>
            have ho := (hc.own t).2 (by rw [hpx]; rfl)
            have hm := (hc.master u).1 hl
            simp [St.mastered, ho, hpx, Pc.mastering] at hm
        obtain ⟨y, e1, p1, h1, r1⟩ := lock_step (tid := tid) hpx hl
        obtain ⟨z, e2, p2, h2, r2⟩ := clear_step (tid := tid) p1
        obtain ⟨w, e3, p3, h3, r3⟩ := unlock_step (tid := tid) p2
        have := ih w rest sh st (by simpa using hn) (.step (.step (.step hrx e1) e2) e3) (r3 (r2 (r1 hroomx))) p3
        rw [h3, h2, h1, hhx] at this
        exact .step e1 (.step e2 (.step e3 this))
      by_cases hut : u = t
      · exact free s hr hroom rfl rfl (by rw [hut, hp]; rfl)
      · exact release hut free _ s (Nat.le_refl _) hr hroom rfl rfl

/-- C47, as far as it holds: from every state in which a `stop` (by itself, by a restart, or on a
full buffer) is emptying the tenants, threads can get it to its end, in fixed mode or with a ring
of at least one chunk for each registered thread. Missing: smaller rings, see `C47_refuted`. -/
theorem C47_partial (h : Reachable true tid s) (he : (s.pc t).evicting = true)
    (room : ∀ b, s.buffer = some b → (s.heap b).mode = .ring → s.registered.length ≤ (s.heap b).size) :
    ∃ l s', (∀ x ∈ l, x.2 = Choice.step) ∧ s.run true tid l = .to s' ∧
      ∃ i, s'.hist = i :: s.hist ∧ (i = .noCall ∨ ∃ cb, i = .call cb) := by
  unfold Pc.evicting at he
  split at he
  · rename_i rest sh st hp
    exact evicts_all _ s rest sh st rfl h room hp
  · rename_i u rest sh st hp
    obtain ⟨z, e2, p2, h2, r2⟩ := clear_step (tid := tid) hp
    obtain ⟨w, e3, p3, h3, r3⟩ := unlock_step (tid := tid) p2
    have := evicts_all _ w rest sh st rfl (.step (.step h e2) e3) (r3 (r2 room)) p3
    rw [h3, h2] at this
    exact Can.step e2 (Can.step e3 this)
  · rename_i u rest sh st hp
    obtain ⟨w, e3, p3, h3, r3⟩ := unlock_step (tid := tid) hp
    have := evicts_all _ w rest sh st rfl (.step h e3) (r3 room) p3
    rw [h3] at this
    exact Can.step e3 this
  · cases he

/-- Thread 1 waits on nothing but holds its chunk lock; thread 0 is stopping, two threads to evict,
in a ring of two chunks. -/
def halting : List (Nat × Choice Nat) :=
  registers 1 [] ++ registers 2 [] ++ starts { ring1 with size := 8100 } ++ (2, .log 7) :: steps 2 11 ++
    (1, .log 8) :: steps 1 8 ++ [(0, .lock), (0, .stop false)]

example : ∃ s : St Nat, Reachable true id s ∧ (s.pc 0).evicting = true ∧ (s.pc 1).holdsSlave = true ∧
    s.pc 1 = .getDo 8 0 ∧ (s.pc 0).pending = [2, 1] ∧ (s.heap 0).mode = .ring ∧
    s.registered.length = 2 ∧ (s.heap 0).size = 2 ∧ s.buffer = some 0 := by
  obtain ⟨s, h1, h2⟩ := check_sound (pol := true) (tid := id) (l := halting)
    (p := fun s => decide ((s.pc 0).evicting = true ∧ (s.pc 1).holdsSlave = true ∧
      s.pc 1 = .getDo 8 0 ∧ (s.pc 0).pending = [2, 1] ∧ (s.heap 0).mode = .ring ∧
      s.registered.length = 2 ∧ (s.heap 0).size = 2 ∧ s.buffer = some 0)) (by decide +kernel)
  exact ⟨s, h1, of_decide_eq_true h2⟩

/-! ### Where it does not hold -/

/-- The steps between finding tracing on in `replaceChunk` and leaving `getChunk`. -/
def Pc.trading : Pc ε → Bool
  | .retLoad _ | .retDo _ _ | .getCheck _ | .getNull _ | .getLoad _ | .getDo _ _ | .getWait _ _ => true
  | _ => false

/-- `o` is stopping, `u` waits for a chunk of buffer `p`, and nobody is about to return one. -/
structure Stuck (s : St ε) (o u p : Nat) : Prop where
  off : s.enabled = false
  evicting : (s.pc o).evicting = true
  pending : u ∈ (s.pc o).pending
  waits : ∃ e, s.pc u = .getWait e p
  empty : (s.heap p).queue = []
  others : ∀ v, v ≠ u → (s.pc v).trading = false

theorem evictor_step {o u p : Nat} {other : Bool} (hc : Ctl s) (h : Stuck s o u p)
    (hs : s.heldStep tid o other = .to s') :
    s'.enabled = false ∧ (s'.pc o).evicting = true ∧ u ∈ (s'.pc o).pending ∧ s'.heap = s.heap ∧
      (s'.pc o).trading = false := by
  have hev := h.evicting
  have hpe := h.pending
  have hlock : (s.tenant u).lock = .slaveLocked := by
    obtain ⟨e, he⟩ := h.waits
    exact (hc.slave u).2 (by rw [he]; rfl)
  have ho := (hc.own o).2 (Pc.evicting_spec _ hev).1
  unfold Pc.evicting at hev
  split at hev
  · rename_i rest sh st hp
    rw [hp] at hpe
    unfold St.heldStep at hs
    rw [hp] at hs
    cases rest with
    | nil => cases hpe
    | cons v rest =>
      dsimp only at hs
      split at hs
      · cases hs
        refine ⟨h.off, by rw [goto_pc]; rfl, ?_, rfl, by rw [goto_pc]; rfl⟩
        rw [goto_pc]
        simp only [Pc.pending, List.mem_cons] at hpe
        simp only [Pc.pending, List.mem_append, List.mem_singleton]
        exact hpe.symm
      · split at hs
        · rename_i l hl
          cases hs
          refine ⟨h.off, by rw [goto_pc]; rfl, ?_, rfl, by rw [goto_pc]; rfl⟩
          rw [goto_pc]; exact hpe
        · cases hs
          exact ⟨h.off, h.evicting, h.pending, rfl, by rw [hp]; rfl⟩
  · rename_i v rest sh st hp
    have hne : v ≠ u := by
      intro e
      have := (hc.master v).2 (by simp [St.mastered, ho, hp, Pc.mastering])
      rw [e, hlock] at this; cases this
    unfold St.heldStep at hs
    rw [hp] at hs hpe
    cases hs
    refine ⟨h.off, by rw [goto_pc]; rfl, ?_, rfl, by rw [goto_pc]; rfl⟩
    rw [goto_pc]
    rcases List.mem_cons.1 hpe with e | hm
    · exact absurd e.symm hne
    · exact hm
  · rename_i v rest sh st hp
    unfold St.heldStep at hs
    rw [hp] at hs hpe
    cases hs
    exact ⟨h.off, by rw [goto_pc]; rfl, by rw [goto_pc]; exact hpe, rfl, by rw [goto_pc]; rfl⟩
  · cases hev

theorem logger_step {p : Nat} {sp : Bool} (hoff : s.enabled = false) (hm : (s.pc t).holdsMutex = false)
    (ho : s.owner ≠ none) (hq : (s.pc t).trading = false) (hs : s.logStep tid t sp = .to s') :
    s'.enabled = false ∧ (s'.heap p).queue = (s.heap p).queue ∧ (s'.pc t).trading = false := by
  have go : ∀ (x : St ε) (q : Pc ε), x.enabled = s.enabled → (x.heap p).queue = (s.heap p).queue →
      q.trading = false → (x.goto t q).enabled = false ∧ ((x.goto t q).heap p).queue = (s.heap p).queue ∧
        ((x.goto t q).pc t).trading = false := by
    intro x q h1 h2 h3
    exact ⟨by rw [← hoff, ← h1]; rfl, h2, by rw [goto_pc]; exact h3⟩
  unfold St.logStep at hs
  split at hs
  case h_1 hp => cases hs; exact go _ _ rfl rfl (by rw [hoff]; rfl)
  case h_2 hp =>
    split at hs <;> cases hs
    · exact go _ _ rfl rfl rfl
    · exact go _ _ rfl rfl rfl
    · exact ⟨hoff, rfl, hq⟩
  case h_3 hp => cases hs; exact go _ _ rfl rfl (by split <;> rfl)
  case h_4 hp =>
    split at hs
    · cases hs; exact go _ _ rfl rfl rfl
    · split at hs
      · split at hs
        · cases hs; exact go _ _ rfl rfl (by split <;> rfl)
        · cases hs
      · cases hs
  case h_5 hp =>
    rw [hoff] at hs
    cases hs
    exact go _ _ rfl rfl rfl
  case h_13 hp => cases hs; exact go _ _ rfl rfl rfl
  case h_14 hp => cases hs; exact go _ _ rfl rfl rfl
  case h_15 hp =>
    rw [if_neg (fun h => ho h.1)] at hs
    cases hs; exact go _ _ rfl rfl rfl
  case h_16 hp => rw [hp] at hm; cases hm
  case h_17 hp =>
    split at hs
    · cases hs
    · rename_i b i _
      split at hs
      · split at hs
        · rename_i x hx
          cases hs
          refine go _ _ rfl ?_ rfl
          show (setf s.heap b x p).queue = _
          by_cases hb : p = b
          · subst hb
            rw [setf_self]
            unfold Buffer.pushAt at hx
            dsimp only at hx
            split at hx
            · have h1 := congrArg Prod.fst hx; dsimp only at h1; rw [← h1]
            · have h1 := congrArg Prod.fst hx; dsimp only at h1; rw [← h1]
          · simp only [setf, if_neg hb]
        · cases hs
      · cases hs
  case h_18 hp => cases hs; exact go _ _ rfl rfl rfl
  case h_19 => cases hs
  all_goals (rename_i hp; rw [hp] at hq; cases hq)

/-- A stop in this situation never gets out of it, whatever threads do. -/
theorem Stuck.next {o u p : Nat} {c : Choice ε} (hr : Reachable true tid s) (h : Stuck s o u p)
    (hs : s.next true tid t c = .to s') : Stuck s' o u p := by
  have hc := hr.ctl
  obtain ⟨e, he⟩ := h.waits
  have hou : o ≠ u := by
    intro x; have := h.evicting; rw [x, he] at this; cases this
  have hom := (Pc.evicting_spec _ h.evicting).1
  have hown := (hc.own o).2 hom
  have mk : t ≠ o → t ≠ u → s'.enabled = false → (s'.heap p).queue = (s.heap p).queue →
      (s'.pc t).trading = false → Stuck s' o u p := by
    intro h1 h2 h3 h4 h5
    have ho := next_pc hs (Ne.symm h1)
    have hu := next_pc hs (Ne.symm h2)
    refine ⟨h3, by rw [ho]; exact h.evicting, by rw [ho]; exact h.pending, ⟨e, by rw [hu]; exact he⟩,
      by rw [h4]; exact h.empty, fun v hv => ?_⟩
    by_cases hvt : v = t
    · rw [hvt]; exact h5
    · rw [next_pc hs hvt]; exact h.others v hv
  have notIdle : ∀ v, v = o ∨ v = u → s.isIdle v = false := by
    intro v hv
    rcases hv with rfl | rfl
    · have := h.evicting
      unfold St.isIdle; revert this; unfold Pc.evicting; split <;> simp_all
    · simp [St.isIdle, he]
  have notUser : ∀ st, s.pc t ≠ .held .user st := by
    intro st hx
    have := hc.same_holder (u := t) (v := o) (by rw [hx]; rfl) hom
    rw [this] at hx
    have := h.evicting; rw [hx] at this; cases this
  have key : ∀ sp, (match s.logStep tid t sp with
      | .blocked => s.heldStep tid t sp
      | o => o) = .to s' → Stuck s' o u p := by
    intro sp hk
    by_cases hto : t = o
    · subst hto
      have hb : s.logStep tid t sp = .blocked := by
        have := h.evicting
        unfold Pc.evicting at this
        split at this <;> first | (cases this; done) | (rename_i hp; simp only [St.logStep, hp])
      rw [hb] at hk
      obtain ⟨h1, h2, h3, h4, h5⟩ := evictor_step hc h hk
      have hu := next_pc hs (Ne.symm hou)
      refine ⟨h1, h2, h3, ⟨e, by rw [hu]; exact he⟩, by rw [h4]; exact h.empty, fun v hv => ?_⟩
      by_cases hvt : v = t
      · rw [hvt]; exact h5
      · rw [next_pc hs hvt]; exact h.others v hv
    · by_cases htu : t = u
      · subst htu
        have : s.logStep tid t sp = .to s ∨ s.logStep tid t sp = .ub := by
          have hq : (s.heap p).ringTake (tid t) = none := by simp [Buffer.ringTake, h.empty]
          by_cases hmap : s.mapped p = true
          · left; simp only [St.logStep, he, hmap, hq, if_true]
          · right; simp only [St.logStep, he, hmap]; rfl
        rcases this with h1 | h1 <;> rw [h1] at hk <;> cases hk
        exact h
      · have hm : (s.pc t).holdsMutex = false := by
          cases hx : (s.pc t).holdsMutex with
          | false => rfl
          | true => exact absurd (hc.same_holder hx hom) hto
        cases hl : s.logStep tid t sp with
        | ub => rw [hl] at hk; cases hk
        | to y =>
          rw [hl] at hk; cases hk
          obtain ⟨h1, h2, h3⟩ := logger_step (p := p) h.off hm (by rw [hown]; simp) (h.others t htu) hl
          exact mk hto htu h1 h2 h3
        | blocked =>
          rw [hl] at hk
          exfalso
          revert hm hk
          unfold St.heldStep Pc.holdsMutex
          cases s.pc t <;> simp
  cases c with
  | step => exact key false hs
  | spurious => exact key true hs
  | log x =>
    simp only [St.next] at hs
    split at hs
    · rename_i hi
      have h1 : t ≠ o := fun x => by rw [notIdle t (Or.inl x)] at hi; cases hi
      have h2 : t ≠ u := fun x => by rw [notIdle t (Or.inr x)] at hi; cases hi
      have e1 : s' = s.goto t (.readEnabled x) := by cases hs; rfl
      refine mk h1 h2 ?_ ?_ ?_
      · rw [e1]; exact h.off
      · rw [e1]; rfl
      · rw [e1, goto_pc]; rfl
    · cases hs
  | lock => simp [St.next, hown] at hs
  | register n => simp [St.next, hown] at hs
  | deregister => simp [St.next, hown] at hs
  | free b =>
    simp only [St.next] at hs
    split at hs
    · cases hs
      exact ⟨h.off, h.evicting, h.pending, h.waits, h.empty, h.others⟩
    · cases hs
  | _ =>
    unfold St.next at hs
    dsimp only at hs
    split at hs
    · rename_i hp; exact absurd hp (notUser _)
    · cases hs

theorem Stuck.run {o u p : Nat} {l : List (Nat × Choice ε)} (hr : Reachable true tid s) (h : Stuck s o u p)
    (hs : s.run true tid l = .to s') : Stuck s' o u p := by
  induction l generalizing s with
  | nil => cases hs; exact h
  | cons x l ih =>
    obtain ⟨t, c⟩ := x
    simp only [St.run] at hs
    split at hs
    · rename_i y hy
      exact ih (.step hr hy) (h.next hr hy) hs
    · cases hs
    · cases hs

/-- Two threads, a ring of one chunk: thread 1 has the chunk, thread 2 waits for it, thread 0 stops. -/
def deadlock : List (Nat × Choice Nat) :=
  registers 1 [] ++ registers 2 [] ++ starts ring1 ++ (1, .log 7) :: steps 1 11 ++ (2, .log 8) :: steps 2 9 ++
    [(0, .lock), (0, .stop false)]

theorem run_pc {l : List (Nat × Choice ε)} {v : Nat} (hv : ∀ x ∈ l, x.1 ≠ v) (hs : s.run pol tid l = .to s') :
    s'.pc v = s.pc v := by
  induction l generalizing s with
  | nil => cases hs; rfl
  | cons x l ih =>
    obtain ⟨t, c⟩ := x
    simp only [St.run] at hs
    split at hs
    · rename_i y hy
      rw [ih (fun x hx => hv x (List.mem_cons_of_mem _ hx)) hs]
      exact next_pc hy (Ne.symm (hv _ List.mem_cons_self))
    · cases hs
    · cases hs

theorem check_run {l : List (Nat × Choice Nat)} {p : St Nat → Bool} (h : check pol tid l p = true) :
    ∃ s, (St.init : St Nat).run pol tid l = .to s ∧ p s = true := by
  unfold check at h
  split at h
  · exact ⟨_, by assumption, h⟩
  · cases h

/-- C47 does not hold: with fewer chunks in a ring than logging threads, `stop` can wait for ever
on a thread that waits in `RingTraceBuffer::getChunk` for a chunk that will not come back. -/
theorem C47_refuted : ∃ s : St Nat, Reachable true id s ∧ s.hist.head? = some (.stop false none) ∧
    (s.pc 0).evicting = true ∧
    ∀ l s', s.run true id l = .to s' → (s'.pc 0).evicting = true ∧ s'.owner = some 0 := by
  have hrun : ∃ s, (St.init : St Nat).run true id deadlock = .to s ∧
      (s.hist.head? = some (.stop false none) ∧ s.enabled = false ∧ (s.pc 0).evicting = true ∧
        2 ∈ (s.pc 0).pending ∧ s.pc 2 = .getWait 8 0 ∧ (s.heap 0).queue = [] ∧
        (s.pc 0).trading = false ∧ (s.pc 1).trading = false) := by
    obtain ⟨s, hs, h⟩ := check_run (pol := true) (tid := id) (l := deadlock)
      (p := fun s => decide (s.hist.head? = some (.stop false none) ∧ s.enabled = false ∧
        (s.pc 0).evicting = true ∧ 2 ∈ (s.pc 0).pending ∧ s.pc 2 = .getWait 8 0 ∧ (s.heap 0).queue = [] ∧
        (s.pc 0).trading = false ∧ (s.pc 1).trading = false)) (by decide +kernel)
    exact ⟨s, hs, of_decide_eq_true h⟩
  obtain ⟨s, hs, h1, h2, h3, h4, h5, h6, h7, h8⟩ := hrun
  have hr := run_reachable .init hs
  have stuck : Stuck s 0 2 0 := by
    refine ⟨h2, h3, h4, ⟨8, h5⟩, h6, fun v hv => ?_⟩
    by_cases v0 : v = 0
    · rw [v0]; exact h7
    by_cases v1 : v = 1
    · rw [v1]; exact h8
    have : s.pc v = (St.init : St Nat).pc v := by
      refine run_pc (l := deadlock) ?_ hs
      have : ∀ x ∈ deadlock, x.1 = 0 ∨ x.1 = 1 ∨ x.1 = 2 := by decide +kernel
      intro x hx; have := this x hx; omega
    rw [this]; rfl
  refine ⟨s, hr, h1, h3, fun l s' hl => ?_⟩
  have := stuck.run hr hl
  exact ⟨this.evicting, ((run_reachable hr hl).ctl.own 0).2 (Pc.evicting_spec _ this.evicting).1⟩

end Phosphor.TLog
