import Verif.Model.TraceLogMany
import Verif.Proof.TraceLogHist
/-
A step of one log depends on, and changes, only the tenants of the threads that log to it or
are registered with it.
-/
set_option linter.unusedSimpArgs false
namespace Phosphor.TLog
variable {ε : Type} {pol : Bool} {tid : Nat → Nat}

/-- The tenants that thread `t` at this point uses satisfy `H`. -/
def Pc.within (H : Nat → Prop) (t : Nat) : Pc ε → Prop
  | .idle => True
  | .release => True
  | .held (.evict l _) _ => ∀ u ∈ l, H u
  | .held (.evictClear u l _) _ => H u ∧ ∀ v ∈ l, H v
  | .held (.evictUnlock u l _) _ => H u ∧ ∀ v ∈ l, H v
  | .held .user _ => True
  | .held (.startCreate _) _ => True
  | .held .startEnable _ => True
  | _ => H t

structure Fits (H : Nat → Prop) (s : St ε) : Prop where
  pcs : ∀ t, (s.pc t).within H t
  reg : ∀ u ∈ s.registered, H u

/-- Other tenants. -/
def St.ten (s : St ε) (g : Nat → Tenant) : St ε := { s with tenant := g }

structure Framed1 (H : Nat → Prop) (s a : St ε) (g g' : Nat → Tenant) : Prop where
  same : ∀ u, H u → g' u = a.tenant u
  other : ∀ u, ¬ H u → g' u = g u
  other' : ∀ u, ¬ H u → a.tenant u = s.tenant u
  fits : Fits H a

/-- The results of a step in `s` and in `s.ten g`. -/
inductive Framed (H : Nat → Prop) (s : St ε) (g : Nat → Tenant) : Out (St ε) → Out (St ε) → Prop
  | blocked : Framed H s g .blocked .blocked
  | ub : Framed H s g .ub .ub
  | next {a g'} : Framed1 H s a g g' → Framed H s g (.to a) (.to (a.ten g'))

variable {H : Nat → Prop} {s : St ε} {g : Nat → Tenant} {t : Nat}

theorem Fits.goto (h : Fits H s) {p : Pc ε} (hp : p.within H t) : Fits H (s.goto t p) :=
  ⟨fun u => by
    by_cases hu : u = t
    · subst hu; rw [goto_pc]; exact hp
    · rw [goto_other _ _ _ _ hu]; exact h.pcs u, h.reg⟩

theorem Fits.copy (h : Fits H s) {a : St ε} (hp : a.pc = s.pc) (hr : a.registered = s.registered) : Fits H a :=
  ⟨fun u => by rw [hp]; exact h.pcs u, fun u hu => h.reg u (hr ▸ hu)⟩

theorem Fits.move (h : Fits H s) {a : St ε} {p : Pc ε} (hp : a.pc = setf s.pc t p) (hr : a.registered = s.registered)
    (hw : p.within H t) : Fits H a :=
  (h.goto hw).copy hp hr

/-- A step that does not write tenants. -/
theorem Framed.quiet (hg : ∀ u, H u → g u = s.tenant u) {a b : St ε} (ht : a.tenant = s.tenant)
    (hb : b = a.ten g) (hf : Fits H a) : Framed H s g (.to a) (.to b) := by
  subst hb
  exact .next ⟨fun u hu => by rw [ht]; exact hg u hu, fun _ _ => rfl, fun u _ => by rw [ht], hf⟩

/-- A step that writes the tenant of `v`. -/
theorem Framed.write (hg : ∀ u, H u → g u = s.tenant u) {a b : St ε} {v : Nat} {x : Tenant} (hv : H v)
    (ht : a.tenant = setf s.tenant v x)
    (hb : b = a.ten (setf g v x)) (hf : Fits H a) : Framed H s g (.to a) (.to b) := by
  subst hb
  refine .next ⟨fun u hu => ?_, fun u hu => ?_, fun u hu => ?_, hf⟩
  · rw [ht]
    by_cases h : u = v
    · subst h; simp [setf]
    · simp [setf, h, hg u hu]
  · have : u ≠ v := fun e => hu (e ▸ hv)
    simp [setf, this]
  · have : u ≠ v := fun e => hu (e ▸ hv)
    simp [ht, setf, this]

theorem pop_ten (a : St ε) (st : List Frame) : (a.ten g).pop t st = (a.pop t st).ten g := by
  cases st with
  | nil => rfl
  | cons x st => cases x <;> rfl

theorem unwind_ten (a : St ε) (st : List Frame) : (a.ten g).unwind t st = (a.unwind t st).ten g := by
  induction st with
  | nil => rfl
  | cons x st ih => cases x <;> first | rfl | exact ih

theorem pop_tenant (a : St ε) (st : List Frame) : (a.pop t st).tenant = a.tenant := by
  cases st with
  | nil => rfl
  | cons x st => cases x <;> rfl

theorem unwind_tenant (a : St ε) (st : List Frame) : (a.unwind t st).tenant = a.tenant := by
  induction st with
  | nil => rfl
  | cons x st ih => cases x <;> first | rfl | exact ih

theorem Fits.pop {a : St ε} (h : Fits H a) (st : List Frame) : Fits H (a.pop t st) := by
  cases st with
  | nil => exact h.goto trivial
  | cons x st => cases x <;> exact h.goto trivial

theorem Fits.unwind {a : St ε} (h : Fits H a) (st : List Frame) : Fits H (a.unwind t st) := by
  induction st with
  | nil => exact h.goto trivial
  | cons x st ih => cases x <;> first | exact h.goto trivial | exact ih

theorem logStep_framed (hg : ∀ u, H u → g u = s.tenant u) (hf : Fits H s) (sp : Bool) :
    Framed H s g (s.logStep tid t sp) ((s.ten g).logStep tid t sp) := by
  have hw := hf.pcs t
  have hpc : (s.ten g).pc = s.pc := rfl
  obtain ⟨p, hp⟩ : ∃ p, s.pc t = p := ⟨_, rfl⟩
  rw [hp] at hw
  cases p <;> simp only [St.logStep, hp, hpc] <;> try exact .blocked
  all_goals
    have ht : H t := hw
    have hgt := hg t ht
    try simp only [St.ten, hgt]
  case readEnabled e => refine .quiet hg rfl rfl ?_; exact hf.move rfl rfl (by split <;> trivial)
  case tryLock e =>
    split
    · refine .write hg ht rfl ?_ ?_
      · simp only [St.setChunk, St.setLock, St.setBuf, St.loaned, St.goto, St.ten, hgt]; try rfl
      · exact hf.move rfl rfl ht
    · refine .quiet hg rfl rfl ?_; exact hf.move rfl rfl trivial
    · exact .quiet hg rfl rfl hf
  case checkInit e => refine .quiet hg rfl rfl ?_; exact hf.move rfl rfl (by split <;> exact ht)
  case checkChunk e =>
    split
    · refine .quiet hg rfl rfl ?_; exact hf.move rfl rfl ht
    · show Framed H s g _ (if s.mapped _ = true then _ else _)
      split
      · split
        · refine .quiet hg rfl rfl ?_; exact hf.move rfl rfl (by split <;> exact ht)
        · exact .ub
      · exact .ub
  case recheck e =>
    split
    · refine .quiet hg rfl rfl ?_; exact hf.move rfl rfl (by split <;> exact ht)
    · refine .quiet hg rfl rfl ?_; exact hf.move rfl rfl ht
  case retLoad e =>
    split
    · exact .ub
    · refine .quiet hg rfl rfl ?_; exact hf.move rfl rfl ht
  case retDo e p =>
    split
    · exact .ub
    · rename_i b i hb
      show Framed H s g _ (if s.mapped p = true ∧ p = b then _ else _)
      by_cases hd : s.mapped p = true ∧ p = b
      · rw [if_pos hd, if_pos hd]
        refine .write hg ht rfl ?_ ?_
        · simp only [St.setChunk, St.setLock, St.setBuf, St.loaned, St.goto, St.ten, hgt]; try rfl
        · exact hf.move rfl rfl ht
      · rw [if_neg hd, if_neg hd]
        exact .ub
  case getCheck e => refine .quiet hg rfl rfl ?_; exact hf.move rfl rfl (by split <;> exact ht)
  case getNull e => refine .quiet hg rfl rfl ?_; exact hf.move rfl rfl (by split <;> exact ht)
  case getLoad e =>
    split
    · exact .ub
    · refine .quiet hg rfl rfl ?_; exact hf.move rfl rfl ht
  case getDo e p =>
    show Framed H s g _ (if s.mapped _ = true then _ else _)
    split
    · split
      · split
        · refine .write hg ht rfl ?_ ?_
          · simp only [St.setChunk, St.setLock, St.setBuf, St.loaned, St.goto, St.ten, hgt]; try rfl
          · exact hf.move rfl rfl ht
        · refine .quiet hg rfl rfl ?_; exact hf.move rfl rfl ht
      · split
        · refine .write hg ht rfl ?_ ?_
          · simp only [St.setChunk, St.setLock, St.setBuf, St.loaned, St.goto, St.ten, hgt]; try rfl
          · exact hf.move rfl rfl ht
        · refine .quiet hg rfl rfl ?_; exact hf.move rfl rfl ht
    · exact .ub
  case getWait e p =>
    show Framed H s g _ (if s.mapped _ = true then _ else _)
    split
    · split
      · refine .write hg ht rfl ?_ ?_
        · simp only [St.setChunk, St.setLock, St.setBuf, St.loaned, St.goto, St.ten, hgt]; try rfl
        · exact hf.move rfl rfl ht
      · exact .quiet hg rfl rfl hf
    · exact .ub
  case failed full => refine .quiet hg rfl rfl ?_; exact hf.move rfl rfl ht
  case failUnlock full n =>
    refine .write hg ht rfl ?_ ?_
    · simp only [St.setChunk, St.setLock, St.setBuf, St.loaned, St.goto, St.ten, hgt]; try rfl
    · exact hf.move rfl rfl ht
  case tryMutex full n =>
    show Framed H s g (if s.owner = none ∧ sp = false then _ else _) (if s.owner = none ∧ sp = false then _ else _)
    by_cases hd : s.owner = none ∧ sp = false
    · rw [if_pos hd, if_pos hd]
      refine .quiet hg rfl rfl ?_; exact hf.move rfl rfl ht
    · rw [if_neg hd, if_neg hd]
      refine .quiet hg rfl rfl ?_; exact hf.move rfl rfl trivial
  case compare full n =>
    show Framed H s g (if s.generation ≠ n then _ else _) (if s.generation ≠ n then _ else _)
    by_cases hd : s.generation ≠ n
    · rw [if_pos hd, if_pos hd]
      refine .quiet hg rfl rfl ?_; exact hf.move rfl rfl trivial
    · rw [if_neg hd, if_neg hd]
      show Framed H s g (if s.enabled = true then _ else _) (if s.enabled = true then _ else _)
      by_cases he : s.enabled = true
      · rw [if_pos he, if_pos he]
        refine .quiet hg rfl rfl ?_; exact hf.move rfl rfl hf.reg
      · rw [if_neg he, if_neg he]
        refine .quiet hg rfl rfl ?_; exact hf.move rfl rfl trivial
  case store e =>
    split
    · exact .ub
    · show Framed H s g _ (if s.mapped _ = true then _ else _)
      split
      · split
        · refine .quiet hg rfl rfl ?_; exact hf.move rfl rfl ht
        · exact .ub
      · exact .ub
  case unlock =>
    refine .write hg ht rfl ?_ ?_
    · simp only [St.setChunk, St.setLock, St.setBuf, St.loaned, St.goto, St.ten, hgt]; try rfl
    · exact hf.move rfl rfl trivial

theorem registerBody_framed (hg : ∀ u, H u → g u = s.tenant u) (hf : Fits H s) (ht : H t) (name : Str) :
    Framed H s g (.to ((s.registerBody tid t name).goto t .release))
      (.to (((s.ten g).registerBody tid t name).goto t .release)) := by
  have hgt := hg t ht
  have hreg : ∀ u ∈ t :: s.registered, H u := by
    intro u hu
    rcases List.mem_cons.1 hu with e | e
    · exact e ▸ ht
    · exact hf.reg u e
  unfold St.registerBody
  simp only [St.ten, hgt]
  by_cases hi : (s.tenant t).initialised = true
  · rw [if_pos hi, if_pos hi]
    refine .quiet hg rfl rfl ?_; exact hf.move rfl rfl trivial
  · rw [if_neg hi, if_neg hi]
    by_cases hn : name = []
    · rw [if_pos hn, if_pos hn]
      refine .write hg ht rfl rfl ⟨?_, hreg⟩
      exact (hf.goto (p := .release) trivial).pcs
    · rw [if_neg hn, if_neg hn]
      refine .write hg ht rfl rfl ⟨?_, hreg⟩
      exact (hf.goto (p := .release) trivial).pcs

theorem returnOwn_ten (hgt : g t = s.tenant t) :
    (s.ten g).returnOwn t = (s.returnOwn t).map (fun a => a.ten g) := by
  unfold St.returnOwn
  have h1 : ((s.ten g).tenant t).chunk = (s.tenant t).chunk := by rw [← hgt]; rfl
  have h2 : (s.ten g).buffer = s.buffer := rfl
  rw [h1, h2]
  cases (s.tenant t).chunk with
  | none => rfl
  | some p =>
    obtain ⟨b, i⟩ := p
    cases s.buffer with
    | none => rfl
    | some q =>
      by_cases h : q = b
      · simp only [if_pos h]; rfl
      · simp only [if_neg h]; rfl

theorem returnOwn_keeps {a : St ε} (h : s.returnOwn t = some a) :
    a.tenant = s.tenant ∧ a.pc = s.pc ∧ a.registered = s.registered := by
  unfold St.returnOwn at h
  split at h
  · cases h; exact ⟨rfl, rfl, rfl⟩
  · split at h
    · cases h; exact ⟨rfl, rfl, rfl⟩
    · split at h
      · cases h; exact ⟨rfl, rfl, rfl⟩
      · cases h

theorem deregisterBody_framed (hg : ∀ u, H u → g u = s.tenant u) (hf : Fits H s) (ht : H t) :
    Framed H s g (match s.deregisterBody tid t with | some a => .to (a.goto t .release) | none => .ub)
      (match (s.ten g).deregisterBody tid t with | some a => .to (a.goto t .release) | none => .ub) := by
  have hgt := hg t ht
  unfold St.deregisterBody
  rw [returnOwn_ten hgt]
  have hi : ((s.ten g).tenant t).initialised = (s.tenant t).initialised := by rw [← hgt]; rfl
  rw [hi]
  by_cases hi : (s.tenant t).initialised = true
  · rw [if_pos hi, if_pos hi]
    cases hr : s.returnOwn t with
    | none => exact .ub
    | some a =>
      obtain ⟨h1, h2, h3⟩ := returnOwn_keeps hr
      have hreg : ∀ u ∈ a.registered.filter (· ≠ t), H u := by
        intro u hu
        rw [h3] at hu
        exact hf.reg u (List.mem_filter.1 hu).1
      have hpcs : ∀ u, (setf a.pc t Pc.release u).within H u := by
        rw [h2]; exact (hf.goto (p := .release) trivial).pcs
      have hga : g t = a.tenant t := by rw [h1]; exact hgt
      simp only [Option.map, St.ten, hga]
      by_cases he : a.enabled = true
      · rw [if_pos he, if_pos he]
        refine .write hg ht (x := { a.tenant t with chunk := none, initialised := false }) ?_ rfl ⟨hpcs, hreg⟩
        show setf a.tenant _ _ = _
        rw [h1]
      · rw [if_neg he, if_neg he]
        refine .write hg ht (x := { a.tenant t with chunk := none, initialised := false }) ?_ rfl ⟨hpcs, hreg⟩
        show setf a.tenant _ _ = _
        rw [h1]
  · rw [if_neg hi, if_neg hi]
    refine .quiet hg rfl rfl ?_; exact hf.move rfl rfl trivial

theorem heldStep_framed (hg : ∀ u, H u → g u = s.tenant u) (hf : Fits H s) (other : Bool) :
    Framed H s g (s.heldStep tid t other) ((s.ten g).heldStep tid t other) := by
  have hw := hf.pcs t
  have hpc : (s.ten g).pc = s.pc := rfl
  obtain ⟨p, hp⟩ : ∃ p, s.pc t = p := ⟨_, rfl⟩
  rw [hp] at hw
  cases p <;> simp only [St.heldStep, hp, hpc] <;> try exact .blocked
  case regBody name => exact registerBody_framed hg hf hw name
  case deregBody => exact deregisterBody_framed hg hf hw
  case release => refine .quiet hg rfl rfl ?_; exact hf.move rfl rfl trivial
  case held w st =>
    cases w with
    | user => exact .blocked
    | startCreate n => refine .quiet hg rfl rfl ?_; exact hf.move rfl rfl trivial
    | startEnable =>
      refine .quiet hg (pop_tenant _ _) (pop_ten s.enable st) ?_
      exact Fits.pop (a := s.enable) (hf.copy rfl rfl) st
    | evictClear u l sh =>
      have hu : H u := hw.1
      have hgu := hg u hu
      refine .write hg hu rfl ?_ ?_
      · simp only [St.setChunk, St.goto, St.ten, hgu]
      · exact hf.move rfl rfl hw
    | evictUnlock u l sh =>
      have hu : H u := hw.1
      have hgu := hg u hu
      refine .write hg hu rfl ?_ ?_
      · simp only [St.setLock, St.goto, St.ten, hgu]
      · exact hf.move rfl rfl hw.2
    | evict l sh =>
      cases l with
      | nil =>
        dsimp only
        rw [show (s.ten g).config = s.config from rfl]
        cases callbackDue s.config sh with
        | some cb => refine .quiet hg rfl rfl ?_; exact hf.move rfl rfl trivial
        | none =>
          refine .quiet hg (pop_tenant _ _) (pop_ten { s with hist := .noCall :: s.hist } st) ?_
          exact Fits.pop (a := { s with hist := .noCall :: s.hist }) (hf.copy rfl rfl) st
      | cons u l =>
        have hu : H u := hw u (by simp)
        have hl : ∀ v ∈ l, H v := fun v hv => hw v (by simp [hv])
        have hgu := hg u hu
        simp only [St.ten, hgu]
        by_cases ho : other = true
        · rw [if_pos ho, if_pos ho]
          refine .quiet hg rfl rfl ?_
          refine hf.move rfl rfl (fun v hv => ?_)
          rcases List.mem_append.1 hv with h | h
          · exact hl v h
          · exact List.mem_singleton.1 h ▸ hu
        · rw [if_neg ho, if_neg ho]
          generalize ChunkLock.lockRound (s.tenant u).lock .masterLocked false = r
          obtain ⟨x, y⟩ := r
          cases y with
          | true =>
            refine .write hg hu rfl ?_ ?_
            · simp only [St.setLock, St.goto, St.ten, hgu]
            · exact hf.move rfl rfl ⟨hu, hl⟩
          | false => exact .quiet hg rfl rfl hf

/-- The step uses the tenant of the thread that makes it. -/
def Choice.personal : Choice ε → Bool
  | .log _ => true
  | .register _ => true
  | .deregister => true
  | _ => false

theorem next_framed (hg : ∀ u, H u → g u = s.tenant u) (hf : Fits H s) {c : Choice ε}
    (hc : c.personal = true → H t) :
    Framed H s g (s.next pol tid t c) ((s.ten g).next pol tid t c) := by
  cases c with
  | step =>
    have h1 := logStep_framed (tid := tid) (t := t) hg hf false
    have h2 := heldStep_framed (tid := tid) (t := t) hg hf false
    simp only [St.next]
    revert h1
    generalize s.logStep tid t false = x
    generalize (s.ten g).logStep tid t false = y
    intro h1
    cases h1 with
    | blocked => exact h2
    | ub => exact .ub
    | next h => exact .next h
  | spurious =>
    have h1 := logStep_framed (tid := tid) (t := t) hg hf true
    have h2 := heldStep_framed (tid := tid) (t := t) hg hf true
    simp only [St.next]
    revert h1
    generalize s.logStep tid t true = x
    generalize (s.ten g).logStep tid t true = y
    intro h1
    cases h1 with
    | blocked => exact h2
    | ub => exact .ub
    | next h => exact .next h
  | log e =>
    show Framed H s g (if s.isIdle t = true then _ else _) (if s.isIdle t = true then _ else _)
    by_cases hi : s.isIdle t = true
    · rw [if_pos hi, if_pos hi]
      refine .quiet hg rfl rfl ?_; exact hf.move rfl rfl (hc rfl)
    · rw [if_neg hi, if_neg hi]; exact .blocked
  | lock =>
    show Framed H s g (if s.isIdle t = true ∧ s.owner = none then _ else _)
      (if s.isIdle t = true ∧ s.owner = none then _ else _)
    by_cases hi : s.isIdle t = true ∧ s.owner = none
    · rw [if_pos hi, if_pos hi]
      refine .quiet hg rfl rfl ?_; exact hf.move rfl rfl trivial
    · rw [if_neg hi, if_neg hi]; exact .blocked
  | register name =>
    show Framed H s g (if s.isIdle t = true ∧ s.owner = none then _ else _)
      (if s.isIdle t = true ∧ s.owner = none then _ else _)
    by_cases hi : s.isIdle t = true ∧ s.owner = none
    · rw [if_pos hi, if_pos hi]
      refine .quiet hg rfl rfl ?_; exact hf.move rfl rfl (hc rfl)
    · rw [if_neg hi, if_neg hi]; exact .blocked
  | deregister =>
    show Framed H s g (if s.isIdle t = true ∧ s.owner = none then _ else _)
      (if s.isIdle t = true ∧ s.owner = none then _ else _)
    by_cases hi : s.isIdle t = true ∧ s.owner = none
    · rw [if_pos hi, if_pos hi]
      refine .quiet hg rfl rfl ?_; exact hf.move rfl rfl (hc rfl)
    · rw [if_neg hi, if_neg hi]; exact .blocked
  | free b =>
    show Framed H s g (if s.status b = .handed then _ else _) (if s.status b = .handed then _ else _)
    by_cases hi : s.status b = .handed
    · rw [if_pos hi, if_pos hi]
      exact .quiet hg rfl rfl (hf.copy rfl rfl)
    · rw [if_neg hi, if_neg hi]; exact .blocked
  | start cfg =>
    show Framed H s g (match s.pc t with | .held .user stack => _ | _ => .blocked)
      (match s.pc t with | .held .user stack => _ | _ => .blocked)
    split
    · rename_i st hp
      by_cases h1 : pol = true ∧ finishing st ≠ 0
      · rw [if_pos h1, if_pos h1]; exact .blocked
      rw [if_neg h1, if_neg h1]
      by_cases h2 : cfg.mode = .fixed ∨ cfg.mode = .ring
      · rw [if_pos h2, if_pos h2]
        by_cases h3 : cfg.size / sizeofTraceChunk = 0
        · simp only [if_pos h3]
          exact .quiet hg rfl rfl (hf.copy rfl rfl)
        · simp only [if_neg h3]
          by_cases he : s.enabled = true
          · rw [if_pos he]
            rw [if_pos (show (s.ten g).enabled = true from he)]
            refine .quiet hg rfl rfl ?_; exact hf.move rfl rfl hf.reg
          · rw [if_neg he]
            rw [if_neg (show ¬ (s.ten g).enabled = true from he)]
            refine .quiet hg rfl rfl ?_; exact hf.move rfl rfl trivial
      · rw [if_neg h2, if_neg h2]; exact .blocked
    · exact .blocked
  | stop sh =>
    show Framed H s g (match s.pc t with | .held .user stack => _ | _ => .blocked)
      (match s.pc t with | .held .user stack => _ | _ => .blocked)
    split
    · by_cases he : s.enabled = true
      · rw [if_pos he]
        rw [if_pos (show (s.ten g).enabled = true from he)]
        refine .quiet hg rfl rfl ?_; exact hf.move rfl rfl hf.reg
      · rw [if_neg he]
        rw [if_neg (show ¬ (s.ten g).enabled = true from he)]
        exact .quiet hg rfl rfl hf
    · exact .blocked
  | getBuffer =>
    show Framed H s g (match s.pc t with | .held .user stack => _ | _ => .blocked)
      (match s.pc t with | .held .user stack => _ | _ => .blocked)
    split
    · by_cases he : s.enabled = true
      · rw [if_pos he]
        rw [if_pos (show (s.ten g).enabled = true from he)]
        exact .quiet hg rfl rfl (hf.copy rfl rfl)
      · rw [if_neg he]
        rw [if_neg (show ¬ (s.ten g).enabled = true from he)]
        exact .quiet hg rfl rfl (hf.copy rfl rfl)
    · exact .blocked
  | getTraceContext =>
    show Framed H s g (match s.pc t with | .held .user stack => _ | _ => .blocked)
      (match s.pc t with | .held .user stack => _ | _ => .blocked)
    split
    · by_cases he : s.enabled = true
      · rw [if_pos he]
        rw [if_pos (show (s.ten g).enabled = true from he)]
        exact .quiet hg rfl rfl (hf.copy rfl rfl)
      · rw [if_neg he]
        rw [if_neg (show ¬ (s.ten g).enabled = true from he)]
        exact .quiet hg rfl rfl (hf.copy rfl rfl)
    · exact .blocked
  | ret =>
    show Framed H s g (match s.pc t with | .held .user stack => _ | _ => .blocked)
      (match s.pc t with | .held .user stack => _ | _ => .blocked)
    split
    · exact .quiet hg (pop_tenant _ _) (pop_ten _ _) (Fits.pop hf _)
    · exact .blocked
  | throw =>
    show Framed H s g (match s.pc t with | .held .user stack => _ | _ => .blocked)
      (match s.pc t with | .held .user stack => _ | _ => .blocked)
    split
    · exact .quiet hg (unwind_tenant _ _) (unwind_ten _ _) (Fits.unwind hf _)
    · exact .blocked

end Phosphor.TLog
