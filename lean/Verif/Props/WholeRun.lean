import Verif.Props.Whole
/-
C80: executions of the parts together, and the refutation.
-/
namespace Phosphor.Whole
open TpConc (Follows)
variable {cat : Nat → Str} {tid : Nat → Nat} {s s' : St}

def Due.isNothing : Due → Bool
  | .nothing => true
  | _ => false

theorem Due.isNothing_eq {d : Due} (h : d.isNothing = true) : d = .nothing := by
  cases d <;> simp_all [Due.isNothing]

def tpOut : TpConc.Pc → Bool
  | .out => true
  | _ => false

theorem tpOut_eq {p : TpConc.Pc} (h : tpOut p = true) : p = .out := by
  cases p <;> simp_all [tpOut]

def regIdle : RegConc.Pc → Bool
  | .idle => true
  | _ => false

theorem regIdle_eq {p : RegConc.Pc} (h : regIdle p = true) : p = .idle := by
  cases p <;> simp_all [regIdle]

def notLog : TLog.Choice Ev → Bool
  | .log _ => false
  | _ => true

theorem notLog_ne {c : TLog.Choice Ev} (h : notLog c = true) : ∀ e, c ≠ .log e := by
  rintro e rfl; cases h

/-- What thread `t` is to do next. -/
inductive Op
  | log (t : Nat) (c : TLog.Choice Ev)
  | emit (t : Nat)
  | call (t : Nat)
  /-- a step inside `updateEnabled`/`disableAll` -/
  | upd (t : Nat)
  | enter (t p : Nat)
  /-- the lookup finds the group it is comparing with -/
  | found (t : Nat)
  | store (t : Nat)
  | test (t x : Nat)

/-- Thread `t` is free to use the log. -/
def free (s : St) (t : Nat) : Bool :=
  (s.due t).isNothing && tpOut (s.tp.pc t) && regIdle (s.tp.reg.pc t)

/-- One step inside an update: new registry. -/
def updStep (r : RegConc.St) (t : Nat) : Option RegConc.St :=
  match r.pc t with
  | .uWant u => if r.mutex = none then some { r.goto t (.uEn u) with mutex := some t } else none
  | .uEn u => some { r.goto t (.uDis u) with enabled := u.en }
  | .uDis u => some { r.goto t (.uLoad u) with disabled := u.dis }
  | .uLoad u => some (r.goto t (.uLoop u r.count 0))
  | .uLoop (.update e d) c i =>
    if i < c then some { r.goto t (.uLoop (.update e d) c (i + 1)) with
      statuses := RegConc.upd r.statuses i (calculateEnabled (r.groups i) r.enabled r.disabled) }
    else none
  | .uLoop .disable c i =>
    if i < c then some { r.goto t (.uLoop .disable c (i + 1)) with
      statuses := RegConc.upd r.statuses i false }
    else none
  | _ => none

/-- The end of an update. -/
def updEnd (r : RegConc.St) (t : Nat) : Option RegConc.St :=
  match r.pc t with
  | .uLoop _ c i => if i < c then none else some { r.goto t .idle with mutex := none }
  | _ => none

def exec (cat : Nat → Str) (tid : Nat → Nat) (s : St) : Op → Option St
  | .log t c =>
    if free s t && notLog c then
      match s.log.next true tid t c with
      | .to l' => some { s with log := l', due := setf s.due t (dueAfter s.log l' t) }
      | _ => none
    else none
  | .emit t =>
    match s.pend t with
    | [] => none
    | e :: _ =>
      if free s t then
        match s.log.next true tid t (.log e) with
        | .to l' => some { s with log := l', pend := setf s.pend t ((s.pend t).erase e) }
        | _ => none
      else none
  | .call t =>
    match s.due t with
    | .want u =>
      if tpOut (s.tp.pc t) && regIdle (s.tp.reg.pc t) then
        some { s with tp := { s.tp with reg := s.tp.reg.goto t (.uWant u) }, due := setf s.due t (.running u) }
      else none
    | _ => none
  | .upd t =>
    if tpOut (s.tp.pc t) then
      match updStep s.tp.reg t with
      | some r => some { s with tp := { s.tp with reg := r } }
      | none =>
        match s.due t, updEnd s.tp.reg t with
        | .running _, some r => some { s with tp := { s.tp with reg := r }, due := setf s.due t .nothing }
        | _, _ => none
    else none
  | .enter t p =>
    if free s t && (s.tp.cache p).isNone && decide (s.log.pc t = .idle) && decide ('\x00' ∉ cat p) then
      some { s with tp := { s.tp with
        reg := s.tp.reg.goto t (.scan1 (cat p) s.tp.reg.count 0)
        pc := TpConc.setPc s.tp.pc t (.looking p)
        lookups := fun u q => if u = t ∧ q = p then s.tp.lookups t p + 1 else s.tp.lookups u q } }
    else none
  | .found t =>
    match s.tp.pc t, s.tp.reg.pc t with
    | .looking p, .scan1 n c i =>
      if i < c ∧ s.tp.reg.groups i = n ∧ n = cat p then
        some { s with tp := { s.tp with
          reg := { s.tp.reg.goto t .idle with results := (n, i) :: s.tp.reg.results }
          pc := TpConc.setPc s.tp.pc t (.storing p i) } }
      else none
    | _, _ => none
  | .store t =>
    match s.tp.pc t with
    | .storing p i =>
      some { s with tp := { s.tp with
        cache := fun q => if q = p then some i else s.tp.cache q
        pc := TpConc.setPc s.tp.pc t (.testing p i) } }
    | _ => none
  | .test t x =>
    match s.tp.pc t with
    | .testing p i =>
      match s.tp.reg.statuses i with
      | true => some { s with
          tp := { s.tp with pc := TpConc.setPc s.tp.pc t .out, tested := (p, i, true) :: s.tp.tested }
          pend := setf s.pend t (⟨p, x, if s.log.enabled then s.log.buffer else none⟩ :: s.pend t) }
      | false => some { s with
          tp := { s.tp with pc := TpConc.setPc s.tp.pc t .out, tested := (p, i, false) :: s.tp.tested } }
    | _ => none

theorem updStep_step {r r' : RegConc.St} {t : Nat} (h : updStep r t = some r') :
    RegConc.Step r r' ∧ (∀ v, (r'.pc v).updating = (r.pc v).updating) := by
  have key : ∀ {p q : RegConc.Pc} {x : RegConc.St}, r.pc t = p → x.pc = RegConc.upd r.pc t q →
      q.updating = p.updating → ∀ v, (x.pc v).updating = (r.pc v).updating := by
    intro p q x hp hx hq v
    rw [hx]
    by_cases e : v = t
    · subst e; rw [RegConc.upd_self, hp, hq]
    · rw [RegConc.upd_ne _ _ e]
  unfold updStep at h
  split at h
  · rename_i hp; split at h
    · rename_i hm; cases h; exact ⟨.uLock hp hm, key hp rfl rfl⟩
    · cases h
  · rename_i hp; cases h; exact ⟨.uEn hp, key hp rfl rfl⟩
  · rename_i hp; cases h; exact ⟨.uDis hp, key hp rfl rfl⟩
  · rename_i hp; cases h; exact ⟨.uLoad hp, key hp rfl rfl⟩
  · rename_i hp; split at h
    · rename_i hi; cases h; exact ⟨.uStore hp hi, key hp rfl rfl⟩
    · cases h
  · rename_i hp; split at h
    · rename_i hi; cases h; exact ⟨.uClear hp hi, key hp rfl rfl⟩
    · cases h
  · cases h

theorem updEnd_step {r r' : RegConc.St} {t : Nat} (h : updEnd r t = some r') :
    RegConc.Step r r' ∧ r'.pc = RegConc.upd r.pc t .idle := by
  unfold updEnd at h
  split at h
  · rename_i hp; split at h
    · cases h
    · rename_i hi; cases h; exact ⟨.uRet hp hi, rfl⟩
  · cases h

theorem updating_idle {p q : RegConc.Pc} (h : q.updating = p.updating) (u : RegConc.Upd)
    (hu : p.updating = some u) : q ≠ .idle := by
  rintro rfl; rw [hu] at h; cases h

/-- Steps of the registry by a thread outside trace points are steps of the trace points. -/
theorem regStep {cat : Nat → Str} {x : TpConc.St} {r' : RegConc.St} {t : Nat} {q : RegConc.Pc}
    (ho : x.pc t = .out) (st : RegConc.Step x.reg r') (hp : r'.pc = RegConc.upd x.reg.pc t q) :
    TpConc.Step cat x { x with reg := r' } := by
  refine .reg st fun v hv => ?_
  have e : v ≠ t := by rintro rfl; exact hv ho
  rw [hp, RegConc.upd_ne _ _ e]

theorem updStep_pc {r r' : RegConc.St} {t : Nat} (h : updStep r t = some r') :
    ∃ q, r'.pc = RegConc.upd r.pc t q := by
  unfold updStep at h
  split at h
  · split at h
    · cases h; exact ⟨_, rfl⟩
    · cases h
  · cases h; exact ⟨_, rfl⟩
  · cases h; exact ⟨_, rfl⟩
  · cases h; exact ⟨_, rfl⟩
  · split at h
    · cases h; exact ⟨_, rfl⟩
    · cases h
  · split at h
    · cases h; exact ⟨_, rfl⟩
    · cases h
  · cases h

theorem free_eq {t : Nat} (h : free s t = true) :
    s.due t = .nothing ∧ s.tp.pc t = .out ∧ s.tp.reg.pc t = .idle := by
  simp only [free, Bool.and_eq_true] at h
  exact ⟨Due.isNothing_eq h.1.1, tpOut_eq h.1.2, regIdle_eq h.2⟩

theorem exec_step {op : Op} (h : exec cat tid s op = some s') : Step cat tid s s' := by
  unfold exec at h
  cases op with
  | log t c =>
    dsimp only at h
    split at h
    · rename_i hf
      simp only [Bool.and_eq_true] at hf
      obtain ⟨h1, h2, h3⟩ := free_eq hf.1
      split at h
      · rename_i hn; cases h; exact .log h1 h2 h3 (notLog_ne hf.2) hn
      · cases h
    · cases h
  | emit t =>
    dsimp only at h
    split at h
    · cases h
    · rename_i e es hp
      split at h
      · rename_i hf
        obtain ⟨h1, h2, h3⟩ := free_eq hf
        split at h
        · rename_i hn; cases h; exact .emit (by rw [hp]; exact List.mem_cons_self) h1 h2 h3 hn
        · cases h
      · cases h
  | call t =>
    dsimp only at h
    split at h
    · rename_i u hd
      split at h
      · rename_i hf
        simp only [Bool.and_eq_true] at hf
        cases h
        exact .call hd (regIdle_eq hf.2) rfl
          (regStep (tpOut_eq hf.1) (.callUpd (regIdle_eq hf.2)) rfl)
      · cases h
    · cases h
  | upd t =>
    dsimp only at h
    split at h
    · rename_i ho
      have ho := tpOut_eq ho
      split at h
      · rename_i r hr
        cases h
        obtain ⟨h1, h2⟩ := updStep_step hr
        obtain ⟨q, h3⟩ := updStep_pc hr
        exact .point (regStep ho h1 h3) h2 (fun _ h => h) (fun v a b => absurd a b)
      · split at h
        · rename_i u r hd hr
          cases h
          obtain ⟨h1, h2⟩ := updEnd_step hr
          refine .finish hd ?_ ?_ rfl (regStep ho h1 h2)
          · show r.pc t = _; rw [h2, RegConc.upd_self]
          · intro v hv; show r.pc v = _; rw [h2, RegConc.upd_ne _ _ hv]
        · cases h
    · cases h
  | enter t p =>
    dsimp only at h
    split at h
    · rename_i hf
      simp only [Bool.and_eq_true, decide_eq_true_eq, Option.isNone_iff_eq_none] at hf
      obtain ⟨⟨⟨hf, hc⟩, hl⟩, hz⟩ := hf
      obtain ⟨h1, h2, h3⟩ := free_eq hf
      cases h
      refine .point (.enterFirst h2 h3 hc rfl (.call h3 hz)) ?_ ?_ ?_
      · intro v
        show (RegConc.upd s.tp.reg.pc t _ v).updating = _
        by_cases e : v = t
        · subst e; rw [RegConc.upd_self, h3]; rfl
        · rw [RegConc.upd_ne _ _ e]
      · intro v hv
        have e : v ≠ t := by rintro rfl; exact hv h2
        show TpConc.setPc s.tp.pc t _ v ≠ _
        rw [TpConc.setPc_ne _ _ e]; exact hv
      · intro v a b
        by_cases e : v = t
        · subst e; exact ⟨hl, h1⟩
        · have : TpConc.setPc s.tp.pc t (.looking p) v ≠ _ := b
          rw [TpConc.setPc_ne _ _ e] at this; exact absurd a this
    · cases h
  | found t =>
    dsimp only at h
    split at h
    · rename_i p n c i h1 h2
      split at h
      · rename_i hh
        obtain ⟨h3, h4, rfl⟩ := hh
        cases h
        refine .point (.found h1 (by rw [h2]; exact fun h => by cases h) (RegConc.upd_self _ _ _) rfl
          (.scan1Hit h2 h3 h4)) ?_ ?_ ?_
        · intro v
          show (RegConc.upd s.tp.reg.pc t _ v).updating = _
          by_cases e : v = t
          · subst e; rw [RegConc.upd_self, h2]; rfl
          · rw [RegConc.upd_ne _ _ e]
        · intro v hv
          show TpConc.setPc s.tp.pc t _ v ≠ _
          by_cases e : v = t
          · subst e; rw [TpConc.setPc_self]; exact fun h => by cases h
          · rw [TpConc.setPc_ne _ _ e]; exact hv
        · intro v a b
          have e : v ≠ t := by rintro rfl; rw [h1] at a; cases a
          have : TpConc.setPc s.tp.pc t (.storing p i) v ≠ _ := b
          rw [TpConc.setPc_ne _ _ e] at this; exact absurd a this
      · cases h
    · cases h
  | store t =>
    dsimp only at h
    split at h
    · rename_i p i h1
      cases h
      refine .point (.store h1) (fun _ => rfl) ?_ ?_
      · intro v hv
        show TpConc.setPc s.tp.pc t _ v ≠ _
        by_cases e : v = t
        · subst e; rw [TpConc.setPc_self]; exact fun h => by cases h
        · rw [TpConc.setPc_ne _ _ e]; exact hv
      · intro v a b
        have e : v ≠ t := by rintro rfl; rw [h1] at a; cases a
        have : TpConc.setPc s.tp.pc t (.testing p i) v ≠ _ := b
        rw [TpConc.setPc_ne _ _ e] at this; exact absurd a this
    · cases h
  | test t x =>
    dsimp only at h
    split at h
    · rename_i p i h1
      split at h
      · rename_i hs; cases h; exact .testOn x h1 hs rfl
      · rename_i hs; cases h; exact .testOff h1 hs rfl
    · cases h

def execs (cat : Nat → Str) (tid : Nat → Nat) : List Op → St → Option St
  | [], s => some s
  | op :: ops, s => match exec cat tid s op with
    | some s' => execs cat tid ops s'
    | none => none

theorem execs_reachable {ops : List Op} (hr : Reachable cat tid s) (h : execs cat tid ops s = some s') :
    Reachable cat tid s' := by
  induction ops generalizing s with
  | nil => cases h; exact hr
  | cons op ops ih =>
    unfold execs at h
    split at h
    · rename_i he; exact ih (hr.step (exec_step he)) h
    · cases h

/-- The state after a run that succeeds. -/
theorem run_reachable {ops : List Op} {P : St → Prop}
    (h : ∃ s, execs cat tid ops St.init = some s ∧ P s) : ∃ s, Reachable cat tid s ∧ P s := by
  obtain ⟨s, h1, h2⟩ := h
  exact ⟨s, execs_reachable .init h1, h2⟩

theorem some_of {α : Type} {o : Option α} {f : α → Bool} (h : o.any f = true) :
    ∃ a, o = some a ∧ f a = true := by
  cases o with
  | none => cases h
  | some a => exact ⟨a, rfl, h⟩

/-- All categories. -/
def all1 : TraceConfig := { mode := .fixed, size := sizeofTraceChunk, enabled := [['*']] }
/-- Everything but "default". -/
def rest1 : TraceConfig :=
  { mode := .fixed, size := sizeofTraceChunk, enabled := [['*']], disabled := ["default".toList] }

/-- Thread 0 does an update of the registry with three groups. -/
def update0 : List Op := .call 0 :: List.replicate 8 (.upd 0)

/-- Thread 0 starts tracing, from taking the mutex to releasing it. -/
def start0 (c : TraceConfig) : List Op :=
  [.log 0 .lock, .log 0 (.start c), .log 0 .step] ++ update0 ++ [.log 0 .step, .log 0 .ret, .log 0 .step]

/-- Thread 1 executes trace point 5 of category "default" for the first time, up to the test. -/
def point1 : List Op := [.enter 1 5, .found 1, .store 1]

/-- Thread 0 stops tracing while thread 1 is registered. -/
def stop0 : List Op :=
  [.log 0 .lock, .log 0 (.stop false)] ++ update0 ++ [.log 0 .step, .log 0 .step, .log 0 .step,
    .log 0 .step, .log 0 .ret, .log 0 .step]

/-- Thread 1 logs its event. -/
def emit1 : List Op := .emit 1 :: List.replicate 11 (.log 1 .step)

/-- Thread 1 registers. -/
def reg1 : List Op := [.log 1 (.register []), .log 1 .step, .log 1 .step]

/-- The scope of thread 1 begins in the first run and ends in the second. -/
def late : List Op := reg1 ++ start0 all1 ++ point1 ++ [.test 1 7] ++ stop0 ++ start0 rest1 ++ emit1

/-- Every trace point has category "default". -/
def dflt : Nat → Str := fun _ => "default".toList

theorem rest1_default : ¬ Enables rest1 "default".toList := by
  unfold Enables
  rw [← C06_decision]
  decide +kernel

theorem all1_default : Enables all1 "default".toList := by
  unfold Enables
  rw [← C06_decision]
  decide +kernel

/-- C80 is refuted: an event of category "default" is recorded in a run that disables "default". Its
category was tested in the run before. -/
theorem C80_refuted : ∃ s, Reachable dflt id s ∧ s.log.enabled = true ∧ s.log.buffer = some 1 ∧
    .run 1 rest1 ∈ s.log.hist ∧ ∃ evs e, TLog.Reads (s.log.heap 1) evs ∧ (e, 1) ∈ evs ∧
      Follows dflt s.tp e.point "default".toList ∧ ∀ g, Follows dflt s.tp e.point g → ¬ Enables rest1 g := by
  obtain ⟨s, h1, h2⟩ := some_of (o := execs dflt id late St.init)
    (f := fun s => s.log.enabled && decide (s.log.buffer = some 1) && decide (.run 1 rest1 ∈ s.log.hist) &&
      decide (s.log.stored 1 1 = [⟨5, 7, some 0⟩]) && decide ((s.log.heap 1).mode = .fixed) &&
      decide (s.tp.reg.count = 3) && decide (s.tp.reg.groups 0 = "default".toList)) (by decide +kernel)
  simp only [Bool.and_eq_true, decide_eq_true_eq] at h2
  obtain ⟨⟨⟨⟨⟨⟨a1, a2⟩, a3⟩, a4⟩, a5⟩, a6⟩, a7⟩ := h2
  have hr := execs_reachable .init h1
  obtain ⟨c, w⟩ := winv hr
  obtain ⟨evs, b1, b2⟩ := TLog.C48_read (fun _ _ h => h) w.log 1 (by rw [a5]; decide)
  have b3 := b2 1
  rw [a4] at b3
  refine ⟨s, hr, a1, a2, a3, evs, ⟨5, 7, some 0⟩, b1, ?_, .inl ⟨⟨0, by omega, a7⟩, rfl⟩, ?_⟩
  · have : (⟨5, 7, some 0⟩ : Ev) ∈ TLog.ofId 1 evs := by rw [b3]; exact List.mem_singleton_self _
    simp only [TLog.ofId, List.mem_filterMap] at this
    obtain ⟨⟨a, i⟩, h3, h4⟩ := this
    split at h4
    · rename_i h5
      cases h4
      cases h5
      exact h3
    · cases h4
  · intro g hg
    rcases hg with ⟨_, rfl⟩ | ⟨h, _⟩
    · exact rest1_default
    · omega

/-- A case of `C80_test`, `C80_recorded_partial` and `C80_some_run`: thread 1 about to test in the
first run; then its event recorded in that run. -/
example : (∃ s, Reachable dflt id s ∧ s.log.enabled = true ∧ (match s.tp.pc 1 with
      | .testing 5 0 => true
      | _ => false) = true ∧ s.tp.reg.statuses 0 = true) ∧
    ∃ s, Reachable dflt id s ∧ s.log.status 0 ≠ .unborn ∧ s.log.stored 0 1 = [⟨5, 7, some 0⟩] := by
  constructor
  · obtain ⟨s, h1, h2⟩ := some_of (o := execs dflt id (reg1 ++ start0 all1 ++ point1) St.init)
      (f := fun s => s.log.enabled && (match s.tp.pc 1 with
        | .testing 5 0 => true
        | _ => false) && s.tp.reg.statuses 0) (by decide +kernel)
    simp only [Bool.and_eq_true] at h2
    exact ⟨s, execs_reachable .init h1, h2.1.1, h2.1.2, h2.2⟩
  · obtain ⟨s, h1, h2⟩ := some_of
      (o := execs dflt id (reg1 ++ start0 all1 ++ point1 ++ [.test 1 7] ++ emit1) St.init)
      (f := fun s => decide (s.log.status 0 ≠ .unborn) && decide (s.log.stored 0 1 = [⟨5, 7, some 0⟩]))
      (by decide +kernel)
    simp only [Bool.and_eq_true, decide_eq_true_eq] at h2
    exact ⟨s, execs_reachable .init h1, h2.1, h2.2⟩

/-- A case of `C80_off`: a trace point tested after tracing was stopped. -/
example : ∃ s, Reachable dflt id s ∧ s.log.enabled = false ∧ s.log.owner = none ∧ (match s.tp.pc 1 with
    | .testing 5 0 => true
    | _ => false) = true ∧ (∃ cfg, .run 0 cfg ∈ s.log.hist) := by
  obtain ⟨s, h1, h2⟩ := some_of (o := execs dflt id (reg1 ++ start0 all1 ++ point1 ++ stop0) St.init)
    (f := fun s => !s.log.enabled && decide (s.log.owner = none) && (match s.tp.pc 1 with
      | .testing 5 0 => true
      | _ => false) && decide (.run 0 all1 ∈ s.log.hist)) (by decide +kernel)
  simp only [Bool.and_eq_true, decide_eq_true_eq, Bool.not_eq_true'] at h2
  exact ⟨s, execs_reachable .init h1, h2.1.1.1, h2.1.1.2, h2.1.2, all1, h2.2⟩

end Phosphor.Whole
