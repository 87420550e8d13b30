import Verif.Proof.Whole
/-
The registry follows the runs of the log.
-/
namespace Phosphor

namespace RegConc

/-- A step keeps the update a thread is in, or finishes it. -/
theorem upd_step {s s' : St} (st : Step s s') {t : Nat} {u : Upd} (h : (s.pc t).updating = some u) :
    ((s'.pc t).updating = some u ∧ ((s.pc t).up = some u → (s'.pc t).up = some u)) ∨
    ((s.pc t).up = some u ∧ s'.pc t = .idle) := by
  have key : ∀ {v : Nat} {q p : Pc}, s.pc v = p → (p.updating = some u →
      (q.updating = some u ∧ (p.up = some u → q.up = some u)) ∨ (p.up = some u ∧ q = .idle)) →
      ((upd s.pc v q t).updating = some u ∧ ((s.pc t).up = some u → (upd s.pc v q t).up = some u)) ∨
      ((s.pc t).up = some u ∧ upd s.pc v q t = .idle) := by
    intro v q p hp hq
    by_cases e : t = v
    · subst e
      rw [upd_self, hp]
      exact hq (by rw [← hp]; exact h)
    · rw [upd_ne _ _ e]; exact .inl ⟨h, id⟩
  cases st with
  | call hp _ => exact key hp (by simp [Pc.updating])
  | scan1End hp _ => exact key hp (by simp [Pc.updating])
  | scan1Hit hp _ _ => exact key hp (by simp [Pc.updating])
  | scan1Miss hp _ _ => exact key hp (by simp [Pc.updating])
  | lock hp _ => exact key hp (by simp [Pc.updating])
  | load2 hp => exact key hp (by simp [Pc.updating])
  | scan2Hit hp _ _ => exact key hp (by simp [Pc.updating])
  | scan2Miss hp _ _ => exact key hp (by simp [Pc.updating])
  | room hp _ _ => exact key hp (by simp [Pc.updating])
  | full hp _ _ => exact key hp (by simp [Pc.updating])
  | writeGroup hp => exact key hp (by simp [Pc.updating])
  | writeStatus hp => exact key hp (by simp [Pc.updating])
  | bump hp => exact key hp (by simp [Pc.updating])
  | ret hp => exact key hp (by simp [Pc.updating])
  | callUpd hp => exact key hp (by simp [Pc.updating])
  | uLock hp _ => exact key hp (by simp [Pc.updating, Pc.up])
  | uEn hp => exact key hp (by simp [Pc.updating, Pc.up])
  | uDis hp => exact key hp (by simp [Pc.updating, Pc.up])
  | uLoad hp => exact key hp (by simp [Pc.updating, Pc.up])
  | uStore hp _ => exact key hp (by simp [Pc.updating, Pc.up])
  | uClear hp _ => exact key hp (by simp [Pc.updating, Pc.up])
  | uRet hp _ => exact key hp (by simp [Pc.updating, Pc.up])

theorem up_updating {p : Pc} {u : Upd} (h : p.up = some u) : p.updating = some u := by
  cases p <;> simp_all [Pc.up, Pc.updating]

/-- A step in which nobody begins or ends an update keeps the finished updates. -/
theorem Hist.same {s s' : St} {c} (h : Hist s c) (st : Step s s')
    (hk : ∀ v, (s'.pc v).updating = (s.pc v).updating) : Hist s' c := by
  refine .other h st fun t u hu => ?_
  rcases upd_step st (up_updating hu) with ⟨_, h1⟩ | ⟨_, h1⟩
  · exact h1 hu
  · have := hk t
    rw [up_updating hu, h1] at this
    cases this

/-- Registered names stay. -/
theorem groups_step {s s' : St} (inv : Inv s) (st : Step s s') :
    s.count ≤ s'.count ∧ ∀ j, j < s.count → s'.groups j = s.groups j := by
  cases st with
  | writeGroup hp =>
    rename_i t n c
    refine ⟨Nat.le_refl _, fun j hj => ?_⟩
    have := inv.pcs t
    rw [hp] at this
    exact upd_ne _ _ (by have := this.2.2.2.1; omega)
  | bump hp => exact ⟨Nat.le_succ _, fun _ _ => rfl⟩
  | _ => exact ⟨Nat.le_refl _, fun _ _ => rfl⟩

end RegConc

namespace TpConc

/-- A step of the trace points is at most one step of the registry. -/
theorem Step.reg' {cat s s'} (st : Step cat s s') : s'.reg = s.reg ∨ RegConc.Step s.reg s'.reg := by
  cases st with
  | reg h _ => exact .inr h
  | enter => exact .inl rfl
  | enterFirst _ _ _ _ h => exact .inr h
  | found _ _ _ _ h => exact .inr h
  | store => exact .inl rfl
  | test => exact .inl rfl

theorem Follows.step {cat s s' p g} (h : Reachable cat s) (st : Step cat s s')
    (hf : Follows cat s p g) : Follows cat s' p g := by
  have inv := RegConc.inv_reachable h.reg
  have inv' := RegConc.inv_reachable (h.step st).reg
  have key : s.reg.count ≤ s'.reg.count ∧ ∀ j, j < s.reg.count → s'.reg.groups j = s.reg.groups j := by
    rcases st.reg' with e | st
    · rw [e]; exact ⟨Nat.le_refl _, fun _ _ => rfl⟩
    · exact RegConc.groups_step inv st
  obtain ⟨h1, h2⟩ := key
  rcases hf with ⟨⟨j, hj, hg⟩, rfl⟩ | ⟨hc, hn, rfl⟩
  · exact .inl ⟨⟨j, by omega, by rw [h2 j hj, hg]⟩, rfl⟩
  · have := inv'.chigh
    exact .inr ⟨by omega, fun j hj => by rw [h2 j (by omega)]; exact hn j hj, rfl⟩

end TpConc

namespace TLog

theorem configOf_mem (h : List Item) :
    configOf h = { mode := .fixed, size := 0 } ∨ Item.configure (configOf h) ∈ h := by
  induction h with
  | nil => exact .inl rfl
  | cons i h ih =>
    cases i <;> simp only [configOf] <;> simp_all

theorem run_configured {h : List Item} (ok : HistOk h) {b : Nat} {cfg : TraceConfig}
    (hm : Item.run b cfg ∈ h) : cfg = { mode := .fixed, size := 0 } ∨ Item.configure cfg ∈ h := by
  induction h with
  | nil => cases hm
  | cons i h ih =>
    rcases List.mem_cons.1 hm with rfl | hm
    · have : cfg = configOf h := ok.1.2
      rw [this]
      rcases configOf_mem h with h1 | h1
      · exact .inl h1
      · exact .inr (List.mem_cons_of_mem _ h1)
    · rcases ih ok.2 hm with h1 | h1
      · exact .inl h1
      · exact .inr (List.mem_cons_of_mem _ h1)

theorem lastRun_mem {h : List Item} {b : Nat} {cfg : TraceConfig} (hl : lastRun h = some (b, cfg)) :
    Item.run b cfg ∈ h := by
  induction h with
  | nil => cases hl
  | cons i h ih => cases i <;> simp_all [lastRun]

/-- While tracing is on, the buffer of the last run is in the log. -/
theorem available_on {h : List Item} (ok : HistOk h) (ho : on h = true) :
    available h = (lastRun h).map (·.1) := by
  induction h with
  | nil => cases ho
  | cons i h ih =>
    obtain ⟨h1, h2⟩ := ok
    cases i <;> simp_all [on, available, lastRun, ItemOk]

end TLog

namespace Whole
open TLog (lastRun)

def cats (c : TraceConfig) : List Str × List Str := (c.enabled, c.disabled)

/-- No group is enabled. -/
def Off (c : List Str × List Str) : Prop := ∀ g, ¬ GroupEnabled c.1 c.2 g

theorem off_nil : Off ([], []) := by
  intro g h
  rw [← C06_decision, calculateEnabled_nil] at h
  cases h

theorem off_disable : Off ([[]], [[]]) := by
  intro g h
  rw [← C06_decision, RegConc.calculateEnabled_disabled] at h
  cases h

def Due.upd : Due → Option RegConc.Upd
  | .nothing => none
  | .want u | .running u => some u

theorem Due.upd_none {d : Due} (h : d.upd = none) : d = .nothing := by
  cases d <;> simp_all [Due.upd]

variable {cat : Nat → Str} {tid : Nat → Nat} {s s' : St}

/-- The registry and the log. -/
structure WInv (cat : Nat → Str) (tid : Nat → Nat) (s : St) (c : List Str × List Str) : Prop where
  log : TLog.Reachable true tid s.log
  tp : TpConc.Reachable cat s.tp
  hist : RegConc.Hist s.tp.reg c
  upd : ∀ t u, (s.tp.reg.pc t).updating = some u ↔ s.due t = .running u
  due : ∀ t u, (s.due t).upd = some u →
    (u = .disable ∧ (∃ r sd st, s.log.pc t = .held (.evict r sd) st) ∧
      ∃ b cfg, lastRun s.log.hist = some (b, cfg) ∧ c = cats cfg) ∨
    (u = .update s.log.config.enabled s.log.config.disabled ∧ (s.log.pc t).isEnable = true ∧ Off c)
  en : ∀ t, (s.log.pc t).isEnable = true → s.due t = .nothing → c = cats s.log.config
  on : s.log.enabled = true → ∃ b cfg, lastRun s.log.hist = some (b, cfg) ∧ c = cats cfg
  off : s.log.enabled = false → (∀ t, (s.due t).upd = none ∧ (s.log.pc t).isEnable = false) → Off c

theorem winv_init : WInv cat tid St.init ([], []) where
  log := .init
  tp := .init
  hist := .init
  upd := by intro t u; simp [St.init, TpConc.St.init, RegConc.St.init, RegConc.Pc.updating]
  due := by intro t u h; cases h
  en := by intro t h; cases h
  on := by intro h; cases h
  off := fun _ _ => off_nil

theorem isEnable_holds {p : TLog.Pc Ev} (h : p.isEnable = true) : p.holdsMutex = true := by
  cases e : p.holdsMutex with
  | true => rfl
  | false => rw [(TLog.Pc.stopPhase_holds e).2] at h; cases h

theorem WInv.due_holds {c} (w : WInv cat tid s c) {t : Nat} {u : RegConc.Upd}
    (h : (s.due t).upd = some u) : (s.log.pc t).holdsMutex = true := by
  rcases w.due t u h with ⟨_, ⟨r, sd, st, e⟩, _⟩ | ⟨_, e, _⟩
  · rw [e]; rfl
  · exact isEnable_holds e

/-- A thread holding the mutex is the only one doing anything about the registry. -/
theorem WInv.alone {c} (w : WInv cat tid s c) {t : Nat} (h : (s.log.pc t).holdsMutex = true) :
    ∀ u, u ≠ t → (s.due u).upd = none ∧ (s.log.pc u).isEnable = false := by
  intro u hu
  have hn : ¬ (s.log.pc u).holdsMutex = true := by
    intro h'
    have h1 := (w.log.ctl.own t).2 h
    rw [(w.log.ctl.own u).2 h'] at h1
    exact hu (Option.some.inj h1)
  constructor
  · cases e : (s.due u).upd with
    | none => rfl
    | some x => exact absurd (w.due_holds e) hn
  · cases e : (s.log.pc u).isEnable with
    | false => rfl
    | true => exact absurd (isEnable_holds e) hn

/-- While somebody changes the registry for the log, tracing is off. -/
theorem WInv.due_off {c} (w : WInv cat tid s c) {t : Nat} {u : RegConc.Upd}
    (h : (s.due t).upd = some u) : s.log.enabled = false := by
  rcases w.due t u h with ⟨_, ⟨r, sd, st, e⟩, _⟩ | ⟨_, e, _⟩
  · exact w.log.ctl.off t (by rw [e]; rfl)
  · refine w.log.ctl.off t ?_
    unfold TLog.Pc.isEnable at e
    split at e
    · rename_i e'; rw [e']; rfl
    · cases e

theorem WInv.quiet {c} (w : WInv cat tid s c) {t : Nat} {l' : TLog.St Ev} {ch : TLog.Choice Ev}
    {pend : Nat → List Ev} {due : Nat → Due} (hdue : ∀ u, due u = s.due u)
    (hn : s.log.next true tid t ch = .to l') (en : l'.enabled = s.log.enabled)
    (run : lastRun l'.hist = lastRun s.log.hist) (ie : (l'.pc t).isEnable = (s.log.pc t).isEnable)
    (cfg : l'.config = s.log.config ∨ (s.log.pc t).isEnable = false ∧ (s.log.pc t).holdsMutex = true)
    (hd : s.due t = .nothing) : WInv cat tid ⟨l', s.tp, due, pend⟩ c := by
  have ie' : ∀ u, (l'.pc u).isEnable = (s.log.pc u).isEnable := by
    intro u
    by_cases e : u = t
    · subst e; exact ie
    · rw [TLog.next_pc hn e]
  have cfg' : ∀ u, (s.log.pc u).isEnable = true → l'.config = s.log.config := by
    intro u hu
    rcases cfg with h | ⟨h1, h2⟩
    · exact h
    · by_cases e : u = t
      · subst e; rw [h1] at hu; cases hu
      · rw [(w.alone h2 u e).2] at hu; cases hu
  refine ⟨.step w.log hn, w.tp, w.hist, fun v u => ?_, fun v u hu => ?_, fun v h1 h2 => ?_, fun h => ?_,
    fun h hq => ?_⟩
  · simp only [hdue]; exact w.upd v u
  · simp only [hdue] at hu
    have hv : v ≠ t := by rintro rfl; rw [hd] at hu; cases hu
    rcases w.due v u hu with ⟨a, ⟨r, sd, st, b⟩, b', cf, h1, h2⟩ | ⟨a, b, h⟩
    · exact .inl ⟨a, ⟨r, sd, st, by rw [← b]; exact TLog.next_pc hn hv⟩, b', cf, by rw [← h1]; exact run, h2⟩
    · refine .inr ⟨?_, by rw [ie']; exact b, h⟩
      show u = .update l'.config.enabled l'.config.disabled
      rw [cfg' v b]; exact a
  · simp only [hdue] at h2
    rw [ie'] at h1
    show c = cats l'.config
    rw [cfg' v h1]; exact w.en v h1 h2
  · obtain ⟨b, cf, h1, h2⟩ := w.on (by rw [← en]; exact h)
    exact ⟨b, cf, by rw [← h1]; exact run, h2⟩
  · refine w.off (by rw [← en]; exact h) fun v => ?_
    have := hq v
    simp only [hdue, ie'] at this
    exact this

theorem winv_log {c} (w : WInv cat tid s c) {t : Nat} {l' : TLog.St Ev} {ch : TLog.Choice Ev}
    (hd : s.due t = .nothing) (hn : s.log.next true tid t ch = .to l') :
    WInv cat tid { s with log := l', due := setf s.due t (dueAfter s.log l' t) } c := by
  have other : ∀ u, u ≠ t → l'.pc u = s.log.pc u := fun u hu => TLog.next_pc hn hu
  have lr : TLog.Reachable true tid l' := .step w.log hn
  have updt : ∀ {d : Due}, (∀ u, d ≠ .running u) →
      ∀ v u, (s.tp.reg.pc v).updating = some u ↔ setf s.due t d v = .running u := by
    intro d hnr v u
    by_cases e : v = t
    · subst e
      rw [setf_self, w.upd, hd]
      constructor
      · intro h; cases h
      · intro h; exact absurd h (hnr u)
    · rw [setf_ne _ _ e]; exact w.upd v u
  cases TLog.next_effect hn with
  | quiet en run sub ie cfg nb =>
    have hda : dueAfter s.log l' t = .nothing := by
      unfold dueAfter
      rw [if_neg (by rw [en]; intro h; rw [h.1] at h; cases h.2)]
      split
      · rename_i h1 h2; rw [h1, h2] at ie; cases ie
      · rfl
    refine w.quiet (fun u => ?_) hn en run ie cfg hd
    by_cases e : u = t
    · subst e; rw [setf_self, hda, hd]
    · rw [setf_ne _ _ e]
  | stop en en' run sub pc hm nb =>
    have hda : dueAfter s.log l' t = .want .disable := by
      unfold dueAfter; rw [if_pos ⟨en, en'⟩]
    have al := w.alone hm
    rw [hda]
    obtain ⟨r, sd, st, hp⟩ := pc
    refine ⟨lr, w.tp, w.hist, updt (fun _ h => by cases h), fun v u hu => ?_, fun v h1 h2 => ?_, fun h => ?_, fun h hq => ?_⟩
    · by_cases e : v = t
      · subst e
        simp only [setf_self] at hu
        cases hu
        obtain ⟨b, cf, h1, h2⟩ := w.on en
        exact .inl ⟨rfl, ⟨r, sd, st, hp⟩, b, cf, by rw [← h1]; exact run, h2⟩
      · simp only [setf_ne _ _ e] at hu
        rw [(al v e).1] at hu; cases hu
    · by_cases e : v = t
      · subst e; simp only [hp] at h1; cases h1
      · simp only [other v e] at h1; rw [(al v e).2] at h1; cases h1
    · rw [show ({ s with log := l', due := setf s.due t (.want .disable) } : St).log.enabled = false from en'] at h
      cases h
    · have := (hq t).1
      simp only [setf_self] at this
      cases this
  | create n st hp hp' en hist cfg nb _ =>
    have hoff : s.log.enabled = false := w.log.ctl.off t (by rw [hp]; rfl)
    have hda : dueAfter s.log l' t = .want (.update l'.config.enabled l'.config.disabled) := by
      unfold dueAfter
      rw [if_neg (by rw [hoff]; intro h; cases h.1), hp, hp']
    have al := w.alone (t := t) (by rw [hp]; rfl)
    have hO : Off c := by
      refine w.off hoff fun v => ?_
      by_cases e : v = t
      · subst e; rw [hd, hp]; exact ⟨rfl, rfl⟩
      · exact al v e
    rw [hda]
    refine ⟨lr, w.tp, w.hist, updt (fun _ h => by cases h), fun v u hu => ?_, fun v h1 h2 => ?_, fun h => ?_, fun h hq => ?_⟩
    · by_cases e : v = t
      · subst e
        simp only [setf_self] at hu
        cases hu
        exact .inr ⟨rfl, by show (l'.pc v).isEnable = true; rw [hp']; rfl, hO⟩
      · simp only [setf_ne _ _ e] at hu
        rw [(al v e).1] at hu; cases hu
    · by_cases e : v = t
      · subst e; simp only [setf_self] at h2; cases h2
      · simp only [other v e] at h1; rw [(al v e).2] at h1; cases h1
    · have h' : l'.enabled = true := h
      rw [en, hoff] at h'; cases h'
    · have := (hq t).1
      simp only [setf_self] at this
      cases this
  | enable st hp ie en hist cfg nb =>
    have hda : dueAfter s.log l' t = .nothing := by
      unfold dueAfter
      rw [if_neg (by rw [en]; intro h; cases h.2), hp]
    have al := w.alone (t := t) (by rw [hp]; rfl)
    have hc := w.en t (by rw [hp]; rfl) hd
    rw [hda]
    refine ⟨lr, w.tp, w.hist, updt (fun _ h => by cases h), fun v u hu => ?_, fun v h1 h2 => ?_, fun h => ?_, fun h hq => ?_⟩
    · by_cases e : v = t
      · subst e; simp only [setf_self] at hu; cases hu
      · simp only [setf_ne _ _ e] at hu
        rw [(al v e).1] at hu; cases hu
    · by_cases e : v = t
      · subst e; have h1' : (l'.pc v).isEnable = true := h1; rw [ie] at h1'; cases h1'
      · simp only [other v e] at h1; rw [(al v e).2] at h1; cases h1
    · exact ⟨_, _, by show lastRun l'.hist = _; rw [hist]; rfl, hc⟩
    · have h' : l'.enabled = false := h
      rw [en] at h'; cases h'

theorem winv_step (st : Step cat tid s s') {c} (w : WInv cat tid s c) : ∃ c', WInv cat tid s' c' := by
  cases st with
  | log hd _ _ _ hn => exact ⟨c, winv_log w hd hn⟩
  | call hd hp he st =>
    rename_i t u tp'
    subst he
    refine ⟨c, w.log, w.tp.step st, ?_, fun v x => ?_, fun v x hx => ?_, fun v h1 h2 => ?_, w.on, fun h hq => ?_⟩
    · rcases st.reg' with e | st'
      · rw [e]; exact w.hist
      · refine .other w.hist st' fun v x hx => ?_
        show (RegConc.upd s.tp.reg.pc t _ v).up = _
        by_cases e : v = t
        · subst e; rw [hp] at hx; cases hx
        · rw [RegConc.upd_ne _ _ e]; exact hx
    · show (RegConc.upd s.tp.reg.pc t _ v).updating = _ ↔ setf s.due t _ v = _
      by_cases e : v = t
      · subst e; rw [RegConc.upd_self, setf_self]
        simp [RegConc.Pc.updating]
      · rw [RegConc.upd_ne _ _ e, setf_ne _ _ e]; exact w.upd v x
    · refine w.due v x ?_
      by_cases e : v = t
      · subst e; simp only [setf_self] at hx; rw [hd]; exact hx
      · simp only [setf_ne _ _ e] at hx; exact hx
    · by_cases e : v = t
      · subst e; simp only [setf_self] at h2; cases h2
      · simp only [setf_ne _ _ e] at h2; exact w.en v h1 h2
    · have := (hq t).1
      simp only [setf_self] at this
      cases this
  | finish hd hp hpc hpc' st =>
    rename_i t u tp'
    have hup : (s.tp.reg.pc t).updating = some u := (w.upd t u).2 hd
    have hdu : (s.due t).upd = some u := by rw [hd]; rfl
    have hoff := w.due_off hdu
    have al := w.alone (w.due_holds hdu)
    have h' : RegConc.Hist tp'.reg (u.en, u.dis) := by
      rcases st.reg' with e | st'
      · rw [← e, hp] at hup; cases hup
      · rcases RegConc.upd_step st' hup with ⟨h1, _⟩ | ⟨h1, _⟩
        · rw [hp] at h1; cases h1
        · exact .done w.hist st' h1 (by rw [hp]; rfl)
    have hc : (u.en, u.dis) = cats s.log.config ∧ (s.log.pc t).isEnable = true ∨
        (s.log.pc t).isEnable = false ∧ Off (u.en, u.dis) := by
      rcases w.due t u hdu with ⟨rfl, ⟨r, sd, st, e⟩, _⟩ | ⟨rfl, e, _⟩
      · exact .inr ⟨by rw [e]; rfl, off_disable⟩
      · exact .inl ⟨rfl, e⟩
    refine ⟨(u.en, u.dis), w.log, w.tp.step st, h', fun v x => ?_, fun v x hx => ?_, fun v h1 h2 => ?_, fun h => ?_,
      fun h hq => ?_⟩
    · show (tp'.reg.pc v).updating = _ ↔ setf s.due t _ v = _
      by_cases e : v = t
      · subst e; rw [setf_self, hp]; simp [RegConc.Pc.updating]
      · rw [setf_ne _ _ e, hpc v e]; exact w.upd v x
    · by_cases e : v = t
      · subst e; simp only [setf_self] at hx; cases hx
      · simp only [setf_ne _ _ e] at hx; rw [(al v e).1] at hx; cases hx
    · by_cases e : v = t
      · subst e
        rcases hc with ⟨h, _⟩ | ⟨h, _⟩
        · exact h
        · rw [h] at h1; cases h1
      · rw [(al v e).2] at h1; cases h1
    · have h1 : s.log.enabled = true := h
      rw [hoff] at h1; cases h1
    · rcases hc with ⟨_, h1⟩ | ⟨_, h1⟩
      · have h2 := (hq t).2
        rw [h1] at h2; cases h2
      · exact h1
  | @point tp' st hu _ _ =>
    refine ⟨c, w.log, w.tp.step st, ?_, fun v x => ?_, w.due, w.en, w.on, w.off⟩
    · rcases st.reg' with e | st'
      · rw [e]; exact w.hist
      · exact w.hist.same st' hu
    · show (tp'.reg.pc v).updating = _ ↔ _
      rw [hu v]; exact w.upd v x
  | testOff ht hs he =>
    subst he
    exact ⟨c, w.log, w.tp.step (by rw [← hs]; exact .test ht), w.hist, w.upd, w.due, w.en, w.on, w.off⟩
  | testOn x ht hs he =>
    subst he
    exact ⟨c, w.log, w.tp.step (by rw [← hs]; exact .test ht), w.hist, w.upd, w.due, w.en, w.on, w.off⟩
  | emit _ hd _ _ hn =>
    rename_i t e l'
    have hn' := hn
    rcases TLog.next_fate hn with ⟨e', _, hp, rfl⟩ | ⟨h, _⟩
    · exact ⟨c, w.quiet (fun _ => rfl) hn' rfl rfl (by rw [TLog.goto_pc, hp]; rfl) (.inl rfl) hd⟩
    · exact absurd rfl (h _)

theorem winv (h : Reachable cat tid s) : ∃ c, WInv cat tid s c := by
  induction h with
  | init => exact ⟨_, winv_init⟩
  | step _ st ih => exact ih.elim fun _ w => winv_step st w

end Whole
end Phosphor
