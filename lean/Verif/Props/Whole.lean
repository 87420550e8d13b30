import Verif.Proof.WholeInv
import Verif.Props.TraceLogEvents
/-
C80: only events of enabled categories are recorded. Trace points, registry and log together.
-/
namespace Phosphor.Whole
open TpConc (Follows)
variable {cat : Nat → Str} {tid : Nat → Nat} {s s' : St}

/-- Category list `c` enables group `g`. -/
def Enables (c : TraceConfig) (g : Str) : Prop := GroupEnabled c.enabled c.disabled g

/-- While tracing is on, nobody changes the registry, and it follows the run that is on. -/
theorem WInv.running {c} (w : WInv cat tid s c) (he : s.log.enabled = true) :
    (∀ t, (s.tp.reg.pc t).up = none) ∧
    ∃ b cfg, s.log.buffer = some b ∧ .run b cfg ∈ s.log.hist ∧ c = cats cfg := by
  constructor
  · intro t
    cases e : (s.tp.reg.pc t).up with
    | none => rfl
    | some u =>
      have h1 := (w.upd t u).1 (RegConc.up_updating e)
      have := w.due_off (t := t) (u := u) (by rw [h1]; rfl)
      rw [he] at this; cases this
  · obtain ⟨b, cfg, h1, h2⟩ := w.on he
    refine ⟨b, cfg, ?_, TLog.lastRun_mem h1, h2⟩
    have hc : s.log.creating = false := by
      unfold TLog.St.creating
      split
      · rfl
      · rename_i o _
        cases e : (s.log.pc o).isEnable with
        | false => rfl
        | true =>
          exfalso
          have : s.log.enabled = false := by
            refine w.log.ctl.off o ?_
            unfold TLog.Pc.isEnable at e
            split at e
            · rename_i e'; rw [e']; rfl
            · cases e
          rw [he] at this; cases this
    rw [w.log.hist.buf, hc]
    rw [w.log.hist.en] at he
    show TLog.available s.log.hist = some b
    rw [TLog.available_on w.log.hist.ok he, h1]; rfl

/-- C80: a trace point that tests its category while tracing is on gets the decision of the
configuration of the run that is on, whose buffer the log is filling. -/
theorem C80_test (h : Reachable cat tid s) {t p i : Nat} (ht : s.tp.pc t = .testing p i)
    (he : s.log.enabled = true) :
    ∃ b cfg g, s.log.buffer = some b ∧ .run b cfg ∈ s.log.hist ∧ Follows cat s.tp p g ∧
      (s.tp.reg.statuses i = true ↔ Enables cfg g) := by
  obtain ⟨c, w⟩ := winv h
  obtain ⟨hq, b, cfg, h1, h2, rfl⟩ := w.running he
  obtain ⟨g, h3, h4⟩ := TpConc.status_testing w.tp w.hist ht
  refine ⟨b, cfg, g, h1, h2, h3, ?_⟩
  rcases h4 with h4 | ⟨t', u, h5, _⟩
  · exact h4
  · rw [hq t'] at h5; cases h5

/-- C80: while tracing is off and nobody holds the log's mutex, no trace point finds its category
enabled. -/
theorem C80_off (h : Reachable cat tid s) {t p i : Nat} (ht : s.tp.pc t = .testing p i)
    (he : s.log.enabled = false) (ho : s.log.owner = none) : s.tp.reg.statuses i = false := by
  obtain ⟨c, w⟩ := winv h
  have hn : ∀ v, ¬ (s.log.pc v).holdsMutex = true := by
    intro v hv
    have := (w.log.ctl.own v).2 hv
    rw [ho] at this; cases this
  have hd : ∀ v, (s.due v).upd = none := by
    intro v
    cases e : (s.due v).upd with
    | none => rfl
    | some u => exact absurd (w.due_holds e) (hn v)
  have hO : Off c := by
    refine w.off he fun v => ⟨hd v, ?_⟩
    cases e : (s.log.pc v).isEnable with
    | false => rfl
    | true => exact absurd (isEnable_holds e) (hn v)
  obtain ⟨g, _, h4⟩ := TpConc.status_testing w.tp w.hist ht
  cases e : s.tp.reg.statuses i with
  | false => rfl
  | true =>
    exfalso
    rcases h4 with h4 | ⟨t', u, h5, _⟩
    · exact hO g (h4.1 e)
    · have h6 := (w.upd t' u).1 (RegConc.up_updating h5)
      have := hd t'
      rw [h6] at this; cases this

/-- What is known of an event: its category was enabled by the run in which it was tested, if it
was tested while a run was on, and by a configuration passed to `start` in any case. -/
def EvOk (cat : Nat → Str) (s : St) (e : Ev) : Prop :=
  (∀ b, e.run = some b → ∃ cfg g, .run b cfg ∈ s.log.hist ∧ Follows cat s.tp e.point g ∧ Enables cfg g) ∧
  ∃ cfg g, .configure cfg ∈ s.log.hist ∧ Follows cat s.tp e.point g ∧ Enables cfg g

theorem EvOk.mono {e : Ev} (h : EvOk cat s e) (h1 : ∀ i, i ∈ s.log.hist → i ∈ s'.log.hist)
    (h2 : ∀ g, Follows cat s.tp e.point g → Follows cat s'.tp e.point g) : EvOk cat s' e := by
  obtain ⟨ha, cfg, g, h3, h4, h5⟩ := h
  refine ⟨fun b hb => ?_, cfg, g, h1 _ h3, h2 _ h4, h5⟩
  obtain ⟨cfg, g, h3, h4, h5⟩ := ha b hb
  exact ⟨cfg, g, h1 _ h3, h2 _ h4, h5⟩

theorem not_default {g : Str} (h : Enables { mode := .fixed, size := 0 } g) : False := off_nil g h

theorem WInv.tested {c} (w : WInv cat tid s c) {t p i : Nat} (x : Nat) (ht : s.tp.pc t = .testing p i)
    (hs : s.tp.reg.statuses i = true) :
    EvOk cat s ⟨p, x, if s.log.enabled then s.log.buffer else none⟩ := by
  obtain ⟨g, h3, h4⟩ := TpConc.status_testing w.tp w.hist ht
  have conf : ∀ cfg, cfg = s.log.config → Enables cfg g → .configure cfg ∈ s.log.hist := by
    intro cfg hc hg
    rcases TLog.configOf_mem s.log.hist with h | h
    · exfalso
      rw [hc, w.log.hist.cfg, h] at hg
      exact not_default hg
    · rw [hc, w.log.hist.cfg]; exact h
  have conf' : ∀ b cfg, TLog.lastRun s.log.hist = some (b, cfg) → Enables cfg g →
      .configure cfg ∈ s.log.hist := by
    intro b cfg hl hg
    rcases TLog.run_configured w.log.hist.ok (TLog.lastRun_mem hl) with h | h
    · rw [h] at hg; exact (not_default hg).elim
    · exact h
  constructor
  · intro b hb
    have he : s.log.enabled = true := by
      cases e : s.log.enabled with
      | true => rfl
      | false => simp [e] at hb
    obtain ⟨hq, b', cfg, h1, h2, rfl⟩ := w.running he
    simp only [he, if_true, h1, Option.some.injEq] at hb
    subst hb
    refine ⟨cfg, g, h2, h3, ?_⟩
    rcases h4 with h4 | ⟨t', u, h5, _⟩
    · exact h4.1 hs
    · rw [hq t'] at h5; cases h5
  · rcases h4 with h4 | ⟨t', u, h5, h6⟩
    · have hg := h4.1 hs
      cases he : s.log.enabled with
      | true =>
        obtain ⟨b, cfg, h1, rfl⟩ := w.on he
        exact ⟨cfg, g, conf' b cfg h1 hg, h3, hg⟩
      | false =>
        by_cases hq : ∀ t, (s.due t).upd = none ∧ (s.log.pc t).isEnable = false
        · exact absurd hg (w.off he hq g)
        · obtain ⟨v, hv⟩ := Classical.not_forall.1 hq
          cases hd : (s.due v).upd with
          | some u =>
            rcases w.due v u hd with ⟨_, _, b, cfg, h1, rfl⟩ | ⟨_, _, hO⟩
            · exact ⟨cfg, g, conf' b cfg h1 hg, h3, hg⟩
            · exact absurd hg (hO g)
          | none =>
            have hi : (s.log.pc v).isEnable = true := by
              cases e : (s.log.pc v).isEnable with
              | true => rfl
              | false => exact absurd ⟨hd, e⟩ hv
            have hc := w.en v hi (Due.upd_none hd)
            subst hc
            exact ⟨s.log.config, g, conf _ rfl hg, h3, hg⟩
    · have h7 := (w.upd t' u).1 (RegConc.up_updating h5)
      rcases w.due t' u (by rw [h7]; rfl) with ⟨rfl, _, _⟩ | ⟨rfl, _, _⟩
      · exact absurd (h6.1 hs) (off_disable g)
      · exact ⟨s.log.config, g, conf _ rfl (h6.1 hs), h3, h6.1 hs⟩

/-- Every event anywhere is accounted for. -/
structure Events (cat : Nat → Str) (s : St) : Prop where
  pend : ∀ t e, e ∈ s.pend t → EvOk cat s e
  hand : ∀ t e, (s.log.pc t).event = some e → EvOk cat s e
  stored : ∀ b t e, b < s.log.nextBuf → e ∈ s.log.stored b t → EvOk cat s e

theorem Events.mono (h : Events cat s) (h0 : ∀ t e, e ∈ s'.pend t → e ∈ s.pend t)
    (hl : s'.log = s.log) (h2 : ∀ p g, Follows cat s.tp p g → Follows cat s'.tp p g) : Events cat s' := by
  have mono : ∀ e, EvOk cat s e → EvOk cat s' e := fun e he =>
    he.mono (fun i hi => by rw [hl]; exact hi) (fun g => h2 _ g)
  exact ⟨fun t e he => mono e (h.pend t e (h0 t e he)), fun t e he => mono e (h.hand t e (by rw [← hl]; exact he)),
    fun b t e hb he => mono e (h.stored b t e (by rw [← hl]; exact hb) (by rw [← hl]; exact he))⟩

theorem Effect_sub {l l' : TLog.St Ev} {t : Nat} (h : TLog.Effect t l l') : l.hist <:+ l'.hist := by
  cases h with
  | quiet _ _ sub => exact sub
  | stop _ _ _ sub => exact sub
  | create _ _ _ _ _ hist => rw [hist]; exact List.suffix_refl _
  | enable _ _ _ _ hist => rw [hist]; exact List.suffix_cons _ _

/-- A step of the log that is not the beginning of `logEvent`. -/
theorem events_log (h : Events cat s) {t : Nat} {l' : TLog.St Ev} {ch : TLog.Choice Ev} {due : Nat → Due}
    (hc : ∀ e, ch ≠ .log e) (hn : s.log.next true tid t ch = .to l') :
    Events cat { s with log := l', due := due } := by
  have sub := Effect_sub (TLog.next_effect hn)
  have mono : ∀ e, EvOk cat s e → EvOk cat { s with log := l', due := due } e := fun e he =>
    he.mono (fun i hi => sub.subset hi) (fun _ h => h)
  rcases TLog.next_fate hn with ⟨e, he, _⟩ | ⟨_, hf⟩
  · exact absurd he (hc e)
  have hnb : ∀ b, b < l'.nextBuf → b < s.log.nextBuf ∨ b = s.log.nextBuf ∧ l'.stored b = fun _ => [] := by
    intro b hb
    cases TLog.next_effect hn with
    | quiet _ _ _ _ _ nb => left; omega
    | stop _ _ _ _ _ _ nb => left; omega
    | enable _ _ _ _ _ _ nb => left; omega
    | create _ _ _ _ _ _ _ nb hst =>
      by_cases e : b = s.log.nextBuf
      · right; subst e; exact ⟨rfl, hst⟩
      · left; omega
  refine ⟨fun u e he => mono e (h.pend u e he), fun u e he => ?_, fun b u e hb he => ?_⟩
  · refine mono e (h.hand u e ?_)
    by_cases hu : u = t
    · subst hu
      cases hf with
      | keep he' _ => rw [← he']; exact he
      | store _ _ _ _ _ _ he' _ =>
        have : (l'.pc u).event = some e := he
        rw [he'] at this; cases this
      | drop _ he' _ =>
        have : (l'.pc u).event = some e := he
        rw [he'] at this; cases this
    · rw [← TLog.next_pc hn hu]; exact he
  · have he : e ∈ l'.stored b u := he
    rcases hnb b hb with hb | ⟨_, hb⟩
    · cases hf with
      | keep _ hst => rw [hst b (by omega)] at he; exact mono e (h.stored b u e hb he)
      | drop _ _ hst => rw [hst] at he; exact mono e (h.stored b u e hb he)
      | store e' b' i hp _ _ _ hst =>
        rw [hst] at he
        by_cases e1 : b = b'
        · subst e1
          rw [setf_self] at he
          by_cases e2 : u = t
          · subst e2
            rw [setf_self] at he
            rcases List.mem_append.1 he with he | he
            · exact mono e (h.stored b u e hb he)
            · obtain rfl := List.mem_singleton.1 he
              exact mono e (h.hand u e (by rw [hp]; rfl))
          · rw [setf_ne _ _ e2] at he; exact mono e (h.stored b u e hb he)
        · rw [setf_ne _ _ e1] at he; exact mono e (h.stored b u e hb he)
    · rw [hb] at he; cases he

theorem events (h : Reachable cat tid s) : Events cat s := by
  induction h with
  | init =>
    exact ⟨fun _ _ h => (by cases h), fun _ _ h => (by cases h), fun _ _ _ _ h => (by cases h)⟩
  | step hr st ih =>
    obtain ⟨c, w⟩ := winv hr
    cases st with
    | log _ _ _ hc hn => exact events_log ih hc hn
    | call _ _ _ st => exact ih.mono (fun _ _ h => h) rfl (fun _ _ => Follows.step w.tp st)
    | finish _ _ _ _ st => exact ih.mono (fun _ _ h => h) rfl (fun _ _ => Follows.step w.tp st)
    | point st _ _ _ => exact ih.mono (fun _ _ h => h) rfl (fun _ _ => Follows.step w.tp st)
    | testOff ht hs he => subst he; exact ih.mono (fun _ _ h => h) rfl (fun _ _ h => h)
    | testOn x ht hs he =>
      rename_i s t p i tp'
      subst he
      have new := w.tested x ht hs
      refine ⟨fun u e hu => ?_, fun u e hu => (ih.hand u e hu).mono (fun _ h => h) (fun _ h => h),
        fun b u e hb hu => (ih.stored b u e hb hu).mono (fun _ h => h) (fun _ h => h)⟩
      simp only at hu
      by_cases e1 : u = t
      · subst e1
        rw [setf_self] at hu
        rcases List.mem_cons.1 hu with rfl | hu
        · exact new.mono (fun _ h => h) (fun _ h => h)
        · exact (ih.pend u e hu).mono (fun _ h => h) (fun _ h => h)
      · rw [setf_ne _ _ e1] at hu
        exact (ih.pend u e hu).mono (fun _ h => h) (fun _ h => h)
    | @emit t e l' hm _ _ _ hn =>
      rcases TLog.next_fate hn with ⟨e', h1, hp, rfl⟩ | ⟨h1, _⟩
      · cases h1
        refine ⟨fun u x hu => ?_, fun u x hu => ?_,
          fun b u x hb hu => (ih.stored b u x hb hu).mono (fun _ h => h) (fun _ h => h)⟩
        · simp only at hu
          by_cases e1 : u = t
          · subst e1
            rw [setf_self] at hu
            exact (ih.pend u x (List.mem_of_mem_erase hu)).mono (fun _ h => h) (fun _ h => h)
          · rw [setf_ne _ _ e1] at hu
            exact (ih.pend u x hu).mono (fun _ h => h) (fun _ h => h)
        · simp only at hu
          by_cases e1 : u = t
          · subst e1
            rw [TLog.goto_pc] at hu
            obtain rfl := Option.some.inj hu
            exact (ih.pend u _ hm).mono (fun _ h => h) (fun _ h => h)
          · rw [TLog.goto_other _ _ _ _ e1] at hu
            exact (ih.hand u x hu).mono (fun _ h => h) (fun _ h => h)
      · exact absurd rfl (h1 _)

/-- C80: every event read from a buffer belongs to a category (or, if the registry was full, to the
overflow group) that is enabled by the run of that buffer, if it was that run during which the
category was tested; and that is enabled by some configuration passed to `start`, in any case. -/
theorem C80_recorded_partial (h : Reachable cat tid s) {b : Nat} (hb : s.log.status b ≠ .unborn) :
    ∃ evs, TLog.Reads (s.log.heap b) evs ∧ ∀ e i, (e, i) ∈ evs →
      (e.run = some b → ∃ cfg g, .run b cfg ∈ s.log.hist ∧ Follows cat s.tp e.point g ∧ Enables cfg g) ∧
      ∃ cfg g, .configure cfg ∈ s.log.hist ∧ Follows cat s.tp e.point g ∧ Enables cfg g := by
  obtain ⟨c, w⟩ := winv h
  obtain ⟨evs, h1, h2⟩ := TLog.C48_read_sound w.log b
  refine ⟨evs, h1, fun e i he => ?_⟩
  obtain ⟨t, _, h3⟩ := h2 e i he
  have hlt : b < s.log.nextBuf := by
    rcases Nat.lt_or_ge b s.log.nextBuf with hn | hn
    · exact hn
    · exact absurd ((w.log.ctl.fresh b).2 hn) hb
  obtain ⟨h4, h5⟩ := (events h).stored b t e hlt h3
  exact ⟨h4 b, h5⟩

/-- C80: nothing is decided to be logged, in hand or recorded unless some configuration enabled its
category. -/
theorem C80_some_run (h : Reachable cat tid s) {e : Ev}
    (he : (∃ t, e ∈ s.pend t) ∨ ∃ t, (s.log.pc t).event = some e) :
    ∃ cfg g, .configure cfg ∈ s.log.hist ∧ Follows cat s.tp e.point g ∧ Enables cfg g := by
  rcases he with ⟨t, he⟩ | ⟨t, he⟩
  · exact ((events h).pend t e he).2
  · exact ((events h).hand t e he).2

end Phosphor.Whole
