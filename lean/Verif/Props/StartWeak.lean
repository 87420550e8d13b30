import Verif.Props.ProgressWeak
/-
C107: when a start or a stop takes effect, under the memory orders of the source. Reads of `enabled`
are acquire loads with no lock, so a thread may read an old value after a start or a stop by another
thread. It does not if it knows of it: if it made the call itself, if it has had the mutex of the log
since, or if it was told by a thread that knows.
-/
namespace Phosphor.TLog.W
open Phosphor.Weak

/-- Thread `t` knows the newest value of `enabled`. -/
def Knows (w : St) (t : Nat) : Prop := ∀ ts m, w.mem.hist .en ts = some m → ts ≤ (w.mem.view t).ts .en

/-- An execution in which tracing stays on. -/
inductive On : St → St → Prop
  | refl {w} : On w w
  | step {w w' w''} : On w w' → Step true w' w'' → ¬ w''.off → On w w''

section
variable (μ : Mem Loc Nat Plain) (t : Nat)
theorem vm_read (d : Plain) (u : Nat) : VLe (μ.view u) ((μ.read t d).view u) := vle_setf (vle_tick _ _) u
theorem vm_write (d : Plain) (u : Nat) : VLe (μ.view u) ((μ.write t d).view u) := vle_setf (vle_tick _ _) u
theorem vm_other (u : Nat) : VLe (μ.view u) ((μ.other t).view u) := vle_setf (vle_tick _ _) u
theorem vm_all (P : Plain → Bool) (u : Nat) : VLe (μ.view u) ((writeAll μ t P).view u) := vle_setf (vle_tick _ _) u
theorem vm_learn (v : View Loc) (u : Nat) : VLe (μ.view u) ((learn μ t v).view u) := vle_setf (vle_left _ _) u
theorem vm_load (l : Loc) (ts : Nat) (m : Msg Loc Nat) (u : Nat) : VLe (μ.view u) ((μ.loadAcq t l ts m).view u) :=
  vle_setf ((vle_see _ _ _).trans (vle_left _ _)) u
theorem vm_store (l : Loc) (ts v : Nat) (u : Nat) : VLe (μ.view u) ((μ.storeRel t l ts v).view u) :=
  vle_setf (vle_see _ _ _) u
theorem vm_rmw (l : Loc) (ts : Nat) (m : Msg Loc Nat) (v : Nat) (u : Nat) :
    VLe (μ.view u) ((μ.rmwAcqRel t l ts m v).view u) := vle_setf ((vle_see _ _ _).trans (vle_left _ _)) u
end

/-- Threads do not forget. -/
theorem step_view {pol : Bool} {w w' : St} (hs : Step pol w w') (u : Nat) : VLe (w.mem.view u) (w'.mem.view u) := by
  cases hs with
  | exchangeOn => exact (vm_rmw _ _ _ _ _ _ _).trans (vm_read _ _ _ _)
  | turnOn => exact (vm_write _ _ _ _).trans (vm_store _ _ _ _ _ _)
  | reuse => exact (vm_read _ _ _ _).trans (vm_learn _ _ _ _)
  | _ =>
    first
    | exact VLe.refl _
    | exact vm_other _ _ _
    | exact vm_read _ _ _ _
    | exact vm_write _ _ _ _
    | exact vm_load _ _ _ _ _ _
    | exact vm_store _ _ _ _ _ _
    | exact vm_rmw _ _ _ _ _ _ _
    | exact vm_learn _ _ _ _
    | exact vm_all _ _ _ _
    | exact (vm_read _ _ _ _).trans (vm_read _ _ _ _)
    | exact (vm_read _ _ _ _).trans (vm_write _ _ _ _)
    | exact ((vm_read _ _ _ _).trans (vm_read _ _ _ _)).trans (vm_read _ _ _ _)

/-- While tracing stays on nothing is stored to `enabled`. -/
theorem on_hist {w w' : St} (h : Reachable true w) (ho : ¬ w.off) (hs : Step true w w') (ho' : ¬ w'.off) :
    w'.mem.hist .en = w.mem.hist .en := by
  obtain ⟨g, hg⟩ := inv_reachable h
  obtain ⟨g', hg'⟩ := inv_reachable (h.step hs)
  have hon : g.on = true := by
    cases e : g.on with
    | true => rfl
    | false => exact absurd (hg.isOff e) ho
  have hon' : g'.on = true := by
    cases e : g'.on with
    | true => rfl
    | false => exact absurd (hg'.isOff e) ho'
  cases hs with
  | extStore => funext i; simp [Mem.storeRel, Mem.add]
  | @exchangeOff t k d ts m hq hre hn h0 =>
    exfalso
    have hM : M w t := (hg.here (μ := w.mem) (w := w) hq).1
    obtain ⟨v, h2, -⟩ := hg.enTop
    have h3 := hre.1
    rw [newest hg hM.1 hre, h2] at h3
    injection h3 with this
    rw [← this, hon] at h0
    cases h0
  | @exchangeOn t k d ts m hq hre hn h0 =>
    exfalso
    have hp := hg'.pcs t
    rw [show St.pc _ t = .evict k d from by simp [St.goto, setf]] at hp
    have := hp.2.1
    rw [hon'] at this; cases this
  | @turnOn t d ts hq hf =>
    exfalso
    have h1 := (hg.here (μ := w.mem) (w := w) hq).2.2.1
    rw [hon] at h1; cases h1
  | _ => rfl

/-- C107: the thread that has the mutex of the log knows the newest value of `enabled`: it made the
last change itself or got the mutex after the one that did. -/
theorem C107_holder {w : St} (h : Reachable true w) {t : Nat} (hm : w.mutex = some t) : Knows w t := by
  obtain ⟨g, hg⟩ := inv_reachable h
  intro ts m hx
  have h1 := hg.enKnow
  rw [mv_some hm] at h1
  exact Nat.le_trans (hg.enMax _ _ hx) h1

/-- C107: and so does a thread that reads a value that one that knows has stored in some other atomic
variable. -/
theorem C107_passed {w : St} {t n ts : Nat} {m : Msg Loc Nat}
    (hk : ∀ ts' m', w.mem.hist .en ts' = some m' → ts' ≤ m.view.ts .en) :
    Knows { w with mem := w.mem.loadAcq t (.ext n) ts m } t := by
  intro ts' m' hx
  refine Nat.le_trans (hk ts' m' hx) ?_
  show _ ≤ (setf w.mem.view t _ t).ts .en
  rw [setf_self]
  exact Nat.le_max_right _ _

/-- C107: what it stores says so. -/
theorem C107_tells {w : St} {t n ts v : Nat} (hk : Knows w t) :
    ∃ m, (w.mem.storeRel t (.ext n) ts v).hist (.ext n) ts = some m ∧
      ∀ ts' m', (w.mem.storeRel t (.ext n) ts v).hist .en ts' = some m' → ts' ≤ m.view.ts .en := by
  refine ⟨_, if_pos ⟨rfl, rfl⟩, fun ts' m' hx => ?_⟩
  have hx : w.mem.hist .en ts' = some m' := by simpa [Mem.storeRel, Mem.add] using hx
  exact Nat.le_trans (hk ts' m' hx) ((vle_see _ _ _).1 _)

theorem on_keeps {w w' : St} (h : Reachable true w) (ho : ¬ w.off) (r : On w w') :
    Reachable true w' ∧ ¬ w'.off ∧ w'.mem.hist .en = w.mem.hist .en ∧ ∀ t, VLe (w.mem.view t) (w'.mem.view t) := by
  induction r with
  | refl => exact ⟨h, ho, rfl, fun _ => VLe.refl _⟩
  | step _ hs hn ih =>
    obtain ⟨a, b, c, d⟩ := ih
    exact ⟨a.step hs, hn, (on_hist a b hs hn).trans c, fun t => (d t).trans (step_view hs t)⟩

/-- C107: a start takes effect at once for a thread that knows of it: as long as tracing stays on,
whatever the thread reads from `enabled`, it reads that tracing is on. -/
theorem C107_start {w w' : St} (h : Reachable true w) (ho : ¬ w.off) {t : Nat} (hk : Knows w t) (r : On w w')
    {ts : Nat} {m : Msg Loc Nat} (hr : w'.mem.readable t .en ts m) : m.val ≠ 0 := by
  obtain ⟨-, -, hh, hv⟩ := on_keeps h ho r
  intro h0
  refine ho ⟨ts, m, by rw [← hh]; exact hr.1, h0, fun ts' m' hx => ?_⟩
  exact Nat.le_trans (hk ts' m' hx) (Nat.le_trans ((hv t).1 _) hr.2)

/-- Values of `enabled` from `ts` on are `false`. -/
def OffFrom (w : St) (a : Nat) : Prop := ∀ ts m, w.mem.hist .en ts = some m → a ≤ ts → m.val = 0

theorem off_from {w w' : St} (h : Reachable true w) (ho : w.off) (r : Off w w') {a : Nat} (ha : OffFrom w a) :
    Reachable true w' ∧ w'.off ∧ OffFrom w' a ∧ ∀ t, VLe (w.mem.view t) (w'.mem.view t) := by
  induction r with
  | refl => exact ⟨h, ho, ha, fun _ => VLe.refl _⟩
  | @step w1 w2 _ hs hn ih =>
    obtain ⟨a1, b, c, d⟩ := ih
    refine ⟨a1.step hs, hn, ?_, fun t => (d t).trans (step_view hs t)⟩
    obtain ⟨g, hg⟩ := inv_reachable a1
    obtain ⟨g', hg'⟩ := inv_reachable (a1.step hs)
    have hoff := hg.off b
    have hoff' := hg'.off hn
    cases hs with
    | extStore =>
      intro ts m hx
      exact c ts m (by simpa [Mem.storeRel, Mem.add] using hx)
    | @exchangeOff t k d ts m hq hre hn h0 =>
      intro ts' m' hx hl
      by_cases e : ts' = ts + 1
      · subst e
        have : some _ = some m' := (if_pos ⟨rfl, rfl⟩ : _ = some _).symm.trans hx
        injection this with this; rw [← this]
      · exact c ts' m' (by simpa [St.goto, Mem.rmwAcqRel, Mem.add, e] using hx) hl
    | @exchangeOn t k d ts m hq hre hn h0 =>
      exfalso
      have hM : M w1 t := (hg.here (μ := w1.mem) (w := w1) hq).1
      obtain ⟨v, h2, -⟩ := hg.enTop
      have h3 := hre.1
      rw [newest hg hM.1 hre, h2] at h3
      injection h3 with this
      rw [← this, hoff] at h0
      exact h0 rfl
    | @turnOn t d ts hq hf =>
      exfalso
      have hM : M w1 t := (hg.here (μ := w1.mem) (w := w1) hq).1
      obtain ⟨ts', m', h1, h2, h3⟩ := hn
      have h4 := h3 ts _ (if_pos ⟨rfl, rfl⟩)
      have h5 : ts' ≠ ts := by
        rintro rfl
        have : some _ = some m' := (if_pos ⟨rfl, rfl⟩ : _ = some _).symm.trans h1
        injection this with this; rw [← this] at h2; cases h2
      have h6 : w1.mem.hist .en ts' = some m' := by simpa [St.goto, Mem.storeRel, Mem.add, Mem.write, h5] using h1
      have h7 := C107_holder a1 hM.1 _ _ h6
      have h8 := hf.2
      omega
    | _ => exact c

/-- C107: a stop takes effect at once for a thread that knows of it: until tracing is started again it reads
that tracing is off. -/
theorem C107_stop {w w' : St} (h : Reachable true w) (ho : w.off) {t : Nat} (hk : Knows w t) (r : Off w w')
    {ts : Nat} {m : Msg Loc Nat} (hr : w'.mem.readable t .en ts m) : m.val = 0 := by
  obtain ⟨top, m0, h1, h2, h3⟩ := ho
  have ha : OffFrom w top := by
    intro ts m hx hl
    have := Nat.le_antisymm (h3 _ _ hx) hl
    subst this
    rw [h1] at hx; cases hx; exact h2
  obtain ⟨-, -, hh, hv⟩ := off_from h ⟨top, m0, h1, h2, h3⟩ r ha
  exact hh ts m hr.1 (Nat.le_trans (hk _ _ h1) (Nat.le_trans ((hv t).1 _) hr.2))

/-! ### Cases that meet the hypotheses, and why the thread must know -/

/-- Thread 0 has started tracing and still has the mutex; thread 1 can still read that tracing is off. -/
theorem exStarted : ∃ w : St, Reachable true w ∧ ¬ w.off ∧ w.mutex = some 0 ∧ w.pc 0 = .crit 0 ∧ w.pc 1 = .idle ∧
    (∃ m, w.mem.readable 1 .en 0 m ∧ m.val = 0) ∧ (∃ m, w.mem.readable 0 .en 1 m ∧ m.val = 1 ∧ w.mem.hist .en 2 = none) := by
  have r := Reachable.init (pol := true)
  have r := r.step (.lockM (t := 0) rfl rfl)
  have r := r.step (.start (t := 0) rfl (fun _ => rfl))
  have r := r.step (.startOff (t := 0) (ts := 0) rfl ⟨rfl, by decide⟩ rfl)
  have r := r.step (.newBuf (t := 0) true 2 rfl)
  have r := r.step (.turnOn (t := 0) (ts := 1) rfl ⟨rfl, by decide⟩)
  refine ⟨_, r, ?_, rfl, rfl, rfl, ⟨_, ⟨rfl, by decide⟩, rfl⟩, ⟨_, ⟨rfl, by decide⟩, rfl, rfl⟩⟩
  rintro ⟨ts, m, h1, h2, h3⟩
  have h4 := h3 1 _ rfl
  by_cases e : ts = 1
  · subst e
    have : some _ = some m := (rfl : _ = some _).symm.trans h1
    injection this with this; rw [← this] at h2; cases h2
  · have e0 : ts ≠ 0 := by omega
    simp [St.goto, Mem.storeRel, Mem.add, Mem.write, writeAll, Mem.loadAcq, learn, St.init, Mem.init, e, e0] at h1

/-- C107: a thread that does not know of a start may still drop its events: it can read that tracing is
off although it is on. -/
theorem C107_refuted_unknown : ∃ w w' : St, Reachable true w ∧ ¬ w.off ∧ ¬ Knows w 1 ∧ Step true w w' ∧
    w' = w.goto 1 .idle w'.mem := by
  obtain ⟨w, r, ho, -, -, h1, ⟨m, hm, h0⟩, -⟩ := exStarted
  refine ⟨w, _, r, ho, fun hk => ?_, .logOff h1 hm h0, rfl⟩
  exact C107_start r ho hk .refl hm h0

/-- C107: and one that does not know of a stop may still read that tracing is on. -/
theorem C107_refuted_stale : ∃ w : St, Reachable true w ∧ w.off ∧ ¬ Knows w 1 ∧
    ∃ ts m, w.mem.readable 1 .en ts m ∧ m.val ≠ 0 := by
  obtain ⟨w, r, -, hm, hq, -, ⟨m0, hm0, -⟩, ⟨m, hm1, hv, hn⟩⟩ := exStarted
  have r := r.step (.stop (t := 0) hq)
  have r := r.step (.exchangeOn (t := 0) (k := false) (d := 0) (ts := 1) (m := m) (by simp [St.goto, setf]) hm1 hn (by rw [hv]; decide))
  obtain ⟨g, hg⟩ := inv_reachable r
  have hp := hg.pcs 0
  rw [show St.pc _ 0 = .evict false 0 from by simp [St.goto, setf]] at hp
  have hoff := hg.isOff hp.2.1
  refine ⟨_, r, hoff, fun hk => ?_, 1, m, ⟨hm1.1, Nat.le_trans hm0.2 (by decide)⟩, by rw [hv]; decide⟩
  have := C107_stop r hoff hk .refl (ts := 1) (m := m) ⟨hm1.1, Nat.le_trans hm0.2 (by decide)⟩
  rw [hv] at this; cases this

end Phosphor.TLog.W
