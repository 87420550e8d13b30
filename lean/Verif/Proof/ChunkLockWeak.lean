import Verif.Model.ChunkLockWeak
import Verif.Proof.Weak
namespace Phosphor.ChunkLock.W
open Phosphor.Weak

/-- `v` knows no more than `v'`. -/
def Le (v v' : View Loc) : Prop := (∀ l, v.ts l ≤ v'.ts l) ∧ ∀ u, v.clk u ≤ v'.clk u

theorem Le.refl (v : View Loc) : Le v v := ⟨fun _ => Nat.le_refl _, fun _ => Nat.le_refl _⟩
theorem Le.trans {a b c : View Loc} (h : Le a b) (h' : Le b c) : Le a c :=
  ⟨fun l => Nat.le_trans (h.1 l) (h'.1 l), fun u => Nat.le_trans (h.2 u) (h'.2 u)⟩
theorem le_see (v : View Loc) (l : Loc) (ts : Nat) : Le v (v.see l ts) :=
  ⟨fun _ => see_ts _ _ _ _, fun _ => Nat.le_refl _⟩
theorem le_join_left (v v' : View Loc) : Le v (v.join v') :=
  ⟨fun _ => Nat.le_max_left _ _, fun _ => Nat.le_max_left _ _⟩
theorem le_join_right (v v' : View Loc) : Le v' (v.join v') :=
  ⟨fun _ => Nat.le_max_right _ _, fun _ => Nat.le_max_right _ _⟩
theorem le_tick (v : View Loc) (t : Nat) : Le v (v.tick t) :=
  ⟨fun _ => Nat.le_refl _, fun _ => tick_clk _ _ _⟩

/-- The knowledge that goes with the lock: that of the holder, or of the message that released
it last. -/
def LView (w : St) (top : Nat) (v : View Loc) : Prop :=
  (∃ t, Holds w t ∧ v = w.mem.view t) ∨
  ((∀ t, ¬ Holds w t) ∧ ∃ m, w.mem.hist .lock top = some m ∧ v = m.view)

/-- Invariant. `top` is the timestamp of the newest message of the lock word. -/
structure Inv (w : St) (top : Nat) : Prop where
  le : ∀ ts m, w.mem.hist .lock ts = some m → ts ≤ top
  topMsg : ∃ m, w.mem.hist .lock top = some m ∧
    (m.val = .unlocked ↔ ∀ t, ¬ Holds w t)
  free : ∀ ts m, w.mem.hist .lock ts = some m → m.val = .unlocked → ts < top →
    w.mem.hist .lock (ts + 1) ≠ none
  one : ∀ t u, Holds w t → Holds w u → t = u
  held : ∀ t, Holds w t → top ≤ (w.mem.view t).ts .lock ∧
    ∀ m, w.mem.hist .lock top = some m → some m.val = heldState (w.pc t)
  data : ∀ v, LView w top v → ∀ u, w.mem.wr () u ≤ v.clk u ∧ w.mem.rd () u ≤ v.clk u

theorem inv_init : Inv St.init 0 where
  le := by
    intro ts m h
    simp only [St.init, Mem.init] at h
    split at h
    · omega
    · cases h
  topMsg := ⟨_, rfl, by simp [Holds, St.init]⟩
  free := by intro ts m _ _ h; omega
  one := by intro t u h; simp [Holds, St.init] at h
  held := by intro t h; simp [Holds, St.init] at h
  data := by intro v _ u; exact ⟨Nat.zero_le _, Nat.zero_le _⟩

/-- A step that changes views and perhaps the messages of other locations, but not the lock word,
the protected location, or who holds the lock. -/
theorem Inv.keep {w w' : St} {top : Nat} (h : Inv w top)
    (hh : w'.mem.hist .lock = w.mem.hist .lock) (hwr : w'.mem.wr = w.mem.wr)
    (hrd : w'.mem.rd = w.mem.rd) (hpc : ∀ t, Holds w t ∨ Holds w' t → w'.pc t = w.pc t)
    (hv : ∀ t, Le (w.mem.view t) (w'.mem.view t)) :
    Inv w' top ∧ ∀ v, LView w top v → ∃ v', LView w' top v' ∧ Le v v' := by
  have hiff : ∀ t, Holds w' t ↔ Holds w t := by
    intro t
    constructor
    · intro h1; have := hpc t (.inr h1); unfold Holds at h1 ⊢; rw [← this]; exact h1
    · intro h1; have := hpc t (.inl h1); unfold Holds at h1 ⊢; rw [this]; exact h1
  have hl : ∀ v, LView w top v → ∃ v', LView w' top v' ∧ Le v v' := by
    rintro v (⟨t, h1, rfl⟩ | ⟨h1, m, h2, rfl⟩)
    · exact ⟨_, .inl ⟨t, (hiff t).2 h1, rfl⟩, hv t⟩
    · exact ⟨_, .inr ⟨fun t ht => h1 t ((hiff t).1 ht), m, by rw [hh]; exact h2, rfl⟩, Le.refl _⟩
  refine ⟨⟨?_, ?_, ?_, ?_, ?_, ?_⟩, hl⟩
  · rw [hh]; exact h.le
  · rw [hh]; obtain ⟨m, h1, h2⟩ := h.topMsg
    exact ⟨m, h1, h2.trans ⟨fun h t ht => h t ((hiff t).1 ht), fun h t ht => h t ((hiff t).2 ht)⟩⟩
  · rw [hh]; exact h.free
  · intro t u ht hu; exact h.one t u ((hiff t).1 ht) ((hiff u).1 hu)
  · intro t ht
    rw [hh, hpc t (.inr ht)]
    have := h.held t ((hiff t).1 ht)
    exact ⟨Nat.le_trans this.1 ((hv t).1 _), this.2⟩
  · rintro v hv' u
    rw [hwr, hrd]
    rcases hv' with ⟨t, h1, rfl⟩ | ⟨h1, m, h2, rfl⟩
    · have := h.data _ (.inl ⟨t, (hiff t).1 h1, rfl⟩) u
      exact ⟨Nat.le_trans this.1 ((hv t).2 u), Nat.le_trans this.2 ((hv t).2 u)⟩
    · rw [hh] at h2
      exact h.data _ (.inr ⟨fun t ht => h1 t ((hiff t).2 ht), m, h2, rfl⟩) u

theorem le_setf {μ : Nat → View Loc} {t : Nat} {v : View Loc} (h : Le (μ t) v) (u : Nat) :
    Le (μ u) (setf μ t v u) := by
  by_cases e : u = t
  · subst e; rw [setf_self]; exact h
  · rw [setf_ne _ _ e]; exact Le.refl _

theorem not_holds_setf {w : St} {μ : Mem Loc State Unit} {t : Nat} {q : Pc}
    (h1 : ¬ Holds w t) (h2 : q ≠ .heldS) (h3 : q ≠ .heldM) (u : Nat) :
    Holds w u ∨ Holds ⟨μ, setf w.pc t q⟩ u → setf w.pc t q u = w.pc u := by
  by_cases e : u = t
  · subst e
    rintro (h | h)
    · exact absurd h h1
    · simp only [Holds, setf_self] at h
      rcases h with h | h
      · exact absurd h h2
      · exact absurd h h3
  · intro _; rw [setf_ne _ _ e]

/-- The holder uses the protected location. -/
theorem Inv.access {w w' : St} {top t : Nat} (h : Inv w top) (ht : Holds w t)
    (hh : w'.mem.hist = w.mem.hist) (hpc : w'.pc = w.pc)
    (hv : w'.mem.view = setf w.mem.view t ((w.mem.view t).tick t))
    (hacc : ∀ u, (w'.mem.wr () u ≤ max (w.mem.wr () u) (((w.mem.view t).tick t).clk u)) ∧
      (w'.mem.rd () u ≤ max (w.mem.rd () u) (((w.mem.view t).tick t).clk u))) :
    Inv w' top ∧ ∀ v, LView w top v → ∃ v', LView w' top v' ∧ Le v v' := by
  have hiff : ∀ t, Holds w' t ↔ Holds w t := by intro t; unfold Holds; rw [hpc]
  have hle : ∀ u, Le (w.mem.view u) (w'.mem.view u) := by
    intro u; rw [hv]; exact le_setf (le_tick _ _) u
  have hl : ∀ v, LView w top v → ∃ v', LView w' top v' ∧ Le v v' := by
    rintro v (⟨a, h1, rfl⟩ | ⟨h1, _⟩)
    · exact ⟨_, .inl ⟨a, (hiff a).2 h1, rfl⟩, hle a⟩
    · exact absurd ht (h1 t)
  refine ⟨⟨?_, ?_, ?_, ?_, ?_, ?_⟩, hl⟩
  · rw [hh]; exact h.le
  · rw [hh]; obtain ⟨m, h1, h2⟩ := h.topMsg
    exact ⟨m, h1, h2.trans ⟨fun h t ht => h t ((hiff t).1 ht), fun h t ht => h t ((hiff t).2 ht)⟩⟩
  · rw [hh]; exact h.free
  · intro t u ht hu; exact h.one t u ((hiff t).1 ht) ((hiff u).1 hu)
  · intro a ha
    rw [hh, hpc]
    have := h.held a ((hiff a).1 ha)
    exact ⟨Nat.le_trans this.1 ((hle a).1 _), this.2⟩
  · rintro v (⟨a, h1, rfl⟩ | ⟨h1, _⟩) u
    · have e := h.one a t ((hiff a).1 h1) ht; subst e
      rw [hv, setf_self]
      have h2 := h.data _ (.inl ⟨a, ht, rfl⟩) u
      have h3 := tick_clk (w.mem.view a) a u
      have h4 := hacc u
      omega
    · exact absurd ((hiff t).2 ht) (h1 t)

theorem add_hist_lock (μ : Mem Loc State Unit) (l : Loc) (ts : Nat) (m : Msg Loc State) (i : Nat) :
    (μ.add l ts m).hist .lock i = if Loc.lock = l ∧ i = ts then some m else μ.hist .lock i := rfl

/-- An acquisition: the lock word gets a message right after the one that was read. -/
theorem Inv.acquire {w : St} {top t ts : Nat} {d : State} {q : Pc} {m : Msg Loc State}
    (h : Inv w top) (hex : exchange (w.pc t) = some (d, q)) (hr : w.mem.readable t .lock ts m)
    (hm : m.val = .unlocked) (hf : w.mem.hist .lock (ts + 1) = none) :
    let w' : St := ⟨w.mem.rmwAcqRel t .lock ts m d, setf w.pc t q⟩
    Inv w' (top + 1) ∧ ∀ v, LView w top v → ∃ v', LView w' (top + 1) v' ∧ Le v v' := by
  intro w'
  have hts : ts = top := by
    have := h.le ts m hr.1
    apply Classical.byContradiction; intro hne
    exact h.free ts m hr.1 hm (by omega) hf
  subst hts
  obtain ⟨m', hm', hm2⟩ := h.topMsg
  rw [hr.1] at hm'; cases hm'
  have hno := hm2.1 hm
  have hq : some d = heldState q ∧ (q = .heldS ∨ q = .heldM) ∧ d ≠ .unlocked := by
    cases hp : w.pc t <;> rw [hp] at hex <;> simp only [exchange] at hex <;> cases hex <;>
      simp [heldState]
  have hold : ∀ u, Holds w' u ↔ u = t := by
    intro u
    by_cases e : u = t
    · subst e; simp only [Holds, w', setf_self, iff_true]; exact hq.2.1
    · simp only [Holds, w', setf_ne _ _ e, e, iff_false]; exact hno u
  have hview : w'.mem.view t = ((w.mem.view t).see .lock (ts + 1)).join m.view := by
    show setf w.mem.view t _ t = _
    rw [setf_self]
  have hhist : ∀ i, w'.mem.hist .lock i = if i = ts + 1 then
      some ⟨d, ((w.mem.view t).see .lock (ts + 1)).join m.view⟩ else w.mem.hist .lock i := by
    intro i
    show (if Loc.lock = Loc.lock ∧ i = ts + 1 then _ else _) = _
    simp only [true_and]
  refine ⟨⟨?_, ?_, ?_, ?_, ?_, ?_⟩, ?_⟩
  · intro i mi; rw [hhist]; split
    · intro _; omega
    · intro hi; have := h.le i mi hi; omega
  · refine ⟨_, by rw [hhist, if_pos rfl], ?_⟩
    simp only [hq.2.2, false_iff]
    intro hn; exact hn t ((hold t).2 rfl)
  · intro i mi hi hv hlt
    rw [hhist]; split
    · simp
    · rw [hhist, if_neg (by omega)] at hi
      have := h.le i mi hi
      exact h.free i mi hi hv (by omega)
  · intro a b ha hb; rw [(hold a).1 ha, (hold b).1 hb]
  · intro a ha
    have e := (hold a).1 ha; subst e
    refine ⟨?_, ?_⟩
    · rw [hview]; exact Nat.le_trans (see_self _ _ _) (join_ts_left _ _ _)
    · intro mi hi; rw [hhist, if_pos rfl] at hi; cases hi
      show some d = heldState (setf w.pc a q a)
      rw [setf_self]; exact hq.1
  · rintro v (⟨a, h1, rfl⟩ | ⟨h1, _⟩) u
    · have e := (hold a).1 h1; subst e
      have := h.data m.view (.inr ⟨hno, m, hr.1, rfl⟩) u
      rw [hview]
      exact ⟨Nat.le_trans this.1 (join_clk_right _ _ _), Nat.le_trans this.2 (join_clk_right _ _ _)⟩
    · exact absurd ((hold t).2 rfl) (h1 t)
  · rintro v (⟨a, h1, rfl⟩ | ⟨h1, m', h2, rfl⟩)
    · exact absurd h1 (hno a)
    · rw [hr.1] at h2; cases h2
      exact ⟨_, .inl ⟨t, (hold t).2 rfl, rfl⟩, by rw [hview]; exact le_join_right _ _⟩

/-- A release: the lock word gets a message newer than all others. -/
theorem Inv.release {w : St} {top t ts : Nat} {μ : Mem Loc State Unit} {vw : View Loc}
    (h : Inv w top) (ht : Holds w t) (hts : top < ts)
    (hhist : ∀ i, μ.hist .lock i = if i = ts then some ⟨.unlocked, vw⟩ else w.mem.hist .lock i)
    (hle : Le (w.mem.view t) vw) (hwr : μ.wr = w.mem.wr) (hrd : μ.rd = w.mem.rd) :
    let w' : St := ⟨μ, setf w.pc t .idle⟩
    Inv w' ts ∧ ∀ v, LView w top v → ∃ v', LView w' ts v' ∧ Le v v' := by
  intro w'
  have hold : ∀ u, ¬ Holds w' u := by
    intro u
    by_cases e : u = t
    · subst e; simp [Holds, w', setf_self]
    · simp only [Holds, w', setf_ne _ _ e]
      intro hu; exact e (h.one u t hu ht)
  have hl : LView w' ts vw := .inr ⟨hold, _, by show μ.hist .lock ts = _; rw [hhist, if_pos rfl], rfl⟩
  refine ⟨⟨?_, ?_, ?_, ?_, ?_, ?_⟩, ?_⟩
  · intro i mi (hi : μ.hist .lock i = some mi); rw [hhist] at hi; split at hi
    · omega
    · have := h.le i mi hi; omega
  · exact ⟨_, by show μ.hist .lock ts = _; rw [hhist, if_pos rfl], by simp [hold]⟩
  · intro i mi (hi : μ.hist .lock i = some mi) hv hlt
    show μ.hist .lock (i + 1) ≠ none
    rw [hhist]; split
    · simp
    · rw [hhist, if_neg (by omega)] at hi
      have h1 := h.le i mi hi
      apply h.free i mi hi hv
      apply Classical.byContradiction; intro hn
      have : i = top := by omega
      subst this
      obtain ⟨m', hm', hm2⟩ := h.topMsg
      rw [hi] at hm'; cases hm'
      exact hm2.1 hv t ht
  · intro a b ha; exact absurd ha (hold a)
  · intro a ha; exact absurd ha (hold a)
  · rintro v (⟨a, h1, _⟩ | ⟨_, m, h1, rfl⟩) u
    · exact absurd h1 (hold a)
    · have h1 : μ.hist .lock ts = some m := h1
      rw [hhist, if_pos rfl] at h1; cases h1
      have := h.data _ (.inl ⟨t, ht, rfl⟩) u
      show μ.wr () u ≤ _ ∧ μ.rd () u ≤ _
      rw [hwr, hrd]
      exact ⟨Nat.le_trans this.1 (hle.2 u), Nat.le_trans this.2 (hle.2 u)⟩
  · rintro v (⟨a, h1, rfl⟩ | ⟨h1, _⟩)
    · rw [h.one a t h1 ht]; exact ⟨vw, hl, hle⟩
    · exact absurd ht (h1 t)

theorem exchange_idle {p : Pc} {x : State × Pc} (h : exchange p = some x) :
    p = .lockS ∨ p = .tryS ∨ p = .lockM := by
  cases p <;> simp [exchange] at h ⊢

theorem inv_step {w w' : St} {top : Nat} (h : Inv w top) (hst : Step w w') :
    ∃ top', Inv w' top' ∧ ∀ v, LView w top v → ∃ v', LView w' top' v' ∧ Le v v' := by
  cases hst with
  | @other t => exact ⟨top, h.keep rfl rfl rfl (fun _ _ => rfl) (le_setf (le_tick _ _))⟩
  | @otherLoad t n ts m hr =>
    exact ⟨top, h.keep rfl rfl rfl (fun _ _ => rfl)
      (le_setf ((le_see _ _ _).trans (le_join_left _ _)))⟩
  | @otherStore t n ts v hf =>
    exact ⟨top, h.keep (by funext i; simp [Mem.storeRel, Mem.add])
      rfl rfl (fun _ _ => rfl) (le_setf (le_see _ _ _))⟩
  | @otherRmw t n ts m v hr hf =>
    exact ⟨top, h.keep (by funext i; simp [Mem.rmwAcqRel, Mem.add])
      rfl rfl (fun _ _ => rfl) (le_setf ((le_see _ _ _).trans (le_join_left _ _)))⟩
  | @callLockS t hp =>
    exact ⟨top, h.keep rfl rfl rfl (not_holds_setf (by simp [Holds, hp]) (by simp) (by simp))
      (fun _ => Le.refl _)⟩
  | @callTryS t hp =>
    exact ⟨top, h.keep rfl rfl rfl (not_holds_setf (by simp [Holds, hp]) (by simp) (by simp))
      (fun _ => Le.refl _)⟩
  | @callLockM t hp =>
    exact ⟨top, h.keep rfl rfl rfl (not_holds_setf (by simp [Holds, hp]) (by simp) (by simp))
      (fun _ => Le.refl _)⟩
  | @casOk t d q ts m hex hr hm hf => exact ⟨top + 1, h.acquire hex hr hm hf⟩
  | @casFail t d q ts m hex hr =>
    have h1 := exchange_idle hex
    refine ⟨top, h.keep rfl rfl rfl (not_holds_setf ?_ ?_ ?_)
      (le_setf ((le_see _ _ _).trans (le_join_left _ _)))⟩
    · rcases h1 with h1 | h1 | h1 <;> simp [Holds, h1]
    · unfold afterFail; split
      · simp
      · rcases h1 with h1 | h1 | h1 <;> simp [h1]
    · unfold afterFail; split
      · simp
      · rcases h1 with h1 | h1 | h1 <;> simp [h1]
  | @read t ht =>
    refine ⟨top, h.access ht rfl rfl rfl ?_⟩
    intro u
    refine ⟨Nat.le_max_left _ _, ?_⟩
    show (if () = () then setf (w.mem.rd ()) t ((w.mem.view t).clk t + 1) else w.mem.rd ()) u ≤ _
    rw [if_pos rfl]
    by_cases e : u = t
    · subst e; simp [View.tick]; omega
    · rw [setf_ne _ _ e]; exact Nat.le_max_left _ _
  | @write t ht =>
    refine ⟨top, h.access ht rfl rfl rfl ?_⟩
    intro u
    refine ⟨?_, Nat.le_max_left _ _⟩
    show (if () = () then setf (w.mem.wr ()) t ((w.mem.view t).clk t + 1) else w.mem.wr ()) u ≤ _
    rw [if_pos rfl]
    by_cases e : u = t
    · subst e; simp [View.tick]; omega
    · rw [setf_ne _ _ e]; exact Nat.le_max_left _ _
  | @unlock t ts ht hf =>
    have h1 := (h.held t ht).1
    have h2 := hf.2
    refine ⟨ts, h.release (vw := (w.mem.view t).see .lock ts) ht (by omega) ?_ (le_see _ _ _) rfl rfl⟩
    intro i
    show (if Loc.lock = Loc.lock ∧ i = ts then _ else _) = _
    simp only [true_and]
  | @unlockDebug t ts m ht hr hm hf =>
    have h1 := (h.held t ht).1
    have h2 := hr.2
    have h3 := h.le _ _ hr.1
    refine ⟨ts + 1, h.release (vw := ((w.mem.view t).see .lock (ts + 1)).join m.view) ht (by omega) ?_
      ((le_see _ _ _).trans (le_join_left _ _)) rfl rfl⟩
    intro i
    show (if Loc.lock = Loc.lock ∧ i = ts + 1 then _ else _) = _
    simp only [true_and]

theorem inv_reachable {w : St} (h : Reachable w) : ∃ top, Inv w top := by
  induction h with
  | init => exact ⟨0, inv_init⟩
  | step _ hst ih =>
    obtain ⟨top, hi⟩ := ih
    obtain ⟨top', h', _⟩ := inv_step hi hst
    exact ⟨top', h'⟩

theorem ok_reachable {w : St} (h : Reachable w) : Ok w.mem := by
  induction h with
  | init => exact ok_init _
  | step _ hst ih =>
    cases hst with
    | other => exact ih.tick _
    | otherLoad hr => exact ih.loadAcq hr.1
    | otherStore hf => exact ih.storeRel _ hf.1
    | otherRmw hr hf => exact ih.rmwAcqRel hr.1 hf
    | callLockS => exact ih
    | callTryS => exact ih
    | callLockM => exact ih
    | casOk _ hr _ hf => exact ih.rmwAcqRel hr.1 hf
    | casFail _ hr => exact ih.loadAcq hr.1
    | read => exact ih.tick _
    | write => exact ih.tick _
    | unlock _ hf => exact ih.storeRel _ hf.1
    | unlockDebug _ hr _ hf => exact ih.rmwAcqRel hr.1 hf

end Phosphor.ChunkLock.W
