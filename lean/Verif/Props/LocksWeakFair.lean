import Verif.Props.LocksWeakProgress
import Verif.Props.StopFairWeak
/-
C113: in a fair execution of the trace log over a release/acquire memory with lock words every logging call ends, and
every stop comes to its end if stores to `enabled` are read by every thread in the end.
-/
namespace Phosphor.TLog.W
open Phosphor.Weak

/-- An execution without end, with lock words, during which the threads fit; nothing may happen in a moment. -/
structure LExec (n : Nat) (σ : Nat → St) : Prop where
  first : σ 0 = St.init
  step : ∀ m, σ (m + 1) = σ m ∨ LStep (σ m) (σ (m + 1))
  fits : ∀ m, Fits n (σ m)

/-- A thread in a logging call or in an eviction, and able to go on from some moment on for ever, goes on. A
compare-exchange that fails and is made again is not going on, so a lock that stays free is taken in the end. -/
def LFair (σ : Nat → St) : Prop :=
  ∀ u m, (∀ m', m ≤ m' → (((σ m').pc u).logging || ((σ m').pc u).evicting) = true ∧
      ∃ w', LStep (σ m') w' ∧ w'.pc u ≠ (σ m').pc u) →
    ∃ m', m ≤ m' ∧ (σ (m' + 1)).pc u ≠ (σ m').pc u

theorem LExec.fitting {n : Nat} {σ : Nat → St} (h : LExec n σ) (m : Nat) : LFitting n (σ m) := by
  induction m with
  | zero => rw [h.first]; exact .init
  | succ m ih =>
    rcases h.step m with e | hs
    · rw [e]; exact ih
    · exact ih.step hs (h.fits _)

/-- A thread that can go on as long as it has not, goes on. -/
theorem LFair.moves {σ : Nat → St} (hf : LFair σ) {u m : Nat}
    (hp : (((σ m).pc u).logging || ((σ m).pc u).evicting) = true)
    (hc : ∀ m', m ≤ m' → (σ m').pc u = (σ m).pc u → ∃ w', LStep (σ m') w' ∧ w'.pc u ≠ (σ m').pc u) :
    ∃ m', m ≤ m' ∧ (∀ i, m ≤ i → i ≤ m' → (σ i).pc u = (σ m).pc u) ∧ (σ (m' + 1)).pc u ≠ (σ m).pc u := by
  by_cases hx : ∃ j, (σ (m + j + 1)).pc u ≠ (σ m).pc u
  · classical
    refine ⟨m + Nat.find hx, by omega, fun i h1 h2 => ?_, Nat.find_spec hx⟩
    by_cases e : i = m
    · rw [e]
    · have := Nat.find_min hx (m := i - m - 1) (by omega)
      have e2 : m + (i - m - 1) + 1 = i := by omega
      rw [e2] at this
      exact Classical.not_not.1 this
  · exfalso
    have hall : ∀ m', m ≤ m' → (σ m').pc u = (σ m).pc u := by
      intro m' hm
      by_cases e : m' = m
      · rw [e]
      · have e2 : m + (m' - m - 1) + 1 = m' := by omega
        have := Classical.not_not.1 (fun c => hx ⟨m' - m - 1, c⟩)
        rw [e2] at this; exact this
    obtain ⟨m', h1, h2⟩ := hf u m fun m' hm => ⟨by rw [hall m' hm]; exact hp, hc m' hm (hall m' hm)⟩
    exact h2 (by rw [hall m' h1, hall (m' + 1) (by omega)])

/-- C113: in a fair execution every logging call ends. -/
theorem C113_logs {n : Nat} {σ : Nat → St} (h : LExec n σ) (hf : LFair σ) {u m : Nat}
    (hl : ((σ m).pc u).logging = true) : ∃ m', m ≤ m' ∧ (σ m').pc u = .idle := by
  generalize hk : ((σ m).pc u).left = k
  induction k using Nat.strongRecOn generalizing m with
  | _ k ih =>
    obtain ⟨m', h1, h2, h3⟩ := hf.moves (u := u) (m := m) (by rw [hl]; rfl) fun m' hm e => by
      obtain ⟨w', a, b, -⟩ := C112_logs (h.fitting m') (t := u) (by rw [e]; exact hl)
      exact ⟨w', a, b⟩
    have e := h2 m' h1 (Nat.le_refl _)
    rcases h.step m' with x | hs
    · exact absurd (by rw [x, e]) h3
    · rcases lstep_left hs (t := u) (by rw [e]; exact hl) with x | x | ⟨x1, x2⟩
      · exact absurd (by rw [x, e]) h3
      · exact ⟨m' + 1, by omega, x⟩
      · rw [e, hk] at x2
        obtain ⟨m'', a, b⟩ := ih _ x2 x1 rfl
        exact ⟨m'', by omega, b⟩

/-- A step that has nothing to do with locks. -/
theorem plain {w w' : St} (h1 : ∀ lk lview, Step true { w with lk := lk, lview := lview } { w' with lk := lk, lview := lview })
    (h4 : w'.lk = w.lk) (h5 : w'.lview = w.lview) : Step true w w' := by
  have := h1 w.lk w.lview
  rw [← h4, ← h5] at this
  have e : ({ w with lk := w'.lk, lview := w'.lview } : St) = w := by rw [h4, h5]
  rw [e] at this; exact this

/-- A call begins with a load of `enabled`. -/
theorem lenters {w w' : St} (hs : LStep w w') {u : Nat} (h : (w.pc u).logging = false)
    (h' : (w'.pc u).logging = true) : ∃ ts m, Reads w w' u ts ∧ w.mem.hist .en ts = some m ∧ m.val ≠ 0 := by
  have key : ∀ {t : Nat} {p : Pc}, w'.pc = setf w.pc t p → p.logging = false → False := by
    intro t p e hp
    by_cases x : u = t
    · subst x; rw [e, setf_self, hp] at h'; cases h'
    · rw [e, setf_ne _ _ x, h] at h'; cases h'
  have key2 : ∀ {t : Nat} {p : Pc}, w'.pc = setf w.pc t p → (w.pc t).logging = true → False := by
    intro t p e hp
    by_cases x : u = t
    · subst x; rw [h] at hp; cases hp
    · rw [e, setf_ne _ _ x, h] at h'; cases h'
  cases hs with
  | other h1 _ _ h4 h5 => exact enters (plain h1 h4 h5) h h'
  | tryOk hq | tryAgain hq | tryFail hq | unlock hq | unlockD hq => exact (key2 rfl (by rw [hq]; rfl)).elim
  | _ => exact (key rfl rfl).elim

theorem lzeros_step {w w' : St} (h : LReachable w) (hs : LStep w w') (ho : w'.off) {b : Nat} (hz : Zeros w b) :
    Zeros w' b := by
  have same : w'.mem.hist .en = w.mem.hist .en → Zeros w' b := by
    intro e ts m h1; rw [e] at h1; exact hz ts m h1
  cases hs with
  | other h1 =>
    obtain ⟨lk, lview, gd⟩ := good h
    exact zeros_step gd.1 (h1 lk lview) ho hz
  | _ => exact same rfl

/-- C113: once tracing is off and stays off, each thread in the end logs no more. -/
theorem C113_quiet {n : Nat} {σ : Nat → St} (h : LExec n σ) (hf : LFair σ) (hv : Visible σ) {m0 : Nat}
    (ho : ∀ m, m0 ≤ m → (σ m).off) (u : Nat) : ∃ N, ∀ m, N ≤ m → ((σ m).pc u).logging = false := by
  obtain ⟨top, msg, h1, h2, h3⟩ := ho m0 (Nat.le_refl _)
  have hz : ∀ m, m0 ≤ m → Zeros (σ m) top := by
    intro m hm
    induction m, hm using Nat.le_induction with
    | base =>
      intro ts m' a b
      have := h3 _ _ a
      have e : ts = top := by omega
      subst e; rw [h1] at a; injection a with a; rw [← a]; exact h2
    | succ m hm ih =>
      rcases h.step m with e | hs
      · rw [e]; exact ih
      · exact lzeros_step (h.fitting m).reachable hs (ho _ (by omega)) ih
  obtain ⟨N, hN⟩ := hv u m0 top msg h1
  have stay : ∀ m, N ≤ m → m0 ≤ m → ((σ m).pc u).logging = false → ((σ (m + 1)).pc u).logging = false := by
    intro m a b c
    cases hx : ((σ (m + 1)).pc u).logging with
    | false => rfl
    | true =>
      exfalso
      rcases h.step m with e | hs
      · rw [e, c] at hx; cases hx
      · obtain ⟨ts, m', r1, r2, r3⟩ := lenters hs c hx
        exact r3 (hz m b ts m' r2 (hN m a ts r1))
  have fin : ∀ M, N ≤ M → m0 ≤ M → ((σ M).pc u).logging = false → ∃ N, ∀ m, N ≤ m → ((σ m).pc u).logging = false := by
    intro M a b c
    refine ⟨M, fun m hm => ?_⟩
    induction m, hm using Nat.le_induction with
    | base => exact c
    | succ m hm ih => exact stay m (by omega) (by omega) ih
  cases hx : ((σ (N + m0)).pc u).logging with
  | false => exact fin _ (by omega) (by omega) hx
  | true =>
    obtain ⟨M, a, b⟩ := C113_logs h hf hx
    exact fin M (by omega) (by omega) (by rw [b]; rfl)

/-- A step during an eviction. -/
theorem lev_step {n : Nat} {w w' : St} (h : LFitting n w) (hs : LStep w w') {t : Nat} {k : Bool} {d : Nat}
    (he : (w.pc t).evOf = some (k, d)) :
    (w'.pc t = w.pc t ∧ evLeft n w' t = evLeft n w t) ∨ (w'.pc t ≠ w.pc t ∧ (w'.pc t).evOf = some (k, d) ∧
        evLeft n w' t < evLeft n w t) ∨
      (w'.pc t = .crit (if k then d + 1 else d) ∧ w'.off ∧ ∀ u, w'.pend u = false) := by
  obtain ⟨lk, lview, -, hfit⟩ := h.sim
  obtain ⟨g, hg⟩ := inv_reachable hfit.reachable
  have holds : ∀ {s : Nat} {k' : Bool} {d' : Nat}, (w.pc s).evOf = some (k', d') → w.mutex = some s := by
    intro s k' d' hx
    have := hg.pcs s
    cases hq : w.pc s <;> rw [show (w.with lk lview).pc s = _ from hq] at this <;> rw [hq] at hx <;>
      first | (cases hx; done) | exact this.1
  have hmx := holds he
  have same : w'.pc t = w.pc t → w'.pend = w.pend →
      (w'.pc t = w.pc t ∧ evLeft n w' t = evLeft n w t) := by
    intro a b; refine ⟨a, ?_⟩; unfold evLeft; rw [a, b]
  have key : ∀ {s : Nat} {p : Pc}, w'.pc = setf w.pc s p → w'.pend = w.pend → (w.pc s).evOf = none →
      (w'.pc t = w.pc t ∧ evLeft n w' t = evLeft n w t) := by
    intro s p e hp hn
    refine same ?_ hp
    by_cases x : t = s
    · subst x; rw [hn] at he; cases he
    · rw [e, setf_ne _ _ x]
  have fin : ∀ {s : Nat} {k' : Bool} {d' u : Nat}, w.pc s = .evUnlock k' d' u → w'.pc = setf w.pc s (.evict k' d') →
      w'.pend = setf w.pend u false → w'.pc t ≠ w.pc t ∧ (w'.pc t).evOf = some (k, d) ∧ evLeft n w' t < evLeft n w t := by
    intro s k' d' u hq e1 e2
    have e : s = t := by injection ((holds (by rw [hq]; rfl)).symm.trans hmx)
    subst e
    rw [hq] at he; cases he
    refine ⟨by rw [e1, setf_self, hq]; simp, by rw [e1, setf_self]; rfl, ?_⟩
    have hh := hg.pcs s
    rw [show (w.with lk lview).pc s = _ from hq] at hh
    have hpu : w.pend u = true := hh.2.2.2.2.1
    have hlt : ((Finset.range n).filter fun x => setf w.pend u false x = true).card <
        ((Finset.range n).filter fun x => w.pend x = true).card := by
      refine Finset.card_lt_card ⟨fun x hx => ?_, fun hc => ?_⟩
      · rw [Finset.mem_filter] at hx ⊢
        refine ⟨hx.1, ?_⟩
        by_cases e : x = u
        · subst e; exact hpu
        · have := hx.2; rw [setf_ne _ _ e] at this; exact this
      · have := hc (Finset.mem_filter.2 ⟨Finset.mem_range.2 (h.fits.few u (hg.penReg u hpu)), hpu⟩)
        rw [Finset.mem_filter, setf_self] at this
        cases this.2
    simp only [evLeft, e1, e2, setf_self, hq]
    omega
  cases hs with
  | other h1 => exact ev_step (w := w.with lk lview) (w' := w'.with lk lview) hfit (h1 lk lview) he
  | tryOk hq | tryAgain hq | tryFail hq | unlock hq | unlockD hq => exact .inl (key rfl rfl (by rw [hq]; rfl))
  | @evLock s k' d' u ts m hq =>
    have e : s = t := by injection ((holds (by rw [hq]; rfl)).symm.trans hmx)
    subst e
    rw [hq] at he; cases he
    refine .inr (.inl ⟨by simp [St.goto, setf, hq], by simp [St.goto, setf, Pc.evOf], ?_⟩)
    simp only [evLeft, St.goto, setf_self, hq]
    exact Nat.add_lt_add_left (by decide) _
  | @evAgain s k' d' u ts m hq =>
    refine .inl (same ?_ rfl)
    show setf w.pc s _ t = _
    by_cases x : t = s
    · subst x; rw [setf_self, hq]
    · rw [setf_ne _ _ x]
  | evUnlock hq => exact .inr (.inl (fin hq rfl rfl))
  | evUnlockD hq => exact .inr (.inl (fin hq rfl rfl))

theorem levDone {w : St} {t : Nat} {k : Bool} {d : Nat} (ht : w.pc t = .evict k d) (hp : ∀ u, w.pend u = false) :
    LStep w (w.goto t (.crit (if k then d + 1 else d)) (w.mem.read t .cfg)) := by
  refine .other (fun _ _ => .evDone ht hp) (fun _ => rfl) (fun x hx => ?_) rfl rfl
  have : x ≠ t := fun e => by subst e; rw [ht] at hx; cases hx
  exact (setf_ne _ _ this).trans hx

/-- An execution from `w`, during which the threads fit, in which thread `t` makes `j` moves and is still in the
eviction it is in. -/
inductive LEvBusy (n t : Nat) : Nat → St → St → Prop
  | refl {w} : LEvBusy n t 0 w w
  | wait {j w w' w''} : LEvBusy n t j w w' → LStep w' w'' → Fits n w'' → w''.pc t = w'.pc t → LEvBusy n t j w w''
  | move {j w w' w''} : LEvBusy n t j w w' → LStep w' w'' → Fits n w'' → w''.pc t ≠ w'.pc t → (w''.pc t).evicting = true →
      LEvBusy n t (j + 1) w w''

/-- C113: an eviction of at most `n` threads is over after at most `3 * n + 1` moves of its thread, not counting
compare-exchanges on the chunk locks that fail and are made again. -/
theorem C113_short {n : Nat} {w w' : St} (h : LFitting n w) {t j : Nat} {k : Bool} {d : Nat} (ht : w.pc t = .evict k d)
    (hb : LEvBusy n t j w w') : j ≤ 3 * n := by
  have key : LFitting n w' ∧ (w'.pc t).evOf = some (k, d) ∧ j + evLeft n w' t ≤ evLeft n w t := by
    induction hb with
    | refl => exact ⟨h, by rw [ht]; rfl, by omega⟩
    | wait _ hs hf e ih =>
      obtain ⟨a, b, c⟩ := ih h ht
      refine ⟨a.step hs hf, by rw [e]; exact b, ?_⟩
      rcases lev_step a hs b with ⟨-, x⟩ | ⟨x, -⟩ | ⟨x, -⟩
      · omega
      · exact absurd e x
      · rw [e] at x; rw [x] at b; cases b
    | move _ hs hf e hx ih =>
      obtain ⟨a, b, c⟩ := ih h ht
      rcases lev_step a hs b with ⟨x, -⟩ | ⟨-, x, y⟩ | ⟨x, -⟩
      · exact absurd x e
      · exact ⟨a.step hs hf, x, by omega⟩
      · rw [x] at hx; cases hx
  obtain ⟨a, b, c⟩ := key
  have hle : ∀ x : St, ((Finset.range n).filter fun u => x.pend u = true).card ≤ n := fun x => by
    have := Finset.card_filter_le (Finset.range n) (fun u => x.pend u = true)
    rwa [Finset.card_range] at this
  have h0 := hle w
  have h1 : evLeft n w t ≤ 3 * n + 2 := by
    simp only [evLeft, ht]; omega
  rcases Nat.lt_or_ge (3 * n) j with x | x
  · exfalso
    have h2 : evLeft n w' t < 2 := by omega
    obtain ⟨lk, lview, -, hfit⟩ := a.sim
    obtain ⟨g, hg⟩ := inv_reachable hfit.reachable
    have hh := hg.pcs t
    have some1 : ∀ u, w'.pend u = true → 1 ≤ ((Finset.range n).filter fun u => w'.pend u = true).card := by
      intro u hu
      exact Finset.card_pos.2 ⟨u, Finset.mem_filter.2 ⟨Finset.mem_range.2 (a.fits.few u (hg.penReg u hu)), hu⟩⟩
    unfold evLeft at h2
    cases hq : w'.pc t <;> rw [show (w'.with lk lview).pc t = _ from hq] at hh <;> rw [hq] at b h2 <;>
      first | (cases b; done) | (simp only at h2; omega) | (have := some1 _ hh.2.2.2.2; simp only at h2; omega) |
        (have := some1 _ hh.2.2.2.2.1; simp only at h2; omega)
  · exact x

/-- C113: in a fair execution in which stores to `enabled` are read by every thread in the end, every
eviction ends, with the stopped callback next, tracing off and no thread left to evict. -/
theorem C113_stop {n : Nat} {σ : Nat → St} (h : LExec n σ) (hf : LFair σ) (hv : Visible σ) {t m0 : Nat} {k : Bool} {d : Nat}
    (ht : (σ m0).pc t = .evict k d) :
    ∃ m, m0 ≤ m ∧ (σ m).pc t = .crit (if k then d + 1 else d) ∧ (σ m).off ∧ ∀ u, (σ m).pend u = false := by
  by_contra hno
  have hev : ∀ m, m0 ≤ m → ((σ m).pc t).evOf = some (k, d) := by
    intro m hm
    induction m, hm using Nat.le_induction with
    | base => rw [ht]; rfl
    | succ m hm ih =>
      rcases h.step m with e | hs
      · rw [e]; exact ih
      · rcases lev_step (h.fitting m) hs ih with ⟨x, -⟩ | ⟨-, x, -⟩ | x
        · rw [x]; exact ih
        · exact x
        · exact absurd ⟨m + 1, by omega, x⟩ hno
  have hoff : ∀ m, m0 ≤ m → (σ m).off := by
    intro m hm
    obtain ⟨lk, lview, -, hfit⟩ := (h.fitting m).sim
    obtain ⟨g, hg⟩ := inv_reachable hfit.reachable
    have := hg.pcs t
    have he := hev m hm
    refine hg.isOff (w := (σ m).with lk lview) ?_
    cases hq : (σ m).pc t <;> rw [show ((σ m).with lk lview).pc t = _ from hq] at this <;> rw [hq] at he <;>
      first | (cases he; done) | exact this.2.1
  have hq : ∃ N, ∀ u, u < n → ∀ m, N ≤ m → ((σ m).pc u).logging = false := by
    have : ∀ j, ∃ N, ∀ u, u < j → ∀ m, N ≤ m → ((σ m).pc u).logging = false := by
      intro j
      induction j with
      | zero => exact ⟨0, fun u hu => by omega⟩
      | succ j ih =>
        obtain ⟨N, hN⟩ := ih
        obtain ⟨N', hN'⟩ := C113_quiet h hf hv hoff j
        refine ⟨N + N', fun u hu m hm => ?_⟩
        by_cases e : u = j
        · subst e; exact hN' m (by omega)
        · exact hN u (by omega) m (by omega)
    exact this n
  obtain ⟨N, hN⟩ := hq
  have fin : ∀ c m, N ≤ m → m0 ≤ m → evLeft n (σ m) t = c → False := by
    intro c
    induction c using Nat.strongRecOn with
    | _ c ih =>
      intro m a b e
      have he := hev m b
      obtain ⟨m', h1, h2, h3⟩ := hf.moves (u := t) (m := m)
        (by cases hq : (σ m).pc t <;> rw [hq] at he <;> first | (cases he; done) | rfl)
        (fun m' hm hp => by
          rcases C112_waits (h.fitting m') (t := t) (fun x => by rw [hp] at x; rw [x] at he; cases he) with x | ⟨k', d', x, y⟩
          · exact x
          · obtain ⟨lk, lview, -, hfit⟩ := (h.fitting m').sim
            obtain ⟨g, hg⟩ := inv_reachable hfit.reachable
            have hpn : ∀ u, (σ m').pend u = false := by
              intro u
              cases hu : (σ m').pend u with
              | false => rfl
              | true =>
                have := (y u hu).1
                rw [hN u ((h.fits m').few u (hg.penReg u hu)) m' (by omega)] at this; cases this
            exact ⟨_, levDone x hpn, by simp [St.goto, setf, x]⟩)
      have hle : ∀ i, m ≤ i → i ≤ m' → evLeft n (σ i) t = c := by
        intro i hi
        induction i, hi using Nat.le_induction with
        | base => exact fun _ => e
        | succ i hi ihh =>
          intro hi'
          rcases h.step i with x | hs
          · rw [x]; exact ihh (by omega)
          · have e1 := h2 i hi (by omega)
            have e2 := h2 (i + 1) (by omega) hi'
            rcases lev_step (h.fitting i) hs (hev i (by omega)) with ⟨-, x⟩ | ⟨x, -⟩ | ⟨x, -⟩
            · rw [x]; exact ihh (by omega)
            · exact absurd (e2.trans e1.symm) x
            · have := hev (i + 1) (by omega)
              rw [x] at this; cases this
      have e1 := h2 m' h1 (Nat.le_refl _)
      rcases h.step m' with x | hs
      · exact h3 (by rw [x, e1])
      · rcases lev_step (h.fitting m') hs (hev m' (by omega)) with ⟨x, -⟩ | ⟨-, -, x⟩ | ⟨x, -⟩
        · exact h3 (x.trans e1)
        · rw [hle m' h1 (Nat.le_refl _)] at x
          exact ih _ x (m' + 1) (by omega) (by omega) rfl
        · have := hev (m' + 1) (by omega)
          rw [x] at this; cases this
  exact fin _ (N + m0) (by omega) (by omega) rfl

/-! ### Cases -/

/-- An execution from the start to `w` by way of a state as in `Q`. -/
inductive LPassed (n : Nat) (Q : St → Prop) : St → Prop
  | start {w} : LFitting n w → Q w → LPassed n Q w
  | step {w w'} : LPassed n Q w → LStep w w' → Fits n w' → LPassed n Q w'

theorem LPassed.fitting {n : Nat} {Q : St → Prop} {w : St} (h : LPassed n Q w) : LFitting n w := by
  induction h with
  | start h _ => exact h
  | step _ hs hf ih => exact ih.step hs hf

theorem LExec.more {n : Nat} {σ : Nat → St} (h : LExec n σ) {N : Nat} (hc : ∀ m, N ≤ m → σ m = σ N) {w' : St}
    (hs : LStep (σ N) w') (hf : Fits n w') :
    ∃ ρ, LExec n ρ ∧ (∀ m, m ≤ N → ρ m = σ m) ∧ ∀ m, N + 1 ≤ m → ρ m = w' := by
  have e1 : ∀ m, m ≤ N → (if m ≤ N then σ m else w') = σ m := fun m hm => if_pos hm
  have e2 : ∀ m, N + 1 ≤ m → (if m ≤ N then σ m else w') = w' := fun m hm => if_neg (by omega)
  refine ⟨fun m => if m ≤ N then σ m else w', ⟨(e1 0 (by omega)).trans h.first, fun m => ?_, fun m => ?_⟩, e1, e2⟩
  · by_cases a : m < N
    · rw [e1 m (by omega), e1 (m + 1) (by omega)]; exact h.step m
    · by_cases b : m = N
      · subst b; rw [e1 m (by omega), e2 (m + 1) (by omega)]; exact .inr hs
      · rw [e2 m (by omega), e2 (m + 1) (by omega)]; exact .inl rfl
  · by_cases a : m ≤ N
    · rw [e1 m a]; exact h.fits m
    · rw [e2 m (by omega)]; exact hf

theorem LFitting.exec {n : Nat} {w : St} (h : LFitting n w) : ∃ σ N, LExec n σ ∧ ∀ m, N ≤ m → σ m = w := by
  induction h with
  | init => exact ⟨fun _ => St.init, 0, ⟨rfl, fun _ => .inl rfl, fun _ => Fitting.init.fits⟩, fun _ _ => rfl⟩
  | @step w w' _ hs hf ih =>
    obtain ⟨σ, N, h1, h2⟩ := ih
    have e := h2 N (Nat.le_refl _)
    obtain ⟨ρ, r1, -, r3⟩ := h1.more (N := N) (fun m hm => by rw [h2 m hm, e]) (by rw [e]; exact hs) hf
    exact ⟨ρ, N + 1, r1, r3⟩

theorem LPassed.exec {n : Nat} {Q : St → Prop} {w : St} (h : LPassed n Q w) :
    ∃ σ m0 N, LExec n σ ∧ m0 ≤ N ∧ Q (σ m0) ∧ ∀ m, N ≤ m → σ m = w := by
  induction h with
  | start h hq =>
    obtain ⟨σ, N, h1, h2⟩ := h.exec
    exact ⟨σ, N, N, h1, Nat.le_refl _, by rw [h2 N (Nat.le_refl _)]; exact hq, h2⟩
  | @step w w' _ hs hf ih =>
    obtain ⟨σ, m0, N, h1, h0, hq, h2⟩ := ih
    have e := h2 N (Nat.le_refl _)
    obtain ⟨ρ, r1, r2, r3⟩ := h1.more (N := N) (fun m hm => by rw [h2 m hm, e]) (by rw [e]; exact hs) hf
    exact ⟨ρ, m0, N + 1, r1, by omega, by rw [r2 m0 h0]; exact hq, r3⟩

theorem LPassed.stay {n : Nat} {Q : St → Prop} {w : St} (h : LPassed n Q w)
    (hw : ∀ u, ((w.pc u).logging || (w.pc u).evicting) = false) :
    ∃ σ m0 N, LExec n σ ∧ LFair σ ∧ Visible σ ∧ Q (σ m0) ∧ ∀ m, N ≤ m → σ m = w := by
  obtain ⟨σ, m0, N, h1, -, hq, hc⟩ := h.exec
  refine ⟨σ, m0, N, h1, fun u m hm => ?_, fun u _ ts msg _ => ⟨N, fun m hm ts' hr => ?_⟩, hq, hc⟩
  · have := (hm (N + m) (by omega)).1
    rw [hc _ (by omega), hw u] at this; cases this
  · obtain ⟨m', p, a, -, b⟩ := hr
    rw [hc m hm] at a
    rw [hc m hm, hc (m + 1) (by omega)] at b
    exfalso; apply a
    have := congrArg (fun x => St.pc x u) b
    simp only [St.goto, setf_self] at this
    exact this.symm

theorem LPassed.evicts {n : Nat} {Q : St → Prop} {t : Nat} {w w' : St} (h : LPassed n Q w) (he : LEvicts t w w') :
    LPassed n Q w' ∧ ∀ u, u ≠ t → w.pc u = .idle → w'.pc u = .idle := by
  induction he with
  | refl => exact ⟨h, fun _ _ x => x⟩
  | mine _ a b c d ih => exact ⟨ih.1.step a (d n ih.1.fitting.fits), fun u x y => (c u x).trans (ih.2 u x y)⟩
  | call _ a b c d e f ih =>
    refine ⟨ih.1.step a (f n ih.1.fitting.fits), fun u x y => (e u ?_).trans (ih.2 u x y)⟩
    rintro rfl
    rw [ih.2 _ x y] at c; cases c

/-- A logging call is brought to its end. -/
theorem LPassed.finish {n : Nat} {Q : St → Prop} {w : St} (h : LPassed n Q w) {u : Nat} (hu : (w.pc u).logging = true) :
    ∃ w', LPassed n Q w' ∧ w'.pc u = .idle ∧ (∀ x, x ≠ u → w'.pc x = w.pc x) := by
  generalize hk : (w.pc u).left = k
  induction k using Nat.strongRecOn generalizing w with
  | _ k ih =>
    obtain ⟨w1, hs, hne, hd⟩ := C112_logs h.fitting hu
    have hL := llittle hs hu hne
    have h1 : LPassed n Q w1 := h.step hs ⟨by rw [hL.reg]; exact h.fitting.fits.few, fun b hb => by
      rw [(hL.bufs b).1] at hb; rw [(hL.bufs b).2]; exact h.fitting.fits.room b hb⟩
    rcases hd with e | ⟨e1, e2⟩
    · exact ⟨w1, h1, e, hL.pc⟩
    · obtain ⟨w', a, b, c⟩ := ih _ (hk ▸ e2) h1 e1 rfl
      exact ⟨w', a, b, fun x hx => (c x hx).trans (hL.pc x hx)⟩

/-- A case: thread 0 evicts thread 1, which is in a logging call, has its lock and is about to get a chunk. -/
theorem exLFair : ∃ σ m0, LExec 2 σ ∧ LFair σ ∧ Visible σ ∧ (σ m0).pc 0 = .evict false 0 ∧ (σ m0).pend 1 = true ∧
    (σ m0).pc 1 = .getChunk 0 := by
  obtain ⟨w, h, h1, h2, h3, h4, -, h5⟩ := exLEvicting
  obtain ⟨w', e, -, ho, hp, hc⟩ := C112_stop h h1
  obtain ⟨P, hi⟩ := (LPassed.start (Q := fun w => w.pc 0 = .evict false 0 ∧ w.pend 1 = true ∧ w.pc 1 = .getChunk 0) h
    ⟨h1, h2, h3⟩).evicts e
  have hrest : ∀ u, 2 ≤ u → w'.pc u = .idle := fun u hu => hi u (by omega) (h5 u hu)
  have fin : ∀ {x : St}, LPassed 2 (fun w => w.pc 0 = .evict false 0 ∧ w.pend 1 = true ∧ w.pc 1 = .getChunk 0) x →
      x.pc 0 = .crit 0 → (∀ u, 2 ≤ u → x.pc u = .idle) → ((x.pc 1).logging || (x.pc 1).evicting) = false →
      ∃ σ m0, LExec 2 σ ∧ LFair σ ∧ Visible σ ∧ (σ m0).pc 0 = .evict false 0 ∧ (σ m0).pend 1 = true ∧
        (σ m0).pc 1 = .getChunk 0 := by
    intro x hx q0 q2 q1
    obtain ⟨σ, m0, N, a1, a2, a3, a4, -⟩ := hx.stay (fun u => by
      by_cases x0 : u = 0
      · subst x0; rw [q0]; rfl
      · by_cases x1 : u = 1
        · subst x1; exact q1
        · rw [q2 u (by omega)]; rfl)
    exact ⟨σ, m0, a1, a2, a3, a4⟩
  cases hl : (w'.pc 1).logging with
  | true =>
    obtain ⟨x, hx, a, b⟩ := P.finish hl
    exact fin hx ((b 0 (by decide)).trans hc) (fun u hu => (b u (by omega)).trans (hrest u hu)) (by rw [a]; rfl)
  | false =>
    refine fin P hc hrest ?_
    rw [hl]
    obtain ⟨lk, lview, -, hfit⟩ := P.fitting.sim
    obtain ⟨g, hg⟩ := inv_reachable hfit.reachable
    have m0 := hg.pcs 0
    rw [show (w'.with lk lview).pc 0 = _ from hc] at m0
    have m1 := hg.pcs 1
    cases hq : w'.pc 1 <;> rw [show (w'.with lk lview).pc 1 = _ from hq] at m1 <;>
      first | rfl | (exfalso; have := m1.1; rw [m0.1.1] at this; cases this)

theorem LEvBusy.finish {n t : Nat} {w0 w : St} (h : LFitting n w) (hb : LEvBusy n t 0 w0 w) {u : Nat} (hut : t ≠ u)
    (hu : (w.pc u).logging = true) : ∃ w', LFitting n w' ∧ LEvBusy n t 0 w0 w' ∧ w'.pc u = .idle ∧ w'.pc t = w.pc t ∧
      w'.pend = w.pend := by
  generalize hk : (w.pc u).left = k
  induction k using Nat.strongRecOn generalizing w with
  | _ k ih =>
    obtain ⟨w1, hs, hne, hd⟩ := C112_logs h hu
    have hL := llittle hs hu hne
    have hf : Fits n w1 := ⟨by rw [hL.reg]; exact h.fits.few, fun b hb => by
      rw [(hL.bufs b).1] at hb; rw [(hL.bufs b).2]; exact h.fits.room b hb⟩
    have h1 := h.step hs hf
    have b1 := hb.wait hs hf (hL.pc t hut)
    rcases hd with e | ⟨e1, e2⟩
    · exact ⟨w1, h1, b1, e, hL.pc t hut, hL.pend⟩
    · obtain ⟨w', a, b, c, d, f⟩ := ih _ (hk ▸ e2) h1 b1 e1 rfl
      exact ⟨w', a, b, c, d.trans (hL.pc t hut), f.trans hL.pend⟩

/-- An eviction that has waited for a logging call to end, has taken the lock and is not over. -/
example : ∃ w w', LFitting 2 w ∧ w.pc 0 = .evict false 0 ∧ (w.pc 1).logging = true ∧ LEvBusy 2 0 1 w w' := by
  obtain ⟨w, h, h1, h2, h3, h4, -, h5⟩ := exLEvicting
  obtain ⟨w1, f1, b1, i1, p1, q1⟩ := LEvBusy.finish h (LEvBusy.refl (n := 2) (t := 0)) (u := 1) (by decide) h4
  rw [h1] at p1
  obtain ⟨lk, lview, gd⟩ := good f1.reachable
  obtain ⟨g, hg⟩ := inv_reachable gd.1
  have hfree : lk 1 = none := by
    cases hk : lk 1 with
    | none => rfl
    | some s =>
      exfalso
      rcases hg.lkpc 1 s hk with ⟨-, hs⟩ | ⟨k', d', hs⟩
      · have hs : slave (w1.pc 1) = true := hs
        rw [i1] at hs; cases hs
      · have hh := hg.pcs 0
        rw [show (w1.with lk lview).pc 0 = _ from p1] at hh
        have hm : w1.mutex = some s := by
          have := hg.pcs s
          rcases hs with e | e <;> rw [e] at this <;> exact this.1
        have : s = 0 := by have := hh.1; rw [show (w1.with lk lview).mutex = _ from hm] at this; injection this
        subst this
        rcases hs with e | e <;> rw [show (w1.with lk lview).pc 0 = _ from p1] at e <;> cases e
  obtain ⟨top, msg, hr, hn, -, h0, -⟩ := word gd 0 1
  have s1 := LStep.evLock p1 (by rw [q1]; exact h2) hr hn (h0.2 hfree)
  refine ⟨w, _, h, h1, h4, b1.move s1 ⟨f1.fits.few, f1.fits.room⟩ ?_ ?_⟩
  · rw [p1]; simp [St.goto, setf]
  · simp [St.goto, setf, Pc.evicting]

/-- The conclusions in that case. -/
example : ∃ σ m0 m, LExec 2 σ ∧ (σ m0).pc 0 = .evict false 0 ∧ ((σ m0).pc 1).logging = true ∧ m0 ≤ m ∧ (σ m).pc 0 = .crit 0 ∧
    (∃ m', m0 ≤ m' ∧ (σ m').pc 1 = .idle) := by
  obtain ⟨σ, m0, h, hf, hv, a, -, b⟩ := exLFair
  obtain ⟨m, h1, h2, -⟩ := C113_stop h hf hv a
  have hl : ((σ m0).pc 1).logging = true := by rw [b]; rfl
  exact ⟨σ, m0, m, h, a, hl, h1, h2, C113_logs h hf hl⟩

/-- An execution that from `N` on goes like `τ`. -/
theorem LExec.then {n : Nat} {σ τ : Nat → St} (h : LExec n σ) (N : Nat) (h0 : τ 0 = σ N)
    (hs : ∀ m, τ (m + 1) = τ m ∨ LStep (τ m) (τ (m + 1))) (hf : ∀ m, Fits n (τ m)) :
    ∃ ρ, LExec n ρ ∧ ∀ m, ρ (N + m) = τ m := by
  have e1 : ∀ m, m ≤ N → (if m < N then σ m else τ (m - N)) = σ m := by
    intro m hm
    by_cases e : m < N
    · exact if_pos e
    · have e : m = N := by omega
      subst e; rw [if_neg (by omega), Nat.sub_self]; exact h0
  have e2 : ∀ m, (if N + m < N then σ (N + m) else τ (N + m - N)) = τ m := by
    intro m; rw [if_neg (by omega), Nat.add_sub_cancel_left]
  refine ⟨fun m => if m < N then σ m else τ (m - N), ⟨(e1 0 (by omega)).trans h.first, fun m => ?_, fun m => ?_⟩, e2⟩
  · by_cases e : m < N
    · rw [e1 m (by omega), e1 (m + 1) (by omega)]; exact h.step m
    · obtain ⟨j, rfl⟩ : ∃ j, m = N + j := ⟨m - N, by omega⟩
      rw [e2 j, Nat.add_assoc, e2 (j + 1)]; exact hs j
  · by_cases e : m < N
    · rw [e1 m (by omega)]; exact h.fits m
    · obtain ⟨j, rfl⟩ : ∃ j, m = N + j := ⟨m - N, by omega⟩
      rw [e2 j]; exact hf j

/-- A thread evicting waits while the only thread that is left has its lock. -/
theorem lno_move {w w' : St} (h : LReachable w) (hs : LStep w w') {t : Nat} {k : Bool} {d : Nat} (ht : w.pc t = .evict k d)
    (hl : ∀ u, w.pend u = true → slave (w.pc u) = true) (hp : ∃ u, w.pend u = true) : w'.pc t = w.pc t := by
  obtain ⟨lk, lview, gd⟩ := good h
  have hk : ∀ u, w.pend u = true → lk u = some u := fun u hu => slave_lk gd.1 (hl u hu)
  have key : ∀ {s : Nat} {p : Pc}, w'.pc = setf w.pc s p → (∀ k d, w.pc s ≠ .evict k d) → w'.pc t = w.pc t := by
    intro s p e hn
    by_cases x : t = s
    · subst x; exact absurd ht (hn k d)
    · rw [e, setf_ne _ _ x]
  cases hs with
  | other h1 =>
    exact no_move (w := w.with lk lview) (w' := w'.with lk lview) (h1 lk lview) ht
      (fun u hu e => by have := (hk u hu).symm.trans e; cases this) hp
  | evLock _ a hr hn h0 =>
    have := (take (R := fun _ => True) (fun _ _ _ _ _ => trivial) ⟨gd.1, trivial⟩ (v := 0) (gd.2 _) hr hn h0).2.1
    exact absurd ((hk _ a).symm.trans this) (by simp)
  | @evAgain s k' d' u ts m hq =>
    show setf w.pc s _ t = _
    by_cases x : t = s
    · subst x; rw [setf_self, hq]
    · rw [setf_ne _ _ x]
  | tryOk hq | tryAgain hq | tryFail hq | unlock hq | unlockD hq | evUnlock hq | evUnlockD hq =>
    exact key rfl (by rw [hq]; simp)

/-- Thread 0 is evicting thread 1, which has the chunk `c`, and may still read the value `msg` of
`enabled`, stored at 1; it is at one of five places of a logging call. -/
structure LLoop (c : Chunk) (msg : Msg Loc Nat) (w : St) : Prop where
  fit : LFitting 2 w
  pc0 : w.pc 0 = .evict false 0
  idle : ∀ u, 2 ≤ u → w.pc u = .idle
  pend : w.pend = fun u => u == 1
  reg : w.reg 1 = true
  tc : w.tc 1 = some c
  val : msg.val = 1
  old : msg.view.ts .en ≤ 1
  hist : w.mem.hist .en 1 = some msg
  view : (w.mem.view 1).ts .en ≤ 1
  word : ∀ ts m, w.mem.hist (lockAt 1) ts = some m → m.view.ts .en ≤ 1
  pc1 : w.pc 1 = .idle ∨ w.pc 1 = .tryLock ∨ w.pc 1 = .locked ∨ w.pc 1 = .write ∨ w.pc 1 = .unlock

/-- Thread 1 goes on. -/
theorem LLoop.go {c : Chunk} {msg : Msg Loc Nat} {w : St} (h : LLoop c msg w) :
    ∃ w', LStep w w' ∧ LLoop c msg w' ∧ w'.pc 1 ≠ w.pc 1 ∧ (w.pc 1 = .idle → w'.pc 1 = .tryLock) ∧
      (w.pc 1 = .tryLock → w'.pc 1 = .locked) := by
  have hen : ∀ u, Loc.en ≠ lockAt u := fun u e => by cases e
  have hen' : ∀ u, lockAt u ≠ Loc.en := fun u e => by cases e
  have mk : ∀ {p : Pc} {μ : Mem Loc Nat Plain}, LStep w (w.goto 1 p μ) → μ.hist .en = w.mem.hist .en →
      (μ.view 1).ts .en ≤ 1 → (∀ ts m, μ.hist (lockAt 1) ts = some m → m.view.ts .en ≤ 1) →
      (p = .idle ∨ p = .tryLock ∨ p = .locked ∨ p = .write ∨ p = .unlock) → LLoop c msg (w.goto 1 p μ) := by
    intro p μ hs h1 h2 h3 h4
    refine ⟨h.fit.keep hs rfl rfl, (setf_ne w.pc p (show (0 : Nat) ≠ 1 by decide)).trans h.pc0,
      fun u hu => (setf_ne w.pc p (show u ≠ 1 by omega)).trans (h.idle u hu),
      h.pend, h.reg, h.tc, h.val, h.old, ?_, h2, h3, ?_⟩
    · show μ.hist .en 1 = _
      rw [h1]; exact h.hist
    · show setf w.pc 1 p 1 = _ ∨ _
      simp only [St.goto, setf_self]; exact h4
  have oth : ∀ {p : Pc} {μ : Mem Loc Nat Plain}, (∀ lk lview, Step true { w with lk := lk, lview := lview }
      { w.goto 1 p μ with lk := lk, lview := lview }) → (∀ u, μ.hist (lockAt u) = w.mem.hist (lockAt u)) → w.pc 1 ≠ .tryLock →
      LStep w (w.goto 1 p μ) := by
    intro p μ h1 h2 h3
    refine .other h1 h2 (fun x hx => ?_) rfl rfl
    have : x ≠ 1 := fun e => by subst e; exact h3 hx
    exact (setf_ne _ _ this).trans hx
  obtain ⟨lk, lview, gd⟩ := good h.fit.reachable
  obtain ⟨top, m, hr, hn, hfr, h0, -⟩ := Phosphor.TLog.W.word gd 1 1
  rcases h.pc1 with e | e | e | e | e
  · have hs := oth (p := .tryLock) (μ := w.mem.loadAcq 1 .en 1 msg)
      (fun _ _ => .logOn e ⟨h.hist, h.view⟩ (by rw [h.val]; decide)) (fun _ => rfl) (by rw [e]; simp)
    refine ⟨_, hs, mk hs rfl ?_ h.word (.inr (.inl rfl)), ?_, ?_, ?_⟩
    · have := h.view
      have := h.old
      simp [Mem.loadAcq, setf, View.join, View.see]
      omega
    all_goals simp [St.goto, setf, e]
  · have hfree : lk 1 = none := by
      obtain ⟨g, hg⟩ := inv_reachable gd.1
      cases hk : lk 1 with
      | none => rfl
      | some s =>
        exfalso
        rcases hg.lkpc 1 s hk with ⟨-, hs⟩ | ⟨k', d', hs⟩
        · have hs : slave (w.pc 1) = true := hs
          rw [e] at hs; cases hs
        · have hh := hg.pcs 0
          rw [show (w.with lk lview).pc 0 = _ from h.pc0] at hh
          have hm : w.mutex = some s := by
            have := hg.pcs s
            rcases hs with e | e <;> rw [e] at this <;> exact this.1
          have : s = 0 := by have := hh.1; rw [show (w.with lk lview).mutex = _ from hm] at this; injection this
          subst this
          rcases hs with e | e <;> rw [show (w.with lk lview).pc 0 = _ from h.pc0] at e <;> cases e
    have hs := LStep.tryOk e hr hn (h0.2 hfree)
    have hv : ((((w.mem.view 1).see (lockAt 1) (top + 1)).join m.view).ts .en) ≤ 1 := by
      have := h.view
      have := h.word _ _ hr.1
      simp only [View.join, View.see, if_neg (hen 1)]
      omega
    refine ⟨_, hs, mk hs ?_ ?_ ?_ (.inr (.inr (.inl rfl))), ?_, ?_, ?_⟩
    · funext i; simp [Mem.rmwAcqRel, Mem.add, hen]
    · simpa [Mem.rmwAcqRel, Mem.add, setf] using hv
    · intro ts m' hx
      simp only [Mem.rmwAcqRel, Mem.add] at hx
      split at hx
      · injection hx with hx; rw [← hx]; exact hv
      · exact h.word _ _ hx
    all_goals simp [St.goto, setf, e]
  · have hs := oth (p := .write) (μ := (w.mem.read 1 (.tc 1)).read 1 (.cell c.1 c.2))
      (fun _ _ => .room e h.reg h.tc) (fun _ => rfl) (by rw [e]; simp)
    refine ⟨_, hs, mk hs rfl ?_ h.word (.inr (.inr (.inr (.inl rfl)))), ?_, ?_, ?_⟩
    · have := h.view
      simpa [Mem.read, setf, View.tick] using this
    all_goals simp [St.goto, setf, e]
  · have hs := oth (p := .unlock) (μ := (w.mem.read 1 (.tc 1)).write 1 (.cell c.1 c.2))
      (fun _ _ => .write e h.tc) (fun _ => rfl) (by rw [e]; simp)
    refine ⟨_, hs, mk hs rfl ?_ h.word (.inr (.inr (.inr (.inr rfl)))), ?_, ?_, ?_⟩
    · have := h.view
      simpa [Mem.read, Mem.write, setf, View.tick] using this
    all_goals simp [St.goto, setf, e]
  · have hs := LStep.unlock e hfr
    have hv : ((w.mem.view 1).see (lockAt 1) (top + 1)).ts .en ≤ 1 := by
      have := h.view
      simpa only [View.see, if_neg (hen 1)] using this
    refine ⟨_, hs, mk hs ?_ ?_ ?_ (.inl rfl), ?_, ?_, ?_⟩
    · funext i; simp [Mem.storeRel, Mem.add, hen]
    · simpa [Mem.storeRel, Mem.add, setf] using hv
    · intro ts m' hx
      simp only [Mem.storeRel, Mem.add] at hx
      split at hx
      · injection hx with hx; rw [← hx]; exact hv
      · exact h.word _ _ hx
    all_goals simp [St.goto, setf, e]

/-- Thread 0 is evicting thread 1, which may still read the old value of `enabled`. -/
theorem exLLoop : ∃ w c msg, LLoop c msg w := by
  have r := LFitting.init (n := 2)
  have r := r.go (.lockM (t := 0) rfl rfl) (t := 0) (q := .idle) (p := .crit 0) rfl rfl (by simp) (by simp) rfl rfl
  have r := r.go (.start (t := 0) rfl (fun _ => rfl)) (t := 0) (q := .crit 0) (p := .start 0) rfl rfl (by simp) (by simp) rfl rfl
  have r := r.go (.startOff (t := 0) (ts := 0) rfl ⟨rfl, by decide⟩ rfl) (t := 0) (q := .start 0) (p := .newBuf 0) rfl rfl (by simp) (by simp) rfl rfl
  have r := r.goF (.newBuf (t := 0) true 2 rfl) (t := 0) (q := .newBuf 0) (p := .turnOn 0) rfl rfl (by simp) (by simp) ⟨r.fits.few, fun b => by
    by_cases e : b = 0
    · subst e; exact fun _ => Nat.le_refl 2
    · intro hb; simp [St.with, St.goto, St.init, setf, e] at hb⟩
  have r := r.go (.turnOn (t := 0) (ts := 1) rfl ⟨rfl, by decide⟩) (t := 0) (q := .turnOn 0) (p := .crit 0) rfl rfl (by simp) (by simp) rfl rfl
  have r := r.go (.unlockM (t := 0) rfl) (t := 0) (q := .crit 0) (p := .idle) rfl rfl (by simp) (by simp) rfl rfl
  have r := r.go (.lockM (t := 1) rfl rfl) (t := 1) (q := .idle) (p := .crit 0) rfl rfl (by simp) (by simp) rfl rfl
  have r := r.register (t := 1) rfl rfl (by decide)
  have r := r.go (.unlockM (t := 1) rfl) (t := 1) (q := .crit 0) (p := .idle) rfl rfl (by simp) (by simp) rfl rfl
  have r := r.go (.logOn (t := 1) (ts := 1) rfl ⟨rfl, by decide⟩ (by decide)) (t := 1) (q := .idle) (p := .tryLock) rfl rfl (by simp) (by simp) rfl rfl
  have r := r.step (.tryOk (t := 1) (ts := 0) rfl ⟨rfl, by decide⟩ rfl rfl) ⟨r.fits.few, r.fits.room⟩
  have r := r.go (.noChunk (t := 1) rfl rfl rfl) (t := 1) (q := .locked) (p := .check) rfl rfl (by simp) (by simp) rfl rfl
  have r := r.go (.checkOn (t := 1) (ts := 1) rfl ⟨rfl, by decide⟩ (by decide)) (t := 1) (q := .check) (p := .replace) rfl rfl (by simp) (by simp) rfl rfl
  have r := r.go (.replaceNone (t := 1) rfl rfl) (t := 1) (q := .replace) (p := .again) rfl rfl (by simp) (by simp) rfl rfl
  have r := r.go (.againOn (t := 1) (ts := 1) rfl ⟨rfl, by decide⟩ (by decide)) (t := 1) (q := .again) (p := .readBuf) rfl rfl (by simp) (by simp) rfl rfl
  have r := r.go (.bufSome (t := 1) rfl rfl) (t := 1) (q := .readBuf) (p := .getChunk 0) rfl rfl (by simp) (by simp) rfl rfl
  have r := r.goF (.fresh (t := 1) (h := 0) rfl (show 0 < 2 by decide)) (t := 1) (q := .getChunk 0) (p := .reset (0, 0)) rfl rfl (by simp) (by simp) ⟨r.fits.few, fun b => by
    by_cases e : b = 0
    · subst e; exact fun _ => Nat.le_refl 2
    · intro hb; simp [St.with, St.goto, St.init, setf, e] at hb⟩
  have r := r.goF (.reset (t := 1) rfl) (t := 1) (q := .reset (0, 0)) (p := .setChunk (0, 0)) rfl rfl (by simp) (by simp) ⟨r.fits.few, r.fits.room⟩
  have r := r.goF (.setChunk (t := 1) rfl) (t := 1) (q := .setChunk (0, 0)) (p := .write) rfl rfl (by simp) (by simp) ⟨r.fits.few, r.fits.room⟩
  have r := r.goF (.write (t := 1) (c := (0, 0)) rfl rfl) (t := 1) (q := .write) (p := .unlock) rfl rfl (by simp) (by simp) ⟨r.fits.few, r.fits.room⟩
  have r := r.step (.unlock (t := 1) (ts := 2) rfl ⟨rfl, by decide +kernel⟩) ⟨r.fits.few, r.fits.room⟩
  have r := r.goF (.lockM (t := 0) rfl rfl) (t := 0) (q := .idle) (p := .crit 0) rfl rfl (by simp) (by simp) ⟨r.fits.few, r.fits.room⟩
  have r := r.goF (.stop (t := 0) (d := 0) rfl) (t := 0) (q := .crit 0) (p := .exchange false 0) rfl rfl (by simp) (by simp) ⟨r.fits.few, r.fits.room⟩
  have r := r.goF (.exchangeOn (t := 0) (ts := 1) rfl ⟨rfl, by decide +kernel⟩ rfl (by decide +kernel)) (t := 0) (q := .exchange false 0) (p := .evict false 0) rfl rfl (by simp) (by simp) ⟨r.fits.few, r.fits.room⟩
  refine ⟨_, (0, 0), _, ⟨r, rfl, fun u hu => ?_, ?_, rfl, rfl, rfl, ?_, rfl, ?_, fun ts m hx => ?_, .inl rfl⟩⟩
  · have h0 : u ≠ 0 := by omega
    have h1 : u ≠ 1 := by omega
    simp [St.with, St.goto, St.init, setf, h0, h1]
  · funext u
    by_cases e : u = 1
    · subst e; rfl
    · simp [St.with, St.goto, St.init, setf, e]
  · decide +kernel
  · decide +kernel
  · rcases ts with _ | _ | _ | n
    · injection hx with hx; subst hx; decide +kernel
    · injection hx with hx; subst hx; decide +kernel
    · injection hx with hx; subst hx; decide +kernel
    · exact absurd (show (none : Option (Msg Loc Nat)) = some m from hx) (by simp)

/-- C113: without the condition on the stores a stop may go on for ever, in an execution that is fair: thread 1 reads
the old value of `enabled` and takes its lock again and again. -/
theorem C113_refuted_stale : ∃ (σ : Nat → St) (m0 : Nat), LExec 2 σ ∧ LFair σ ∧ ∀ m, m0 ≤ m → (σ m).pc 0 = .evict false 0 := by
  obtain ⟨w, c, msg, hw⟩ := exLLoop
  obtain ⟨σ, N, h1, h2⟩ := hw.fit.exec
  have hch : ∀ w, ∃ w', LLoop c msg w → LStep w w' ∧ LLoop c msg w' ∧ w'.pc 1 ≠ w.pc 1 ∧ (w.pc 1 = .idle → w'.pc 1 = .tryLock) ∧
      (w.pc 1 = .tryLock → w'.pc 1 = .locked) := by
    intro w
    by_cases h : LLoop c msg w
    · obtain ⟨w', x⟩ := h.go
      exact ⟨w', fun _ => x⟩
    · exact ⟨w, fun x => absurd x h⟩
  obtain ⟨f, hf⟩ := Classical.axiomOfChoice hch
  obtain ⟨τ, t0, hn⟩ : ∃ τ : Nat → St, τ 0 = w ∧ ∀ m, τ (m + 1) = f (τ m) :=
    ⟨fun m => Nat.rec w (fun _ x => f x) m, rfl, fun _ => rfl⟩
  have hL : ∀ m, LLoop c msg (τ m) := by
    intro m
    induction m with
    | zero => rw [t0]; exact hw
    | succ m ih => rw [hn]; exact (hf _ ih).2.1
  have soon : ∀ m, ∃ m', m ≤ m' ∧ slave ((τ m').pc 1) = true := by
    intro m
    have two : ∀ m, (τ m).pc 1 = .tryLock → slave ((τ (m + 1)).pc 1) = true := by
      intro m e; rw [hn, (hf _ (hL m)).2.2.2.2 e]; rfl
    rcases (hL m).pc1 with e | e | e | e | e
    · refine ⟨m + 2, by omega, two (m + 1) ?_⟩
      rw [hn]; exact (hf _ (hL m)).2.2.2.1 e
    · exact ⟨m + 1, by omega, two m e⟩
    all_goals exact ⟨m, Nat.le_refl _, by rw [e]; rfl⟩
  obtain ⟨ρ, r1, r3⟩ := h1.then N (τ := τ) (by rw [t0, h2 N (Nat.le_refl _)])
    (fun m => .inr (by rw [hn]; exact (hf _ (hL m)).1)) (fun m => (hL m).fit.fits)
  refine ⟨ρ, N, r1, fun u m hm => ?_, fun m hm => ?_⟩
  · have hN : m ≤ N + m := by omega
    by_cases e1 : u = 1
    · subst e1
      refine ⟨N + m, hN, ?_⟩
      rw [Nat.add_assoc, r3, r3, hn]
      exact (hf _ (hL m)).2.2.1
    · exfalso
      by_cases e0 : u = 0
      · subst e0
        obtain ⟨m', h3, h4⟩ := soon m
        obtain ⟨-, w', h5, h6⟩ := hm (N + m') (by omega)
        rw [r3] at h5 h6
        have hp : (τ m').pend = fun u => u == 1 := (hL m').pend
        refine h6 (lno_move (hL m').fit.reachable h5 (hL m').pc0 (fun x hx => ?_) ⟨1, by rw [hp]; rfl⟩)
        rw [hp] at hx
        have : x = 1 := by simpa using hx
        subst this; exact h4
      · have := (hm (N + m) hN).1
        rw [r3, (hL m).idle u (by omega)] at this
        cases this
  · obtain ⟨j, rfl⟩ : ∃ j, m = N + j := ⟨m - N, by omega⟩
    rw [r3]; exact (hL j).pc0

end Phosphor.TLog.W
