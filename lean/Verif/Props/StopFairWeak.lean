import Verif.Props.StopEndsWeak
import Mathlib.Data.Finset.Card
import Mathlib.Data.Finset.Filter
import Mathlib.Tactic.ByContra
/-
C109: in a fair execution under the memory orders of the source, every logging call ends; after a
stop, each thread in the end logs no more; and every stop comes to its end. The last two need that a
store to `enabled` is read by every thread in the end, which C++ asks of an implementation but the
release/acquire rules do not give: without it a stop may go on for ever.
-/
namespace Phosphor.TLog.W
open Phosphor.Weak

/-- In the loop of `evictThreads`. Code: trace_log.cc:311-317. -/
def Pc.evicting : Pc → Bool
  | .evict _ _ | .evClear _ _ _ | .evUnlock _ _ _ => true
  | _ => false

/-- An execution without end, during which the threads fit; nothing may happen in a moment. -/
structure Exec (n : Nat) (σ : Nat → St) : Prop where
  first : σ 0 = St.init
  step : ∀ m, σ (m + 1) = σ m ∨ Step true (σ m) (σ (m + 1))
  fits : ∀ m, Fits n (σ m)

/-- A thread in a logging call or in an eviction, and able to go on from some moment on for ever, goes on. -/
def Fair (σ : Nat → St) : Prop :=
  ∀ u m, (∀ m', m ≤ m' → (((σ m').pc u).logging || ((σ m').pc u).evicting) = true ∧
      ∃ w', Step true (σ m') w' ∧ w'.pc u ≠ (σ m').pc u) →
    ∃ m', m ≤ m' ∧ (σ (m' + 1)).pc u ≠ (σ m').pc u

/-- In this step thread `u` loads `enabled`, gets the value stored at `ts` and goes on to another place. -/
def Reads (w w' : St) (u ts : Nat) : Prop :=
  ∃ m p, p ≠ w.pc u ∧ w.mem.readable u .en ts m ∧ w' = w.goto u p (w.mem.loadAcq u .en ts m)

/-- A value of `enabled` that is there is older than no value a thread reads from some moment on. -/
def Visible (σ : Nat → St) : Prop :=
  ∀ u n ts msg, (σ n).mem.hist .en ts = some msg →
    ∃ N, ∀ m, N ≤ m → ∀ ts', Reads (σ m) (σ (m + 1)) u ts' → ts ≤ ts'

theorem Exec.fitting {n : Nat} {σ : Nat → St} (h : Exec n σ) (m : Nat) : Fitting n (σ m) := by
  induction m with
  | zero => rw [h.first]; exact .init
  | succ m ih =>
    rcases h.step m with e | hs
    · rw [e]; exact ih
    · exact ih.step hs (h.fits _)

/-- A thread that can go on as long as it has not, goes on. -/
theorem Fair.moves {σ : Nat → St} (hf : Fair σ) {u m : Nat}
    (hp : (((σ m).pc u).logging || ((σ m).pc u).evicting) = true)
    (hc : ∀ m', m ≤ m' → (σ m').pc u = (σ m).pc u → ∃ w', Step true (σ m') w' ∧ w'.pc u ≠ (σ m').pc u) :
    ∃ m', m ≤ m' ∧ (∀ i, m ≤ i → i ≤ m' → (σ i).pc u = (σ m).pc u) ∧ (σ (m' + 1)).pc u ≠ (σ m).pc u := by
  by_cases hx : ∃ j, (σ (m + j + 1)).pc u ≠ (σ m).pc u
  · classical
    refine ⟨m + Nat.find hx, by omega, fun i h1 h2 => ?_, Nat.find_spec hx⟩
    by_cases e : i = m
    · rw [e]
    · have := Nat.find_min hx (m := i - m - 1) (by omega)
      have e2 : m + (i - m - 1) + 1 = i := by omega
      rw [e2] at this
      exact Classical.not_not.1 this
  · exfalso
    have hall : ∀ m', m ≤ m' → (σ m').pc u = (σ m).pc u := by
      intro m' hm
      by_cases e : m' = m
      · rw [e]
      · have e2 : m + (m' - m - 1) + 1 = m' := by omega
        have := Classical.not_not.1 (fun c => hx ⟨m' - m - 1, c⟩)
        rw [e2] at this; exact this
    obtain ⟨m', h1, h2⟩ := hf u m fun m' hm => ⟨by rw [hall m' hm]; exact hp, hc m' hm (hall m' hm)⟩
    exact h2 (by rw [hall m' h1, hall (m' + 1) (by omega)])

/-- C109: in a fair execution every logging call ends. -/
theorem C109_logs {n : Nat} {σ : Nat → St} (h : Exec n σ) (hf : Fair σ) {u m : Nat}
    (hl : ((σ m).pc u).logging = true) : ∃ m', m ≤ m' ∧ (σ m').pc u = .idle := by
  generalize hk : ((σ m).pc u).left = k
  induction k using Nat.strongRecOn generalizing m with
  | _ k ih =>
    obtain ⟨m', h1, h2, h3⟩ := hf.moves (u := u) (m := m) (by rw [hl]; rfl) fun m' hm e => by
      obtain ⟨w', a, b, -⟩ := C106_logs (h.fitting m') (t := u) (by rw [e]; exact hl)
      exact ⟨w', a, b⟩
    have e := h2 m' h1 (Nat.le_refl _)
    rcases h.step m' with x | hs
    · exact absurd (by rw [x, e]) h3
    · rcases step_left hs (t := u) (by rw [e]; exact hl) with x | x | ⟨x1, x2⟩
      · exact absurd (by rw [x, e]) h3
      · exact ⟨m' + 1, by omega, x⟩
      · rw [e, hk] at x2
        obtain ⟨m'', a, b⟩ := ih _ x2 x1 rfl
        exact ⟨m'', by omega, b⟩

/-- A call begins with a load of `enabled`. -/
theorem enters {w w' : St} (hs : Step true w w') {u : Nat} (h : (w.pc u).logging = false)
    (h' : (w'.pc u).logging = true) : ∃ ts m, Reads w w' u ts ∧ w.mem.hist .en ts = some m ∧ m.val ≠ 0 := by
  have key : ∀ {t : Nat} {p : Pc}, w'.pc = setf w.pc t p → p.logging = false → False := by
    intro t p e hp
    by_cases x : u = t
    · subst x; rw [e, setf_self, hp] at h'; cases h'
    · rw [e, setf_ne _ _ x, h] at h'; cases h'
  have key2 : ∀ {t : Nat} {p : Pc}, w'.pc = setf w.pc t p → (w.pc t).logging = true → False := by
    intro t p e hp
    by_cases x : u = t
    · subst x; rw [h] at hp; cases hp
    · rw [e, setf_ne _ _ x, h] at h'; cases h'
  cases hs with
  | other | extLoad | extStore | ownRead | ownGive | ownFree => exact absurd (h.symm.trans h') (by decide)
  | @logOn t ts m hq hr hv =>
    by_cases x : u = t
    · subst x; exact ⟨ts, m, ⟨m, _, (by rw [hq]; simp), hr, rfl⟩, hr.1, hv⟩
    · rw [show (w.goto t .tryLock (w.mem.loadAcq t .en ts m)).pc u = w.pc u from setf_ne _ _ x, h] at h'; cases h'
  | @exchangeOff _ k => exact (key rfl (by cases k <;> rfl)).elim
  | newBuf => exact (key (by simp [St.goto]; rfl) rfl).elim
  | tryOk hq | notReg hq | noChunk hq | fullChunk hq | room hq | checkOff hq | checkOn hq | replaceNone hq
  | replaceSome hq | giveBack hq | clear hq | againOff hq | againOn hq | bufNone hq | bufSome hq | fresh hq
  | reuse hq | exhausted hq | reset hq | setChunk hq | write hq => exact (key2 rfl (by rw [hq]; rfl)).elim
  | _ => exact (key rfl rfl).elim

/-- From time `b` on `enabled` has only been set to `false`. -/
def Zeros (w : St) (b : Nat) : Prop := ∀ ts m, w.mem.hist .en ts = some m → b ≤ ts → m.val = 0

theorem zeros_step {w w' : St} (h : Reachable true w) (hs : Step true w w') (ho : w'.off) {b : Nat} (hz : Zeros w b) :
    Zeros w' b := by
  have same : w'.mem.hist .en = w.mem.hist .en → Zeros w' b := by
    intro e ts m h1; rw [e] at h1; exact hz ts m h1
  obtain ⟨g, hg⟩ := inv_reachable h
  cases hs with
  | extStore => exact same (by funext i; simp [Mem.storeRel, Mem.add])
  | exchangeOff | exchangeOn =>
    intro ts' m' h1 h2
    simp only [St.goto, Mem.rmwAcqRel, Mem.add, Mem.read] at h1
    split at h1
    · injection h1 with e; rw [← e]
    · exact hz _ _ h1 h2
  | @turnOn t d ts hq hf =>
    intro ts' m' h1 h2
    have hM : M w t := (hg.here (μ := w.mem) (w := w) hq).1
    have hk := hg.enKnow
    rw [mv_some hM.1] at hk
    obtain ⟨t0, m0, a1, a2, a3⟩ := ho
    simp only [St.goto, Mem.storeRel, Mem.add, Mem.write] at h1 a1 a3
    have b1 := a3 ts _ (if_pos ⟨trivial, rfl⟩)
    split at a1
    · injection a1 with e; rw [← e] at a2; cases a2
    · have := hg.enMax _ _ a1
      have := hf.2
      omega
  | _ => exact same rfl

/-- C109: once tracing is off and stays off, each thread in the end logs no more. -/
theorem C109_quiet {n : Nat} {σ : Nat → St} (h : Exec n σ) (hf : Fair σ) (hv : Visible σ) {m0 : Nat}
    (ho : ∀ m, m0 ≤ m → (σ m).off) (u : Nat) : ∃ N, ∀ m, N ≤ m → ((σ m).pc u).logging = false := by
  obtain ⟨top, msg, h1, h2, h3⟩ := ho m0 (Nat.le_refl _)
  have hz : ∀ m, m0 ≤ m → Zeros (σ m) top := by
    intro m hm
    induction m, hm using Nat.le_induction with
    | base =>
      intro ts m' a b
      have := h3 _ _ a
      have e : ts = top := by omega
      subst e; rw [h1] at a; injection a with a; rw [← a]; exact h2
    | succ m hm ih =>
      rcases h.step m with e | hs
      · rw [e]; exact ih
      · exact zeros_step (h.fitting m).reachable hs (ho _ (by omega)) ih
  obtain ⟨N, hN⟩ := hv u m0 top msg h1
  have stay : ∀ m, N ≤ m → m0 ≤ m → ((σ m).pc u).logging = false → ((σ (m + 1)).pc u).logging = false := by
    intro m a b c
    cases hx : ((σ (m + 1)).pc u).logging with
    | false => rfl
    | true =>
      exfalso
      rcases h.step m with e | hs
      · rw [e, c] at hx; cases hx
      · obtain ⟨ts, m', r1, r2, r3⟩ := enters hs c hx
        exact r3 (hz m b ts m' r2 (hN m a ts r1))
  have fin : ∀ M, N ≤ M → m0 ≤ M → ((σ M).pc u).logging = false → ∃ N, ∀ m, N ≤ m → ((σ m).pc u).logging = false := by
    intro M a b c
    refine ⟨M, fun m hm => ?_⟩
    induction m, hm using Nat.le_induction with
    | base => exact c
    | succ m hm ih => exact stay m (by omega) (by omega) ih
  cases hx : ((σ (N + m0)).pc u).logging with
  | false => exact fin _ (by omega) (by omega) hx
  | true =>
    obtain ⟨M, a, b⟩ := C109_logs h hf hx
    exact fin M (by omega) (by omega) (by rw [b]; rfl)

/-- How much of an eviction is left. -/
def evLeft (n : Nat) (w : St) (t : Nat) : Nat :=
  3 * ((Finset.range n).filter fun u => w.pend u = true).card +
    match w.pc t with
    | .evict _ _ => 2
    | .evClear _ _ _ => 1
    | _ => 0

/-- The call an eviction belongs to. -/
def Pc.evOf : Pc → Option (Bool × Nat)
  | .evict k d | .evClear k d _ | .evUnlock k d _ => some (k, d)
  | _ => none

/-- A step during an eviction. -/
theorem ev_step {n : Nat} {w w' : St} (h : Fitting n w) (hs : Step true w w') {t : Nat} {k : Bool} {d : Nat}
    (he : (w.pc t).evOf = some (k, d)) :
    (w'.pc t = w.pc t ∧ evLeft n w' t = evLeft n w t) ∨ (w'.pc t ≠ w.pc t ∧ (w'.pc t).evOf = some (k, d) ∧
        evLeft n w' t < evLeft n w t) ∨
      (w'.pc t = .crit (if k then d + 1 else d) ∧ w'.off ∧ ∀ u, w'.pend u = false) := by
  obtain ⟨g, hg⟩ := inv_reachable h.reachable
  have hmx : w.mutex = some t := by
    have := hg.pcs t
    cases hq : w.pc t <;> rw [hq] at this he <;> first | (cases he; done) | exact this.1
  have same : w'.pc t = w.pc t → w'.pend = w.pend →
      (w'.pc t = w.pc t ∧ evLeft n w' t = evLeft n w t) := by
    intro a b; refine ⟨a, ?_⟩; unfold evLeft; rw [a, b]
  have key : ∀ {s : Nat} {p : Pc}, w'.pc = setf w.pc s p → w'.pend = w.pend → (w.pc s).evOf = none →
      (w'.pc t = w.pc t ∧ evLeft n w' t = evLeft n w t) := by
    intro s p e hp hn
    refine same ?_ hp
    by_cases x : t = s
    · subst x; rw [hn] at he; cases he
    · rw [e, setf_ne _ _ x]
  cases hs with
  | other | extLoad | extStore | ownRead | ownGive | ownFree => exact .inl (same rfl rfl)
  | @evLock s k' d' u hq hp hl =>
    have hM := (hg.here (μ := w.mem) (w := w) hq).1
    have e : s = t := by injection (hM.symm.trans hmx)
    subst e
    rw [hq] at he; cases he
    refine .inr (.inl ⟨by simp [St.goto, setf, hq], by simp [St.goto, setf, Pc.evOf], ?_⟩)
    simp only [evLeft, St.goto, setf_self, hq]
    exact Nat.add_lt_add_left (by decide) _
  | @evClear s k' d' u hq =>
    have hM := (hg.here (μ := w.mem) (w := w) hq).1
    have e : s = t := by injection (hM.symm.trans hmx)
    subst e
    rw [hq] at he; cases he
    refine .inr (.inl ⟨by simp [St.goto, setf, hq], by simp [St.goto, setf, Pc.evOf], ?_⟩)
    simp only [evLeft, St.goto, setf_self, hq]
    exact Nat.add_lt_add_left (by decide) _
  | @evUnlock s k' d' u hq =>
    have hh : _ := hg.here (μ := w.mem) (w := w) hq
    have hM := hh.1
    have e : s = t := by injection (hM.symm.trans hmx)
    subst e
    rw [hq] at he; cases he
    refine .inr (.inl ⟨by simp [St.goto, setf, hq], by simp [St.goto, setf, Pc.evOf], ?_⟩)
    have hpu : w.pend u = true := hh.2.2.2.2.1
    have hlt : ((Finset.range n).filter fun x => setf w.pend u false x = true).card <
        ((Finset.range n).filter fun x => w.pend x = true).card := by
      refine Finset.card_lt_card ⟨fun x hx => ?_, fun hc => ?_⟩
      · rw [Finset.mem_filter] at hx ⊢
        refine ⟨hx.1, ?_⟩
        by_cases e : x = u
        · subst e; exact hpu
        · have := hx.2; rw [setf_ne _ _ e] at this; exact this
      · have := hc (Finset.mem_filter.2 ⟨Finset.mem_range.2 (h.fits.few u (hg.penReg u hpu)), hpu⟩)
        rw [Finset.mem_filter, setf_self] at this
        cases this.2
    simp only [evLeft, St.goto, setf_self, hq]
    omega
  | @evDone s k' d' hq hp =>
    have hM := (hg.here (μ := w.mem) (w := w) hq).1
    have e : s = t := by injection (hM.symm.trans hmx)
    subst e
    rw [hq] at he; cases he
    exact .inr (.inr ⟨setf_self _ _ _, (C104_callback h.reachable hq hp).2, hp⟩)
  | @exchangeOn s k' d' ts m hq =>
    have hM := (hg.here (μ := w.mem) (w := w) hq).1.1
    have e : s = t := by injection (hM.symm.trans hmx)
    subst e
    rw [hq] at he; cases he
  | @exchangeOff s k' d' ts m hq => exact .inl (key rfl rfl (by rw [hq]; rfl))
  | newBuf _ _ hq => exact .inl (key (by simp [St.goto]; rfl) rfl (by rw [hq]; rfl))
  | logOff hq | logOn hq | tryFail hq | tryOk hq | notReg hq | noChunk hq | fullChunk hq | room hq | checkOff hq | checkOn hq
  | replaceNone hq | replaceSome hq | giveBack hq | clear hq | againOff hq | againOn hq | bufNone hq | bufSome hq
  | fresh hq | reuse hq | exhausted hq | reset hq | setChunk hq | write hq | unlock hq | lockM hq | unlockM hq | cfg hq
  | statsNone hq | statsSome hq | stop hq | resume hq | start hq | startOff hq | startOn hq | turnOn hq
  | getBuf hq | getBufOn hq | getBufOff hq | take hq | register hq | deregister hq | dNone hq | dSome hq
  | dReturnNone hq | dReturn hq | dClear hq | dErase hq => exact .inl (key rfl rfl (by rw [hq]; rfl))

/-- C109: in a fair execution in which stores to `enabled` are read by every thread in the end, every
eviction ends, with the stopped callback next, tracing off and no thread left to evict. -/
theorem C109_stop {n : Nat} {σ : Nat → St} (h : Exec n σ) (hf : Fair σ) (hv : Visible σ) {t m0 : Nat} {k : Bool} {d : Nat}
    (ht : (σ m0).pc t = .evict k d) :
    ∃ m, m0 ≤ m ∧ (σ m).pc t = .crit (if k then d + 1 else d) ∧ (σ m).off ∧ ∀ u, (σ m).pend u = false := by
  by_contra hno
  have hev : ∀ m, m0 ≤ m → ((σ m).pc t).evOf = some (k, d) := by
    intro m hm
    induction m, hm using Nat.le_induction with
    | base => rw [ht]; rfl
    | succ m hm ih =>
      rcases h.step m with e | hs
      · rw [e]; exact ih
      · rcases ev_step (h.fitting m) hs ih with ⟨x, -⟩ | ⟨-, x, -⟩ | x
        · rw [x]; exact ih
        · exact x
        · exact absurd ⟨m + 1, by omega, x⟩ hno
  have hoff : ∀ m, m0 ≤ m → (σ m).off := by
    intro m hm
    obtain ⟨g, hg⟩ := inv_reachable (h.fitting m).reachable
    have := hg.pcs t
    have he := hev m hm
    refine hg.isOff ?_
    cases hq : (σ m).pc t <;> rw [hq] at this he <;> first | (cases he; done) | exact this.2.1
  have hq : ∃ N, ∀ u, u < n → ∀ m, N ≤ m → ((σ m).pc u).logging = false := by
    have : ∀ j, ∃ N, ∀ u, u < j → ∀ m, N ≤ m → ((σ m).pc u).logging = false := by
      intro j
      induction j with
      | zero => exact ⟨0, fun u hu => by omega⟩
      | succ j ih =>
        obtain ⟨N, hN⟩ := ih
        obtain ⟨N', hN'⟩ := C109_quiet h hf hv hoff j
        refine ⟨N + N', fun u hu m hm => ?_⟩
        by_cases e : u = j
        · subst e; exact hN' m (by omega)
        · exact hN u (by omega) m (by omega)
    exact this n
  obtain ⟨N, hN⟩ := hq
  have fin : ∀ c m, N ≤ m → m0 ≤ m → evLeft n (σ m) t = c → False := by
    intro c
    induction c using Nat.strongRecOn with
    | _ c ih =>
      intro m a b e
      have he := hev m b
      obtain ⟨m', h1, h2, h3⟩ := hf.moves (u := t) (m := m)
        (by cases hq : (σ m).pc t <;> rw [hq] at he <;> first | (cases he; done) | rfl)
        (fun m' hm hp => by
          rcases C106_waits (h.fitting m') (t := t) (fun x => by rw [hp] at x; rw [x] at he; cases he) with x | ⟨k', d', x, y⟩
          · exact x
          · obtain ⟨g, hg⟩ := inv_reachable (h.fitting m').reachable
            have hpn : ∀ u, (σ m').pend u = false := by
              intro u
              cases hu : (σ m').pend u with
              | false => rfl
              | true =>
                have := (y u hu).2.1
                rw [hN u ((h.fits m').few u (hg.penReg u hu)) m' (by omega)] at this; cases this
            exact ⟨_, .evDone x hpn, by simp [St.goto, setf, x]⟩)
      have hle : ∀ i, m ≤ i → i ≤ m' → evLeft n (σ i) t = c := by
        intro i hi
        induction i, hi using Nat.le_induction with
        | base => exact fun _ => e
        | succ i hi ihh =>
          intro hi'
          rcases h.step i with x | hs
          · rw [x]; exact ihh (by omega)
          · have e1 := h2 i hi (by omega)
            have e2 := h2 (i + 1) (by omega) hi'
            rcases ev_step (h.fitting i) hs (hev i (by omega)) with ⟨-, x⟩ | ⟨x, -⟩ | ⟨x, -⟩
            · rw [x]; exact ihh (by omega)
            · exact absurd (e2.trans e1.symm) x
            · have := hev (i + 1) (by omega)
              rw [x] at this; cases this
      have e1 := h2 m' h1 (Nat.le_refl _)
      rcases h.step m' with x | hs
      · exact h3 (by rw [x, e1])
      · rcases ev_step (h.fitting m') hs (hev m' (by omega)) with ⟨x, -⟩ | ⟨-, -, x⟩ | ⟨x, -⟩
        · exact h3 (x.trans e1)
        · rw [hle m' h1 (Nat.le_refl _)] at x
          exact ih _ x (m' + 1) (by omega) (by omega) rfl
        · have := hev (m' + 1) (by omega)
          rw [x] at this; cases this
  exact fin _ (N + m0) (by omega) (by omega) rfl

/-! ### Cases -/

/-- An execution that from `N` on goes like `τ`. -/
theorem Exec.then {n : Nat} {σ τ : Nat → St} (h : Exec n σ) (N : Nat) (h0 : τ 0 = σ N)
    (hs : ∀ m, τ (m + 1) = τ m ∨ Step true (τ m) (τ (m + 1))) (hf : ∀ m, Fits n (τ m)) :
    ∃ ρ, Exec n ρ ∧ (∀ m, m ≤ N → ρ m = σ m) ∧ ∀ m, ρ (N + m) = τ m := by
  have e1 : ∀ m, m ≤ N → (if m < N then σ m else τ (m - N)) = σ m := by
    intro m hm
    by_cases e : m < N
    · exact if_pos e
    · have e : m = N := by omega
      subst e; rw [if_neg (by omega), Nat.sub_self]; exact h0
  have e2 : ∀ m, (if N + m < N then σ (N + m) else τ (N + m - N)) = τ m := by
    intro m; rw [if_neg (by omega), Nat.add_sub_cancel_left]
  refine ⟨fun m => if m < N then σ m else τ (m - N), ⟨(e1 0 (by omega)).trans h.first, fun m => ?_, fun m => ?_⟩, e1, e2⟩
  · by_cases e : m < N
    · rw [e1 m (by omega), e1 (m + 1) (by omega)]; exact h.step m
    · obtain ⟨j, rfl⟩ : ∃ j, m = N + j := ⟨m - N, by omega⟩
      rw [e2 j, Nat.add_assoc, e2 (j + 1)]; exact hs j
  · by_cases e : m < N
    · rw [e1 m (by omega)]; exact h.fits m
    · obtain ⟨j, rfl⟩ : ∃ j, m = N + j := ⟨m - N, by omega⟩
      rw [e2 j]; exact hf j

/-- An execution that gets to `w`. -/
theorem Fitting.exec {n : Nat} {w : St} (h : Fitting n w) : ∃ σ N, Exec n σ ∧ σ N = w := by
  induction h with
  | init => exact ⟨fun _ => St.init, 0, ⟨rfl, fun _ => .inl rfl, fun _ => Fitting.init.fits⟩, rfl⟩
  | @step w w' h hs hf ih =>
    obtain ⟨σ, N, h1, h2⟩ := ih
    obtain ⟨ρ, r1, -, r3⟩ := h1.then N (τ := fun m => if m = 0 then w else w') h2.symm
      (fun m => by
        by_cases e : m = 0
        · subst e; exact .inr hs
        · exact .inl (by simp [e]))
      (fun m => by
        by_cases e : m = 0
        · subst e; exact h.fits
        · simp only [e, if_false]; exact hf)
    exact ⟨ρ, N + 1, r1, r3 1⟩

/-- A thread evicting waits for the threads that have their locks. -/
theorem no_move {w w' : St} (hs : Step true w w') {t : Nat} {k : Bool} {d : Nat} (ht : w.pc t = .evict k d)
    (hl : ∀ u, w.pend u = true → w.lk u ≠ none) (hp : ∃ u, w.pend u = true) : w'.pc t = w.pc t := by
  have key : ∀ {s : Nat} {p : Pc}, w'.pc = setf w.pc s p → (w.pc s).evOf = none → w'.pc t = w.pc t := by
    intro s p e hn
    by_cases x : t = s
    · subst x; rw [ht] at hn; cases hn
    · rw [e, setf_ne _ _ x]
  have key2 : ∀ {s : Nat} {p : Pc}, w'.pc = setf w.pc s p → (∀ k d, w.pc s ≠ .evict k d) → w'.pc t = w.pc t := by
    intro s p e hn
    by_cases x : t = s
    · subst x; exact absurd ht (hn k d)
    · rw [e, setf_ne _ _ x]
  cases hs with
  | other | extLoad | extStore | ownRead | ownGive | ownFree => rfl
  | evLock hq a b => exact absurd b (hl _ a)
  | evDone hq a =>
    obtain ⟨u, hu⟩ := hp
    rw [a u] at hu; cases hu
  | evClear hq | evUnlock hq => exact key2 rfl (by rw [hq]; simp)
  | newBuf _ _ hq => exact key (by simp [St.goto]; rfl) (by rw [hq]; rfl)
  | logOff hq | logOn hq | tryFail hq | tryOk hq | notReg hq | noChunk hq | fullChunk hq | room hq | checkOff hq | checkOn hq
  | replaceNone hq | replaceSome hq | giveBack hq | clear hq | againOff hq | againOn hq | bufNone hq | bufSome hq
  | fresh hq | reuse hq | exhausted hq | reset hq | setChunk hq | write hq | unlock hq | lockM hq | unlockM hq | cfg hq
  | statsNone hq | statsSome hq | stop hq | resume hq | start hq | startOff hq | startOn hq | turnOn hq
  | getBuf hq | getBufOn hq | getBufOff hq | take hq | register hq | deregister hq | dNone hq | dSome hq
  | dReturnNone hq | dReturn hq | dClear hq | dErase hq | exchangeOff hq | exchangeOn hq =>
    exact key rfl (by rw [hq]; rfl)

/-- Thread 0 is evicting thread 1, which has the chunk `c`, and may still read the value `msg` of
`enabled`, stored at 1; it is at one of five places of a logging call. -/
structure Loop (c : Chunk) (msg : Msg Loc Nat) (w : St) : Prop where
  fit : Fitting 2 w
  pc0 : w.pc 0 = .evict false 0
  idle : ∀ u, 2 ≤ u → w.pc u = .idle
  pend : w.pend = fun u => u == 1
  reg : w.reg 1 = true
  tc : w.tc 1 = some c
  val : msg.val = 1
  old : msg.view.ts .en ≤ 1
  hist : w.mem.hist .en 1 = some msg
  view : (w.mem.view 1).ts .en ≤ 1
  lview : (w.lview 1).ts .en ≤ 1
  pc1 : (w.pc 1 = .idle ∧ w.lk 1 = none) ∨ (w.pc 1 = .tryLock ∧ w.lk 1 = none) ∨ (w.pc 1 = .locked ∧ w.lk 1 = some 1) ∨
    (w.pc 1 = .write ∧ w.lk 1 = some 1) ∨ (w.pc 1 = .unlock ∧ w.lk 1 = some 1)

/-- The next step of thread 1. -/
def nextOne (c : Chunk) (msg : Msg Loc Nat) (w : St) : St :=
  match w.pc 1 with
  | .idle => w.goto 1 .tryLock (w.mem.loadAcq 1 .en 1 msg)
  | .tryLock => { w.goto 1 .locked (learn w.mem 1 (w.lview 1)) with lk := setf w.lk 1 (some 1) }
  | .locked => w.goto 1 .write ((w.mem.read 1 (.tc 1)).read 1 (.cell c.1 c.2))
  | .write => w.goto 1 .unlock ((w.mem.read 1 (.tc 1)).write 1 (.cell c.1 c.2))
  | _ => { w.goto 1 .idle w.mem with lk := setf w.lk 1 none, lview := setf w.lview 1 (w.mem.view 1) }

theorem Loop.next {c : Chunk} {msg : Msg Loc Nat} {w : St} (h : Loop c msg w) :
    Step true w (nextOne c msg w) ∧ Loop c msg (nextOne c msg w) ∧ (nextOne c msg w).pc 1 ≠ w.pc 1 := by
  have pcs : ∀ {w' : St} {p : Pc}, w'.pc = setf w.pc 1 p → w'.pc 0 = .evict false 0 ∧ ∀ u, 2 ≤ u → w'.pc u = .idle := by
    intro w' p e
    refine ⟨by rw [e, setf_ne _ _ (by decide)]; exact h.pc0, fun u hu => ?_⟩
    rw [e, setf_ne _ _ (by omega)]; exact h.idle u hu
  rcases h.pc1 with ⟨e, l⟩ | ⟨e, l⟩ | ⟨e, l⟩ | ⟨e, l⟩ | ⟨e, l⟩
  · have hs : Step true w (w.goto 1 .tryLock (w.mem.loadAcq 1 .en 1 msg)) :=
      .logOn e ⟨h.hist, h.view⟩ (by rw [h.val]; decide)
    have hn : nextOne c msg w = w.goto 1 .tryLock (w.mem.loadAcq 1 .en 1 msg) := by unfold nextOne; rw [e]
    rw [hn]
    refine ⟨hs, ⟨h.fit.keep hs rfl rfl, (pcs rfl).1, (pcs rfl).2, h.pend, h.reg, h.tc, h.val, h.old, h.hist, ?_,
      h.lview, .inr (.inl ⟨(by simp [St.goto, setf]), l⟩)⟩, by rw [e]; simp [St.goto, setf]⟩
    have := h.view
    have := h.old
    simp [St.goto, Mem.loadAcq, setf, View.join, View.see]
    omega
  · have hs : Step true w { w.goto 1 .locked (learn w.mem 1 (w.lview 1)) with lk := setf w.lk 1 (some 1) } := .tryOk e l
    have hn : nextOne c msg w = { w.goto 1 .locked (learn w.mem 1 (w.lview 1)) with lk := setf w.lk 1 (some 1) } := by
      unfold nextOne; rw [e]
    rw [hn]
    refine ⟨hs, ⟨h.fit.keep hs rfl rfl, (pcs rfl).1, (pcs rfl).2, h.pend, h.reg, h.tc, h.val, h.old, h.hist, ?_,
      h.lview, .inr (.inr (.inl ⟨(by simp [St.goto, setf]), (by simp [St.goto, setf])⟩))⟩, by rw [e]; simp [St.goto, setf]⟩
    have := h.view
    have := h.lview
    simp [St.goto, learn, setf, View.join]
    omega
  · have hs : Step true w (w.goto 1 .write ((w.mem.read 1 (.tc 1)).read 1 (.cell c.1 c.2))) := .room e h.reg h.tc
    have hn : nextOne c msg w = w.goto 1 .write ((w.mem.read 1 (.tc 1)).read 1 (.cell c.1 c.2)) := by
      unfold nextOne; rw [e]
    rw [hn]
    refine ⟨hs, ⟨h.fit.keep hs rfl rfl, (pcs rfl).1, (pcs rfl).2, h.pend, h.reg, h.tc, h.val, h.old, h.hist, ?_,
      h.lview, .inr (.inr (.inr (.inl ⟨(by simp [St.goto, setf]), l⟩)))⟩, by rw [e]; simp [St.goto, setf]⟩
    have := h.view
    simpa [St.goto, Mem.read, setf, View.tick] using this
  · have hs : Step true w (w.goto 1 .unlock ((w.mem.read 1 (.tc 1)).write 1 (.cell c.1 c.2))) := .write e h.tc
    have hn : nextOne c msg w = w.goto 1 .unlock ((w.mem.read 1 (.tc 1)).write 1 (.cell c.1 c.2)) := by
      unfold nextOne; rw [e]
    rw [hn]
    refine ⟨hs, ⟨h.fit.keep hs rfl rfl, (pcs rfl).1, (pcs rfl).2, h.pend, h.reg, h.tc, h.val, h.old, h.hist, ?_,
      h.lview, .inr (.inr (.inr (.inr ⟨(by simp [St.goto, setf]), l⟩)))⟩, by rw [e]; simp [St.goto, setf]⟩
    have := h.view
    simpa [St.goto, Mem.read, Mem.write, setf, View.tick] using this
  · have hs : Step true w { w.goto 1 .idle w.mem with lk := setf w.lk 1 none, lview := setf w.lview 1 (w.mem.view 1) } :=
      .unlock e
    have hn : nextOne c msg w =
        { w.goto 1 .idle w.mem with lk := setf w.lk 1 none, lview := setf w.lview 1 (w.mem.view 1) } := by
      unfold nextOne; rw [e]
    rw [hn]
    refine ⟨hs, ⟨h.fit.keep hs rfl rfl, (pcs rfl).1, (pcs rfl).2, h.pend, h.reg, h.tc, h.val, h.old, h.hist, h.view,
      ?_, .inl ⟨(by simp [St.goto, setf]), (by simp [St.goto, setf])⟩⟩, by rw [e]; simp [St.goto, setf]⟩
    simp only [setf_self]; exact h.view

/-- Soon thread 1 has its lock. -/
theorem Loop.soon {c : Chunk} {msg : Msg Loc Nat} {τ : Nat → St} (h : ∀ m, Loop c msg (τ m))
    (hn : ∀ m, τ (m + 1) = nextOne c msg (τ m)) (m : Nat) : ∃ m', m ≤ m' ∧ (τ m').lk 1 = some 1 := by
  have two : ∀ m, (τ m).pc 1 = .tryLock → (τ (m + 1)).lk 1 = some 1 := by
    intro m e; rw [hn]; unfold nextOne; rw [e]; simp [St.goto, setf]
  rcases (h m).pc1 with ⟨e, -⟩ | ⟨e, -⟩ | ⟨-, l⟩ | ⟨-, l⟩ | ⟨-, l⟩
  · refine ⟨m + 2, by omega, two (m + 1) ?_⟩
    rw [hn]; unfold nextOne; rw [e]; simp [St.goto, setf]
  · exact ⟨m + 1, by omega, two m e⟩
  all_goals exact ⟨m, Nat.le_refl _, l⟩

/-- Tracing is on, thread 1 has a chunk, nobody is in a call. -/
theorem exTracing : ∃ (w : St) (c : Chunk) (msg : Msg Loc Nat), Fitting 2 w ∧ (∀ u, w.pc u = .idle) ∧ w.mutex = none ∧
    (w.reg = fun u => u == 1) ∧ w.tc 1 = some c ∧ w.mem.hist .en 1 = some msg ∧ w.mem.hist .en 2 = none ∧ msg.val = 1 ∧
    msg.view.ts .en ≤ 1 ∧ (w.mem.view 1).ts .en ≤ 1 ∧ (w.lview 1).ts .en ≤ 1 ∧ (w.mem.view 0).ts .en ≤ 1 ∧
    w.mview.ts .en ≤ 1 ∧ w.lk 1 = none := by
  have r := Fitting.init (n := 2)
  have r := r.keep (.lockM (t := 0) rfl rfl) rfl rfl
  have r := r.keep (.start (t := 0) rfl (fun _ => rfl)) rfl rfl
  have r := r.keep (.startOff (t := 0) (ts := 0) rfl ⟨rfl, by decide⟩ rfl) rfl rfl
  have r := r.step (.newBuf (t := 0) true 2 rfl) ⟨r.fits.few, fun b => by
    by_cases e : b = 0
    · subst e; exact fun _ => Nat.le_refl 2
    · intro hb; simp [St.goto, St.init, setf, e] at hb⟩
  have r := r.keep (.turnOn (t := 0) (ts := 1) rfl ⟨rfl, by decide⟩) rfl rfl
  have r := r.keep (.unlockM (t := 0) rfl) rfl rfl
  have r := r.keep (.lockM (t := 1) rfl rfl) rfl rfl
  have r := r.step (.register (t := 1) rfl rfl) ⟨fun t => by
    by_cases e : t = 1
    · subst e; exact fun _ => (by decide)
    · intro hb; simp [St.goto, St.init, setf, e] at hb, r.fits.room⟩
  have r := r.keep (.unlockM (t := 1) rfl) rfl rfl
  have r := r.keep (.logOn (t := 1) (ts := 1) rfl ⟨rfl, by decide⟩ (by decide)) rfl rfl
  have r := r.keep (.tryOk (t := 1) rfl rfl) rfl rfl
  have r := r.keep (.noChunk (t := 1) rfl rfl rfl) rfl rfl
  have r := r.keep (.checkOn (t := 1) (ts := 1) rfl ⟨rfl, by decide⟩ (by decide)) rfl rfl
  have r := r.keep (.replaceNone (t := 1) rfl rfl) rfl rfl
  have r := r.keep (.againOn (t := 1) (ts := 1) rfl ⟨rfl, by decide⟩ (by decide)) rfl rfl
  have r := r.keep (.bufSome (t := 1) rfl rfl) rfl rfl
  have r := r.step (.fresh (t := 1) (h := 0) rfl (by decide)) ⟨r.fits.few, fun b => by
    by_cases e : b = 0
    · subst e; exact fun _ => Nat.le_refl 2
    · intro hb; simp [St.goto, St.init, setf, e] at hb⟩
  have r := r.keep (.reset (t := 1) rfl) rfl rfl
  have r := r.keep (.setChunk (t := 1) rfl) rfl rfl
  have r := r.keep (.write (t := 1) (c := (0, 0)) rfl rfl) rfl rfl
  have r := r.keep (.unlock (t := 1) rfl) rfl rfl
  refine ⟨_, (0, 0), _, r, fun u => ?_, rfl, ?_, rfl, rfl, rfl, rfl, ?_, ?_, ?_, ?_, ?_, rfl⟩
  · by_cases h0 : u = 0
    · subst h0; rfl
    · by_cases h1 : u = 1
      · subst h1; rfl
      · simp [St.goto, St.init, setf, h0, h1]
  · funext u
    by_cases e : u = 1
    · subst e; rfl
    · simp [St.goto, St.init, setf, e]
  all_goals decide +kernel

/-- Thread 0 is evicting thread 1, which may still read the old value of `enabled`. -/
theorem exLoop : ∃ w c msg, Loop c msg w ∧ w.pc 1 = .idle := by
  obtain ⟨w, c, msg, r, h1, h2, h3, h4, h5, h6, h7, h8, h9, h10, h11, h12, h13⟩ := exTracing
  have r := r.keep (.lockM (t := 0) (h1 0) h2) rfl rfl
  have r := r.keep (.stop (t := 0) (d := 0) (by simp [St.goto, setf])) rfl rfl
  have r := r.keep (.exchangeOn (t := 0) (ts := 1) (k := false) (d := 0) (m := msg) (by simp [St.goto, setf])
    ⟨h5, (by simp [St.goto, learn, setf, View.join]; omega)⟩ h6 (by rw [h7]; decide)) rfl rfl
  refine ⟨_, c, msg, ⟨r, ?_, fun u hu => ?_, h3, ?_, h4, h7, h8, ?_, ?_, h10, .inl ⟨?_, h13⟩⟩, ?_⟩
  · simp [St.goto, setf]
  · have : u ≠ 0 := by omega
    simp [St.goto, setf, this, h1]
  · show w.reg 1 = true
    rw [h3]; rfl
  · simp [St.goto, Mem.rmwAcqRel, Mem.add, Mem.read, learn, h5]
  · simpa [St.goto, Mem.rmwAcqRel, Mem.add, Mem.read, learn, setf, View.join, View.see, View.tick] using h9
  · simp [St.goto, setf, h1]
  · simp [St.goto, setf, h1]

/-- C109: without the condition on the stores a stop may go on for ever: thread 1 reads the old value
of `enabled` and takes its lock again and again. (When its chunk is full is left open in the model; here
it always has room.) -/
theorem C109_refuted_stale : ∃ (σ : Nat → St) (m0 : Nat), Exec 2 σ ∧ Fair σ ∧ ∀ m, m0 ≤ m → (σ m).pc 0 = .evict false 0 := by
  obtain ⟨w, c, msg, hw, -⟩ := exLoop
  obtain ⟨σ, N, h1, h2⟩ := hw.fit.exec
  obtain ⟨τ, t0, hn⟩ : ∃ τ : Nat → St, τ 0 = w ∧ ∀ m, τ (m + 1) = nextOne c msg (τ m) :=
    ⟨fun m => Nat.rec w (fun _ x => nextOne c msg x) m, rfl, fun _ => rfl⟩
  have hL : ∀ m, Loop c msg (τ m) := by
    intro m
    induction m with
    | zero => rw [t0]; exact hw
    | succ m ih => rw [hn]; exact ih.next.2.1
  obtain ⟨ρ, r1, -, r3⟩ := h1.then N (τ := τ) (t0.trans h2.symm)
    (fun m => .inr (by rw [hn]; exact (hL m).next.1)) (fun m => (hL m).fit.fits)
  refine ⟨ρ, N, r1, fun u m hm => ?_, fun m hm => ?_⟩
  · have hN : m ≤ N + m := by omega
    by_cases e1 : u = 1
    · subst e1
      refine ⟨N + m, hN, ?_⟩
      rw [Nat.add_assoc, r3, r3, hn]
      exact (hL m).next.2.2
    · exfalso
      by_cases e0 : u = 0
      · subst e0
        obtain ⟨m', h3, h4⟩ := Loop.soon hL hn m
        obtain ⟨-, w', h5, h6⟩ := hm (N + m') (by omega)
        rw [r3] at h5 h6
        have hp : (τ m').pend = fun u => u == 1 := (hL m').pend
        refine h6 (no_move h5 (hL m').pc0 (fun x hx => ?_) ⟨1, by rw [hp]; rfl⟩)
        rw [hp] at hx
        have : x = 1 := by simpa using hx
        subst this; rw [h4]; simp
      · have := (hm (N + m) hN).1
        rw [r3, (hL m).idle u (by omega)] at this
        cases this
  · obtain ⟨j, rfl⟩ : ∃ j, m = N + j := ⟨m - N, by omega⟩
    rw [r3]; exact (hL j).pc0

/-- An execution that gets to `w` by way of a state as in `Q`. -/
def Passed (n : Nat) (Q : St → Prop) (w : St) : Prop := ∃ σ N m0, Exec n σ ∧ σ N = w ∧ m0 ≤ N ∧ Q (σ m0)

theorem Passed.start {n : Nat} {Q : St → Prop} {w : St} (h : Fitting n w) (hq : Q w) : Passed n Q w := by
  obtain ⟨σ, N, h1, h2⟩ := h.exec
  exact ⟨σ, N, N, h1, h2, Nat.le_refl _, by rw [h2]; exact hq⟩

theorem Passed.step {n : Nat} {Q : St → Prop} {w w' : St} (h : Passed n Q w) (hs : Step true w w') (hf : Fits n w') :
    Passed n Q w' := by
  obtain ⟨σ, N, m0, h1, h2, h3, h4⟩ := h
  obtain ⟨ρ, r1, r2, r3⟩ := h1.then N (τ := fun m => if m = 0 then w else w') h2.symm
    (fun m => by
      by_cases e : m = 0
      · subst e; exact .inr hs
      · exact .inl (by simp [e]))
    (fun m => by
      by_cases e : m = 0
      · subst e; simp only [if_true]; rw [← h2]; exact h1.fits N
      · simp only [e, if_false]; exact hf)
  exact ⟨ρ, N + 1, m0, r1, r3 1, by omega, by rw [r2 m0 h3]; exact h4⟩

theorem Passed.stay {n : Nat} {Q : St → Prop} {w : St} (h : Passed n Q w)
    (hw : ∀ u, ((w.pc u).logging || (w.pc u).evicting) = false) :
    ∃ σ m0 N, Exec n σ ∧ Fair σ ∧ Visible σ ∧ Q (σ m0) ∧ ∀ m, N ≤ m → σ m = w := by
  obtain ⟨σ, N, m0, h1, h2, h3, h4⟩ := h
  obtain ⟨ρ, r1, r2, r3⟩ := h1.then N (τ := fun _ => w) h2.symm (fun _ => .inl rfl)
    (fun _ => by rw [← h2]; exact h1.fits N)
  have hc : ∀ m, N ≤ m → ρ m = w := by
    intro m hm
    obtain ⟨j, rfl⟩ : ∃ j, m = N + j := ⟨m - N, by omega⟩
    exact r3 j
  refine ⟨ρ, m0, N, r1, fun u m hm => ?_, fun u _ ts msg _ => ⟨N, fun m hm ts' hr => ?_⟩, by rw [r2 m0 h3]; exact h4, hc⟩
  · have := (hm (N + m) (by omega)).1
    rw [r3, hw u] at this; cases this
  · obtain ⟨m', p, a, -, b⟩ := hr
    rw [hc m hm] at a
    rw [hc m hm, hc (m + 1) (by omega)] at b
    exfalso; apply a
    have := congrArg (fun x => St.pc x u) b
    simp only [St.goto, setf_self] at this
    exact this.symm

/-- A case: thread 0 evicts thread 1, which is in a logging call it began on an old value of `enabled`. -/
theorem exFair : ∃ σ m0 N, Exec 2 σ ∧ Fair σ ∧ Visible σ ∧ ((σ m0).pc 0 = .evict false 0 ∧ (σ m0).pend 1 = true ∧
    (σ m0).pc 1 = .locked) ∧ ∀ m, N ≤ m → (σ m).off := by
  obtain ⟨w, c, msg, h, e⟩ := exLoop
  have h1 := h.next.2.1
  have h2 := h1.next.2.1
  have e1 : (nextOne c msg w).pc 1 = .tryLock := by
    unfold nextOne; rw [e]; simp [St.goto, setf]
  generalize nextOne c msg w = w1 at h1 h2 e1
  have e2 : (nextOne c msg w1).pc 1 = .locked := by
    unfold nextOne; rw [e1]; simp [St.goto, setf]
  generalize nextOne c msg w1 = w2 at h2 e2
  have P := Passed.start (Q := fun w => w.pc 0 = .evict false 0 ∧ w.pend 1 = true ∧ w.pc 1 = .locked) h2.fit
    ⟨h2.pc0, by rw [h2.pend]; rfl, e2⟩
  have h3 := h2.next
  have P := P.step h3.1 h3.2.1.fit.fits
  have e3 : (nextOne c msg w2).pc 1 = .write := by
    unfold nextOne; rw [e2]; simp [St.goto, setf]
  generalize nextOne c msg w2 = w3 at h3 e3 P
  have h4 := h3.2.1.next
  have P := P.step h4.1 h4.2.1.fit.fits
  have e4 : (nextOne c msg w3).pc 1 = .unlock := by
    unfold nextOne; rw [e3]; simp [St.goto, setf]
  generalize nextOne c msg w3 = w4 at h4 e4 P
  have h5 := h4.2.1.next
  have P := P.step h5.1 h5.2.1.fit.fits
  have e5 : (nextOne c msg w4).pc 1 = .idle ∧ (nextOne c msg w4).lk 1 = none := by
    unfold nextOne; rw [e4]; simp [St.goto, setf]
  generalize nextOne c msg w4 = w5 at h5 e5 P
  have h5 := h5.2.1
  have s6 := Step.evLock (pol := true) (w := w5) (t := 0) (u := 1) h5.pc0 (by rw [h5.pend]; rfl) e5.2
  have f6 := h5.fit.keep s6 rfl rfl
  generalize hw6 : ({ w5.goto 0 (.evClear false 0 1) (learn w5.mem 0 (w5.lview 1)) with
    lk := setf w5.lk 1 (some 0) } : St) = w6 at s6 f6
  have q6 : w6.pc = setf w5.pc 0 (.evClear false 0 1) := by subst hw6; rfl
  have p6 : w6.pend = w5.pend := by subst hw6; rfl
  have P := P.step s6 f6.fits
  have s7 := Step.evClear (pol := true) (w := w6) (t := 0) (k := false) (d := 0) (u := 1) (by rw [q6, setf_self])
  have f7 := f6.keep s7 rfl rfl
  generalize hw7 : ({ w6.goto 0 (.evUnlock false 0 1) (w6.mem.write 0 (.tc 1)) with tc := setf w6.tc 1 none } : St) = w7 at s7 f7
  have q7 : w7.pc = setf w6.pc 0 (.evUnlock false 0 1) := by subst hw7; rfl
  have p7 : w7.pend = w6.pend := by subst hw7; rfl
  have P := P.step s7 f7.fits
  have s8 := Step.evUnlock (pol := true) (w := w7) (t := 0) (k := false) (d := 0) (u := 1) (by rw [q7, setf_self])
  have f8 := f7.keep s8 rfl rfl
  generalize hw8 : ({ w7.goto 0 (.evict false 0) w7.mem with
    lk := setf w7.lk 1 none
    lview := setf w7.lview 1 (w7.mem.view 0)
    pend := setf w7.pend 1 false } : St) = w8 at s8 f8
  have q8 : w8.pc = setf w7.pc 0 (.evict false 0) := by subst hw8; rfl
  have p8 : ∀ u, w8.pend u = false := by
    intro u
    subst hw8
    show setf w7.pend 1 false u = false
    rw [p7, p6, h5.pend]
    by_cases x : u = 1 <;> simp [setf, x]
  have P := P.step s8 f8.fits
  obtain ⟨s9, ho⟩ := C104_callback f8.reachable (t := 0) (k := false) (d := 0) (by rw [q8, setf_self]) p8
  have P := P.step s9 (f8.keep s9 rfl rfl).fits
  obtain ⟨σ, m0, N, a1, a2, a3, a4, a5⟩ := P.stay (fun u => by
    show ((setf w8.pc 0 (Pc.crit 0) u).logging || (setf w8.pc 0 (Pc.crit 0) u).evicting) = false
    by_cases x0 : u = 0
    · subst x0; rw [setf_self]; rfl
    · rw [setf_ne _ _ x0, q8, setf_ne _ _ x0, q7, setf_ne _ _ x0, q6, setf_ne _ _ x0]
      by_cases x1 : u = 1
      · subst x1; rw [e5.1]; rfl
      · rw [h5.idle u (by omega)]; rfl)
  exact ⟨σ, m0, N, a1, a2, a3, a4, fun m hm => by rw [a5 m hm]; exact ho⟩

/-- The conclusions in that case. -/
example : ∃ σ m0 m, Exec 2 σ ∧ (σ m0).pc 0 = .evict false 0 ∧ ((σ m0).pc 1).logging = true ∧ m0 ≤ m ∧ (σ m).pc 0 = .crit 0 ∧
    (∃ m', m0 ≤ m' ∧ (σ m').pc 1 = .idle) ∧ ∃ N, ∀ i, N ≤ i → ((σ i).pc 1).logging = false := by
  obtain ⟨σ, m0, N, h, hf, hv, ⟨a, -, b⟩, ho⟩ := exFair
  obtain ⟨m, h1, h2, -⟩ := C109_stop h hf hv a
  have hl : ((σ m0).pc 1).logging = true := by rw [b]; rfl
  exact ⟨σ, m0, m, h, a, hl, h1, h2, C109_logs h hf hl, C109_quiet h hf hv ho 1⟩

end Phosphor.TLog.W
