import Verif.Props.LocksWeak
import Verif.Props.StopEndsWeak
/-
C112: progress of the trace log over a release/acquire memory with the compare-exchanges and stores of
the chunk locks in the same memory.
-/
namespace Phosphor.TLog.W
open Phosphor.Weak

/-- An execution, with lock words, during which there are at most `n` registered threads and rings have
at least `n` chunks. -/
inductive LFitting (n : Nat) : St → Prop
  | init : LFitting n St.init
  | step {w w'} : LFitting n w → LStep w w' → Fits n w' → LFitting n w'

theorem LFitting.reachable {n : Nat} {w : St} (h : LFitting n w) : LReachable w := by
  induction h with
  | init => exact .init
  | step _ hs _ ih => exact ih.step hs

theorem LFitting.fits {n : Nat} {w : St} (h : LFitting n w) : Fits n w := by
  cases h with
  | init => exact Fitting.init.fits
  | step _ _ hf => exact hf

theorem LFitting.sim {n : Nat} {w : St} (h : LFitting n w) : ∃ lk lview, Good w lk lview ∧ Fitting n (w.with lk lview) := by
  induction h with
  | init =>
    obtain ⟨lk, lview, c, d⟩ := good LReachable.init
    refine ⟨St.init.lk, St.init.lview, ⟨.init, fun u => ⟨0, ⟨0, View.bot⟩, rfl, fun ts m' hx => ?_, fun ts _ _ _ hl => ?_,
      .inl ⟨rfl, rfl, VLe.refl _⟩⟩⟩, .init⟩
    · by_contra hc
      have : ts ≠ 0 := by omega
      simp [St.with, St.init, Mem.init, this] at hx
    · omega
  | step _ hs hf ih =>
    obtain ⟨lk, lview, a, b⟩ := ih
    obtain ⟨lk', lview', c, d⟩ := good_step (R := fun x => Fitting n x)
      (fun _ _ _ r q => r.keep q.step q.reg q.bufs) ⟨⟨a.1, b⟩, a.2⟩ hs fun x => b.step x ⟨hf.few, hf.room⟩
    exact ⟨lk', lview', ⟨c.1, d⟩, c.2⟩

/-- C112: with enough chunks no thread is ever in the loop of `getChunk` without a chunk to take. -/
theorem C112_room {n : Nat} {w : St} (h : LFitting n w) (t : Nat) : ¬ Starved w t := by
  obtain ⟨lk, lview, -, hf⟩ := h.sim
  exact C106_room hf t

/-- A move of a thread in a logging call brings it nearer to its end; a compare-exchange that fails for no reason
leaves it where it is. -/
theorem lstep_left {w w' : St} (hs : LStep w w') {t : Nat} (hl : (w.pc t).logging = true) :
    w'.pc t = w.pc t ∨ w'.pc t = .idle ∨ ((w'.pc t).logging = true ∧ (w'.pc t).left < (w.pc t).left) := by
  have key : ∀ {u : Nat} {p : Pc}, w'.pc = setf w.pc u p →
      (u = t → p = w.pc t ∨ p = .idle ∨ (p.logging = true ∧ p.left < (w.pc t).left)) →
      w'.pc t = w.pc t ∨ w'.pc t = .idle ∨ ((w'.pc t).logging = true ∧ (w'.pc t).left < (w.pc t).left) := by
    intro u p e hp
    by_cases hu : u = t
    · subst hu; rw [e, setf_self]; exact hp rfl
    · rw [e, setf_ne _ _ (Ne.symm hu)]; exact .inl rfl
  cases hs with
  | other h => exact step_left (h w.lk w.lview) hl
  | tryAgain hq => exact key rfl fun e => .inl (by subst e; exact hq.symm)
  | tryOk hq => exact key rfl fun e => .inr (.inr (by subst e; rw [hq]; simp [Pc.logging, Pc.left]))
  | tryFail hq | unlock hq | unlockD hq => exact key rfl fun e => .inr (.inl rfl)
  | evLock hq | evAgain hq | evUnlock hq | evUnlockD hq =>
    exact key rfl fun e => by subst e; rw [hq] at hl; cases hl

/-- An execution from `w` in which thread `t` makes `n` moves and has not got back to its own code. -/
inductive LBusy (t : Nat) : Nat → St → St → Prop
  | refl {w} : LBusy t 0 w w
  | wait {n w w' w''} : LBusy t n w w' → LStep w' w'' → w''.pc t = w'.pc t → LBusy t n w w''
  | move {n w w' w''} : LBusy t n w w' → LStep w' w'' → w''.pc t ≠ w'.pc t → w''.pc t ≠ .idle →
      LBusy t (n + 1) w w''

/-- C112: a logging call is over after at most thirteen moves of its thread, not counting compare-exchanges on the
chunk lock that fail and are made again. -/
theorem C112_short {w w' : St} {t n : Nat} (hl : (w.pc t).logging = true) (hb : LBusy t n w w') : n ≤ 12 := by
  have key : (w'.pc t).logging = true ∧ n + (w'.pc t).left ≤ (w.pc t).left := by
    induction hb with
    | refl => exact ⟨hl, by omega⟩
    | wait _ _ e ih => rw [e]; exact ih hl
    | move _ hs e hi ih =>
      have ih := ih hl
      rcases lstep_left hs ih.1 with x | x | ⟨x1, x2⟩
      · exact absurd x e
      · exact absurd x hi
      · exact ⟨x1, by omega⟩
  have h1 : ∀ p : Pc, p.logging = true → 1 ≤ p.left ∧ p.left ≤ 13 := by
    intro p hp; cases p <;> first | (cases hp; done) | exact ⟨by simp [Pc.left], by simp [Pc.left]⟩
  have := h1 _ key.1
  have := h1 _ hl
  omega

/-- C112: with enough chunks a logging call can always go on, whatever the other threads do. -/
theorem C112_logs {n : Nat} {w : St} (h : LFitting n w) {t : Nat} (ht : (w.pc t).logging = true) :
    ∃ w', LStep w w' ∧ w'.pc t ≠ w.pc t ∧
      (w'.pc t = .idle ∨ ((w'.pc t).logging = true ∧ (w'.pc t).left < (w.pc t).left)) := by
  rcases C110_moves h.reachable (t := t) (fun e => by rw [e] at ht; cases ht) with ⟨w', h1, h2⟩ | x | ⟨k, d, e, -⟩
  · exact ⟨w', h1, h2, (lstep_left h1 ht).resolve_left h2⟩
  · exact absurd x (C112_room h t)
  · rw [e] at ht; cases ht

/-- C112: and a thread in any call can go on, except that the eviction waits while each thread that is
left to evict has its chunk lock in a logging call, which can go on. -/
theorem C112_waits {n : Nat} {w : St} (h : LFitting n w) {t : Nat} (ht : w.pc t ≠ .idle) :
    (∃ w', LStep w w' ∧ w'.pc t ≠ w.pc t) ∨ ∃ k d, w.pc t = .evict k d ∧ ∀ u, w.pend u = true →
      (w.pc u).logging = true ∧ w.pc u ≠ .tryLock ∧ ∃ w', LStep w w' ∧ w'.pc u ≠ w.pc u := by
  rcases C110_moves h.reachable ht with x | x | ⟨k, d, e, hp⟩
  · exact .inl x
  · exact absurd x (C112_room h t)
  · refine .inr ⟨k, d, e, fun u hu => ⟨(hp u hu).1, (hp u hu).2, ?_⟩⟩
    obtain ⟨w', h1, h2, -⟩ := C112_logs h (hp u hu).1
    exact ⟨w', h1, h2⟩

theorem llittle {w w' : St} (hs : LStep w w') {u : Nat} (hl : (w.pc u).logging = true) (hne : w'.pc u ≠ w.pc u) :
    Little u w w' := by
  have fin : ∀ {t : Nat} {p : Pc}, w'.pc = setf w.pc t p → w'.pend = w.pend → w'.reg = w.reg → w'.bufs = w.bufs →
      Little u w w' := by
    intro t p e h1 h2 h3
    have : t = u := by
      by_contra h
      exact hne (by rw [e, setf_ne _ _ (Ne.symm h)])
    subst this
    exact ⟨fun x hx => by rw [e, setf_ne _ _ hx], h1, h2, fun b => by rw [h3]; exact ⟨rfl, rfl⟩⟩
  cases hs with
  | other h => 
    obtain ⟨a, b, c, d⟩ := little (h w.lk w.lview) hl hne
    exact ⟨a, b, c, d⟩
  | @evUnlock t k d v ts hq =>
    exfalso
    refine hne (setf_ne _ _ ?_)
    rintro rfl; rw [hq] at hl; cases hl
  | @evUnlockD t k d v ts m hq =>
    exfalso
    refine hne (setf_ne _ _ ?_)
    rintro rfl; rw [hq] at hl; cases hl
  | _ => exact fin rfl rfl rfl rfl

/-- Steps of thread `t` in `evictThreads` and of the threads left to evict, in the logging calls they are in. They
keep every bound on the threads and chunks. -/
inductive LEvicts (t : Nat) : St → St → Prop
  | refl {w} : LEvicts t w w
  | mine {w w' w''} : LEvicts t w w' → LStep w' w'' → w''.pc t ≠ w'.pc t → (∀ u, u ≠ t → w''.pc u = w'.pc u) →
      (∀ n, Fits n w' → Fits n w'') → LEvicts t w w''
  | call {w w' w'' u} : LEvicts t w w' → LStep w' w'' → w'.pend u = true → (w'.pc u).logging = true →
      w''.pc u ≠ w'.pc u → (∀ x, x ≠ u → w''.pc x = w'.pc x) → (∀ n, Fits n w' → Fits n w'') → LEvicts t w w''

theorem LEvicts.trans {t : Nat} {w w' w'' : St} (h : LEvicts t w w') (h' : LEvicts t w' w'') : LEvicts t w w'' := by
  induction h' with
  | refl => exact h
  | mine _ a b c d ih => exact .mine ih a b c d
  | call _ a b c d e f ih => exact .call ih a b c d e f

theorem LFitting.keep {n : Nat} {w w' : St} (h : LFitting n w) (hs : LStep w w') (e1 : w'.reg = w.reg)
    (e2 : w'.bufs = w.bufs) : LFitting n w' :=
  h.step hs ⟨by rw [e1]; exact h.fits.few, by rw [e2]; exact h.fits.room⟩

theorem keeps {w w' : St} (e1 : w'.reg = w.reg) (e2 : w'.bufs = w.bufs) (n : Nat) (h : Fits n w) : Fits n w' :=
  ⟨by rw [e1]; exact h.few, by rw [e2]; exact h.room⟩

/-- C112: an eviction can always be brought to its end, with the stopped callback next, by steps of the evicting
thread and of the threads left to evict that finish the logging calls they are in; no thread has to begin a call. -/
theorem C112_stop {n : Nat} {w : St} (h : LFitting n w) {t : Nat} {k : Bool} {d : Nat} (ht : w.pc t = .evict k d) :
    ∃ w', LEvicts t w w' ∧ LFitting n w' ∧ w'.off ∧ (∀ u, w'.pend u = false) ∧ w'.pc t = .crit (if k then d + 1 else d) := by
  generalize hm : work n w = m
  induction m using Nat.strong_induction_on generalizing w with
  | _ m ih =>
  obtain ⟨lk, lview, gd⟩ := good h.reachable
  obtain ⟨g, hg⟩ := inv_reachable gd.1
  by_cases hp : ∃ u, w.pend u = true
  · by_cases hf : ∃ u, w.pend u = true ∧ lk u = none
    · obtain ⟨u, h1, h2⟩ := hf
      obtain ⟨top, msg, hr, hn, -, h0, -⟩ := word gd t u
      have s1 := LStep.evLock ht h1 hr hn (h0.2 h2)
      generalize hw1 : w.goto t (.evClear k d u) (w.mem.rmwAcqRel t (lockAt u) top msg 2) = w1 at s1
      have q1 : w1.pc = setf w.pc t (.evClear k d u) := by subst hw1; rfl
      have f1 : LFitting n w1 := h.keep s1 (by subst hw1; rfl) (by subst hw1; rfl)
      have p1 : w1.pend = w.pend := by subst hw1; rfl
      have s2 := step_kind (w := w1) (lk := w1.lk) (lview := w1.lview) (t := t)
        (.evClear (k := k) (d := d) (u := u) (by show w1.pc t = _; rw [q1, setf_self]))
        (by rw [q1, setf_self]; simp [St.goto, setf]) (by rw [q1, setf_self]; simp) (by rw [q1, setf_self]; simp)
        (by rw [q1, setf_self]; simp) (by rw [q1, setf_self]; simp)
      generalize hw2 : St.with _ w1.lk w1.lview = w2 at s2
      have q2 : w2.pc = setf w1.pc t (.evUnlock k d u) := by subst hw2; rfl
      have f2 : LFitting n w2 := f1.keep s2 (by subst hw2; rfl) (by subst hw2; rfl)
      have p2 : w2.pend = w.pend := by subst hw2; exact p1
      obtain ⟨lk2, lview2, gd2⟩ := good f2.reachable
      obtain ⟨top2, -, -, -, hfr, -⟩ := word gd2 t u
      have s3 := LStep.evUnlock (w := w2) (t := t) (k := k) (d := d) (u := u) (by rw [q2, setf_self]) hfr
      generalize hw3 : ({ w2.goto t (.evict k d) (w2.mem.storeRel t (lockAt u) (top2 + 1) 0) with
        pend := setf w2.pend u false } : St) = w3 at s3
      have q3 : w3.pc = setf w2.pc t (.evict k d) := by subst hw3; rfl
      have f3 : LFitting n w3 := f2.keep s3 (by subst hw3; rfl) (by subst hw3; rfl)
      have p3 : w3.pend = setf w.pend u false := by subst hw3; rw [← p2]
      have t3 : w3.pc t = .evict k d := by rw [q3, setf_self]
      have hpc : ∀ x, w3.pc x = w.pc x := by
        intro x
        by_cases e : x = t
        · subst e; rw [t3, ht]
        · rw [q3, setf_ne _ _ e, q2, setf_ne _ _ e, q1, setf_ne _ _ e]
      have hlt : work n w3 < work n w := work_lt (h.fits.few u (hg.penReg u h1)) h1
        (fun x hx => .inl ⟨by rw [p3, setf_ne _ _ hx], hpc x⟩) (.inl (by rw [p3, setf_self]))
      obtain ⟨w', e1, e2⟩ := ih _ (hm ▸ hlt) f3 t3 rfl
      refine ⟨w', LEvicts.trans ?_ e1, e2⟩
      refine .mine (.mine (.mine .refl s1 ?_ ?_ (keeps (by subst hw1; rfl) (by subst hw1; rfl))) s2 ?_ ?_
        (keeps (by subst hw2; rfl) (by subst hw2; rfl))) s3 ?_ ?_ (keeps (by subst hw3; rfl) (by subst hw3; rfl))
      · rw [q1, setf_self, ht]; simp
      · intro x hx; rw [q1, setf_ne _ _ hx]
      · rw [q2, setf_self, q1, setf_self]; simp
      · intro x hx; rw [q2, setf_ne _ _ hx]
      · rw [q3, setf_self, q2, setf_self]; simp
      · intro x hx; rw [q3, setf_ne _ _ hx]
    · obtain ⟨u, hu⟩ := hp
      have hl : (w.pc u).logging = true := by
        cases hk : lk u with
        | none => exact absurd ⟨u, hu, hk⟩ hf
        | some s =>
          rcases hg.lkpc u s hk with ⟨e, hs⟩ | ⟨k', d', hs⟩
          · have hs : slave (w.pc u) = true := hs
            cases hx : w.pc u <;> rw [hx] at hs <;> first | (cases hs; done) | rfl
          · exfalso
            have hh := hg.pcs t
            rw [show (w.with lk lview).pc t = _ from ht] at hh
            have hm : w.mutex = some s := by
              have := hg.pcs s
              rcases hs with e | e <;> rw [e] at this <;> exact this.1
            have : s = t := by have := hh.1; rw [show (w.with lk lview).mutex = _ from hm] at this; injection this
            subst this
            rcases hs with e | e <;> rw [show (w.with lk lview).pc s = _ from ht] at e <;> cases e
      obtain ⟨w1, hs, hne, hd⟩ := C112_logs h hl
      have hL := llittle hs hl hne
      have hut : t ≠ u := by rintro rfl; rw [ht] at hl; cases hl
      have f1 : LFitting n w1 := h.step hs ⟨by rw [hL.reg]; exact h.fits.few, fun b hb => by
        rw [(hL.bufs b).1] at hb; rw [(hL.bufs b).2]; exact h.fits.room b hb⟩
      have hlt : work n w1 < work n w := by
        refine work_lt (h.fits.few u (hg.penReg u hu)) hu (fun x hx => .inl ⟨by rw [hL.pend], hL.pc x hx⟩) (.inr ?_)
        rcases hd with e | ⟨_, e⟩
        · rw [e]
          cases hq : w.pc u <;> rw [hq] at hl <;> first | (cases hl; done) | simp [Pc.left]
        · exact e
      obtain ⟨w', e1, e2⟩ := ih _ (hm ▸ hlt) f1 (by rw [hL.pc t hut]; exact ht) rfl
      exact ⟨w', LEvicts.trans (.call .refl hs hu hl hne hL.pc fun n hf => ⟨by rw [hL.reg]; exact hf.few, fun b hb => by
        rw [(hL.bufs b).1] at hb; rw [(hL.bufs b).2]; exact hf.room b hb⟩) e1, e2⟩
  · have hp : ∀ u, w.pend u = false := fun u => by
      cases e : w.pend u with
      | false => rfl
      | true => exact absurd ⟨u, e⟩ hp
    have s1 : LStep w (w.goto t (.crit (if k then d + 1 else d)) (w.mem.read t .cfg)) := by
      refine .other (fun _ _ => .evDone ht hp) (fun _ => rfl) (fun x hx => ?_) rfl rfl
      have : x ≠ t := fun e => by subst e; rw [ht] at hx; cases hx
      exact (setf_ne _ _ this).trans hx
    have ho := (C104_callback gd.1 (t := t) ht hp).2
    refine ⟨_, .mine .refl s1 ?_ ?_ (fun _ hf => ⟨hf.few, hf.room⟩), h.keep s1 rfl rfl, ho, hp, setf_self _ _ _⟩
    · rw [ht]; simp [St.goto, setf]
    · intro x hx; exact setf_ne _ _ hx

/-- C112: a thread that tries its chunk lock while nobody is evicting it can take it at once. -/
theorem C112_takes {w : St} (h : LReachable w) {t : Nat} (ht : w.pc t = .tryLock)
    (hn : ∀ s k d, w.pc s ≠ .evClear k d t ∧ w.pc s ≠ .evUnlock k d t) :
    ∃ w', LStep w w' ∧ w'.pc t = .locked ∧ ∀ u, u ≠ t → w'.pc u = w.pc u := by
  obtain ⟨lk, lview, gd⟩ := good h
  obtain ⟨g, hg⟩ := inv_reachable gd.1
  obtain ⟨top, m, a, b, -, c, -⟩ := word gd t t
  have hk : lk t = none := by
    cases e : lk t with
    | none => rfl
    | some s =>
      rcases hg.lkpc t s e with ⟨-, x⟩ | ⟨k, d, x | x⟩
      · have x : slave (w.pc t) = true := x
        rw [ht] at x; cases x
      · exact absurd x (hn s k d).1
      · exact absurd x (hn s k d).2
  exact ⟨_, .tryOk ht a b (c.2 hk), setf_self _ _ _, fun u hu => setf_ne _ _ hu⟩

/-- C112: a thread that tries its chunk lock while it is being evicted can give up at once and drop its event, so it
does not wait for the eviction. -/
theorem C112_gives_up {w : St} (h : LReachable w) {t s d : Nat} {k : Bool} (ht : w.pc t = .tryLock)
    (hs : w.pc s = .evClear k d t ∨ w.pc s = .evUnlock k d t) :
    ∃ w', LStep w w' ∧ w'.pc t = .idle ∧ ∀ u, u ≠ t → w'.pc u = w.pc u := by
  obtain ⟨lk, lview, gd⟩ := good h
  obtain ⟨g, hg⟩ := inv_reachable gd.1
  obtain ⟨top, m, a, -, -, b, c⟩ := word gd t t
  have hk : lk t = some s := by
    rcases hs with x | x
    · exact (hg.here (μ := w.mem) (w := w.with lk lview) x).2.2.2.1
    · exact (hg.here (μ := w.mem) (w := w.with lk lview) x).2.2.2.1
  have hm := c fun e => by rw [b.1 e] at hk; cases hk
  rw [ht] at hm
  exact ⟨_, .tryFail ht a hm, setf_self _ _ _, fun u hu => setf_ne _ _ hu⟩

theorem LFitting.goF {n : Nat} {w w1 : St} (r : LFitting n w) {t : Nat} {p q : Pc} (hs : Step true (w.with w.lk w.lview) w1)
    (hq : w.pc t = q) (hp : w1.pc t = p) (hne : p ≠ q)
    (hx : q ≠ .tryLock ∧ q ≠ .unlock ∧ (∀ k d, q ≠ .evict k d) ∧ ∀ k d u, q ≠ .evUnlock k d u)
    (hf : Fits n (w1.with w.lk w.lview)) : LFitting n (w1.with w.lk w.lview) := by
  subst hq; subst hp
  exact r.step (step_kind hs hne hx.1 hx.2.1 hx.2.2.1 hx.2.2.2) hf

theorem LFitting.go {n : Nat} {w w1 : St} (r : LFitting n w) {t : Nat} {p q : Pc} (hs : Step true (w.with w.lk w.lview) w1)
    (hq : w.pc t = q) (hp : w1.pc t = p) (hne : p ≠ q)
    (hx : q ≠ .tryLock ∧ q ≠ .unlock ∧ (∀ k d, q ≠ .evict k d) ∧ ∀ k d u, q ≠ .evUnlock k d u)
    (e1 : w1.reg = w.reg) (e2 : w1.bufs = w.bufs) : LFitting n (w1.with w.lk w.lview) :=
  r.goF hs hq hp hne hx ⟨by rw [show (w1.with w.lk w.lview).reg = w.reg from e1]; exact r.fits.few,
    by rw [show (w1.with w.lk w.lview).bufs = w.bufs from e2]; exact r.fits.room⟩

theorem LFitting.register {n : Nat} {w : St} (r : LFitting n w) {t : Nat} (hq : w.pc t = .crit 0) (hr : w.reg t = false)
    (hn : t < n) : LFitting n { w.goto t (.crit 0) (w.mem.write t .cfg) with reg := setf w.reg t true } := by
  refine r.step (.other (fun _ _ => .register hq hr) (fun _ => rfl) (fun x hx => ?_) rfl rfl) ⟨fun x hx => ?_, r.fits.room⟩
  · have : x ≠ t := fun e => by subst e; rw [hq] at hx; cases hx
    exact (setf_ne _ _ this).trans hx
  · by_cases e : x = t
    · rw [e]; exact hn
    · exact r.fits.few x ((setf_ne _ _ e).symm.trans hx)

/-- A case: thread 0 is evicting the threads, thread 1 is in a logging call, has its chunk lock and is about to get a
chunk of a ring of two. -/
theorem exLEvicting : ∃ w : St, LFitting 2 w ∧ w.pc 0 = .evict false 0 ∧ w.pend 1 = true ∧ w.pc 1 = .getChunk 0 ∧
    (w.pc 1).logging = true ∧ (w.bufs 0).ring = true ∧ ∀ u, 2 ≤ u → w.pc u = .idle := by
  have r := LFitting.init (n := 2)
  have r := r.go (.lockM (t := 0) rfl rfl) (t := 0) (q := .idle) (p := .crit 0) rfl rfl (by simp) (by simp) rfl rfl
  have r := r.go (.start (t := 0) rfl (fun _ => rfl)) (t := 0) (q := .crit 0) (p := .start 0) rfl rfl (by simp) (by simp) rfl rfl
  have r := r.go (.startOff (t := 0) (ts := 0) rfl ⟨rfl, by decide⟩ rfl) (t := 0) (q := .start 0) (p := .newBuf 0) rfl rfl (by simp) (by simp) rfl rfl
  have r := r.goF (.newBuf (t := 0) true 2 rfl) (t := 0) (q := .newBuf 0) (p := .turnOn 0) rfl rfl (by simp) (by simp) ⟨r.fits.few, fun b => by
    by_cases e : b = 0
    · subst e; exact fun _ => Nat.le_refl 2
    · intro hb; simp [St.with, St.goto, St.init, setf, e] at hb⟩
  have r := r.go (.turnOn (t := 0) (ts := 1) rfl ⟨rfl, by decide⟩) (t := 0) (q := .turnOn 0) (p := .crit 0) rfl rfl (by simp) (by simp) rfl rfl
  have r := r.go (.unlockM (t := 0) rfl) (t := 0) (q := .crit 0) (p := .idle) rfl rfl (by simp) (by simp) rfl rfl
  have r := r.go (.lockM (t := 1) rfl rfl) (t := 1) (q := .idle) (p := .crit 0) rfl rfl (by simp) (by simp) rfl rfl
  have r := r.register (t := 1) rfl rfl (by decide)
  have r := r.go (.unlockM (t := 1) rfl) (t := 1) (q := .crit 0) (p := .idle) rfl rfl (by simp) (by simp) rfl rfl
  have r := r.go (.logOn (t := 1) (ts := 1) rfl ⟨rfl, by decide⟩ (by decide)) (t := 1) (q := .idle) (p := .tryLock) rfl rfl (by simp) (by simp) rfl rfl
  have r := r.step (.tryOk (t := 1) (ts := 0) rfl ⟨rfl, by decide⟩ rfl rfl) ⟨r.fits.few, r.fits.room⟩
  have r := r.go (.noChunk (t := 1) rfl rfl rfl) (t := 1) (q := .locked) (p := .check) rfl rfl (by simp) (by simp) rfl rfl
  have r := r.go (.checkOn (t := 1) (ts := 1) rfl ⟨rfl, by decide⟩ (by decide)) (t := 1) (q := .check) (p := .replace) rfl rfl (by simp) (by simp) rfl rfl
  have r := r.go (.replaceNone (t := 1) rfl rfl) (t := 1) (q := .replace) (p := .again) rfl rfl (by simp) (by simp) rfl rfl
  have r := r.go (.againOn (t := 1) (ts := 1) rfl ⟨rfl, by decide⟩ (by decide)) (t := 1) (q := .again) (p := .readBuf) rfl rfl (by simp) (by simp) rfl rfl
  have r := r.go (.bufSome (t := 1) rfl rfl) (t := 1) (q := .readBuf) (p := .getChunk 0) rfl rfl (by simp) (by simp) rfl rfl
  have r := r.go (.lockM (t := 0) rfl rfl) (t := 0) (q := .idle) (p := .crit 0) rfl rfl (by simp) (by simp) rfl rfl
  have r := r.go (.stop (t := 0) (d := 0) rfl) (t := 0) (q := .crit 0) (p := .exchange false 0) rfl rfl (by simp) (by simp) rfl rfl
  have r := r.goF (.exchangeOn (t := 0) (ts := 1) rfl ⟨rfl, by decide +kernel⟩ rfl (by decide +kernel)) (t := 0) (q := .exchange false 0) (p := .evict false 0) rfl rfl (by simp) (by simp) ⟨r.fits.few, r.fits.room⟩
  refine ⟨_, r, rfl, rfl, rfl, rfl, rfl, fun u hu => ?_⟩
  have h0 : u ≠ 0 := by omega
  have h1 : u ≠ 1 := by omega
  simp [St.with, St.goto, St.init, setf, h0, h1]

/-- From there thread 1 can go on, and the eviction can be brought to its end. -/
example : ∃ w w' : St, LFitting 2 w ∧ w.pc 0 = .evict false 0 ∧ w.pend 1 = true ∧ w.pc 1 = .getChunk 0 ∧
    (∃ w1, LStep w w1 ∧ w1.pc 1 ≠ w.pc 1) ∧ LEvicts 0 w w' ∧ w'.off ∧ (∀ u, w'.pend u = false) ∧ w'.pc 0 = .crit 0 := by
  obtain ⟨w, h, h1, h2, h3, h4, -⟩ := exLEvicting
  obtain ⟨w', e, -, ho, hp, hc⟩ := C112_stop h h1
  obtain ⟨w1, s1, s2, -⟩ := C112_logs h h4
  exact ⟨w, w', h, h1, h2, h3, ⟨w1, s1, s2⟩, e, ho, hp, hc⟩

/-- A case: thread 1 is about to try its chunk lock; in one state thread 0 is about to evict it, and a step later thread 0
has its lock. -/
theorem exLTrying : ∃ w w' : St, LFitting 2 w ∧ w.pc 1 = .tryLock ∧ w.pc 0 = .evict false 0 ∧
    (∀ s k d, w.pc s ≠ .evClear k d 1 ∧ w.pc s ≠ .evUnlock k d 1) ∧
    LStep w w' ∧ LFitting 2 w' ∧ w'.pc 1 = .tryLock ∧ w'.pc 0 = .evClear false 0 1 := by
  have r := LFitting.init (n := 2)
  have r := r.go (.lockM (t := 0) rfl rfl) (t := 0) (q := .idle) (p := .crit 0) rfl rfl (by simp) (by simp) rfl rfl
  have r := r.go (.start (t := 0) rfl (fun _ => rfl)) (t := 0) (q := .crit 0) (p := .start 0) rfl rfl (by simp) (by simp) rfl rfl
  have r := r.go (.startOff (t := 0) (ts := 0) rfl ⟨rfl, by decide⟩ rfl) (t := 0) (q := .start 0) (p := .newBuf 0) rfl rfl (by simp) (by simp) rfl rfl
  have r := r.goF (.newBuf (t := 0) true 2 rfl) (t := 0) (q := .newBuf 0) (p := .turnOn 0) rfl rfl (by simp) (by simp) ⟨r.fits.few, fun b => by
    by_cases e : b = 0
    · subst e; exact fun _ => Nat.le_refl 2
    · intro hb; simp [St.with, St.goto, St.init, setf, e] at hb⟩
  have r := r.go (.turnOn (t := 0) (ts := 1) rfl ⟨rfl, by decide⟩) (t := 0) (q := .turnOn 0) (p := .crit 0) rfl rfl (by simp) (by simp) rfl rfl
  have r := r.go (.unlockM (t := 0) rfl) (t := 0) (q := .crit 0) (p := .idle) rfl rfl (by simp) (by simp) rfl rfl
  have r := r.go (.lockM (t := 1) rfl rfl) (t := 1) (q := .idle) (p := .crit 0) rfl rfl (by simp) (by simp) rfl rfl
  have r := r.register (t := 1) rfl rfl (by decide)
  have r := r.go (.unlockM (t := 1) rfl) (t := 1) (q := .crit 0) (p := .idle) rfl rfl (by simp) (by simp) rfl rfl
  have r := r.go (.logOn (t := 1) (ts := 1) rfl ⟨rfl, by decide⟩ (by decide)) (t := 1) (q := .idle) (p := .tryLock) rfl rfl (by simp) (by simp) rfl rfl
  have r := r.go (.lockM (t := 0) rfl rfl) (t := 0) (q := .idle) (p := .crit 0) rfl rfl (by simp) (by simp) rfl rfl
  have r := r.go (.stop (t := 0) (d := 0) rfl) (t := 0) (q := .crit 0) (p := .exchange false 0) rfl rfl (by simp) (by simp) rfl rfl
  have r := r.goF (.exchangeOn (t := 0) (ts := 1) rfl ⟨rfl, by decide +kernel⟩ rfl (by decide +kernel)) (t := 0) (q := .exchange false 0) (p := .evict false 0) rfl rfl (by simp) (by simp) ⟨r.fits.few, r.fits.room⟩
  refine ⟨_, _, r, rfl, rfl, fun s k d => ?_, .evLock (t := 0) (u := 1) (ts := 0) (m := ⟨0, View.bot⟩) rfl rfl ⟨rfl, by decide +kernel⟩ rfl rfl,
    r.step (.evLock (t := 0) (u := 1) (ts := 0) (m := ⟨0, View.bot⟩) rfl rfl ⟨rfl, by decide +kernel⟩ rfl rfl) ⟨r.fits.few, r.fits.room⟩, rfl, rfl⟩
  by_cases h0 : s = 0
  · subst h0; exact ⟨nofun, nofun⟩
  by_cases h1 : s = 1
  · subst h1; exact ⟨nofun, nofun⟩
  simp [St.with, St.goto, St.init, setf, h0, h1]

/-- In the first state thread 1 can take its lock, in the second it can give up. -/
example : ∃ w w' w1 w2 : St, LStep w w' ∧ w.pc 1 = .tryLock ∧ w'.pc 1 = .tryLock ∧ LStep w w1 ∧ w1.pc 1 = .locked ∧
    LStep w' w2 ∧ w2.pc 1 = .idle := by
  obtain ⟨w, w', h, a, -, b, s, h', c, d⟩ := exLTrying
  obtain ⟨w1, s1, e1, -⟩ := C112_takes h.reachable a b
  obtain ⟨w2, s2, e2, -⟩ := C112_gives_up h'.reachable c (.inl d)
  exact ⟨w, w', w1, w2, s, a, c, s1, e1, s2, e2⟩

end Phosphor.TLog.W
