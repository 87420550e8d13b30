import Verif.Props.StartWeak
import Mathlib.Algebra.BigOperators.Group.Finset.Basic
import Mathlib.Algebra.Order.BigOperators.Group.Finset
/-
C106, continued: an eviction can always be brought to its end, by the evicting thread and by the
threads it waits for finishing the logging calls they are in.
-/
namespace Phosphor.TLog.W
open Phosphor.Weak

/-- A move of a thread in a logging call changes little else. -/
structure Little (u : Nat) (w w' : St) : Prop where
  pc : ∀ x, x ≠ u → w'.pc x = w.pc x
  pend : w'.pend = w.pend
  reg : w'.reg = w.reg
  bufs : ∀ b, (w'.bufs b).ring = (w.bufs b).ring ∧ (w'.bufs b).size = (w.bufs b).size

theorem little {w w' : St} (hs : Step true w w') {u : Nat} (hl : (w.pc u).logging = true) (hne : w'.pc u ≠ w.pc u) :
    Little u w w' := by
  have key : ∀ {t : Nat} {p : Pc}, w'.pc = setf w.pc t p → t = u := by
    intro t p e
    by_cases h : t = u
    · exact h
    · exact absurd (by rw [e, setf_ne _ _ (Ne.symm h)]) hne
  have fin : ∀ {t : Nat} {p : Pc}, w'.pc = setf w.pc t p → w'.pend = w.pend → w'.reg = w.reg →
      (∀ b, (w'.bufs b).ring = (w.bufs b).ring ∧ (w'.bufs b).size = (w.bufs b).size) → Little u w w' := by
    intro t p e h1 h2 h3
    have := key e
    subst this
    exact ⟨fun x hx => by rw [e, setf_ne _ _ hx], h1, h2, h3⟩
  cases hs with
  | other | extLoad | extStore | ownRead | ownGive | ownFree => exact absurd rfl hne
  | @fresh t b =>
    refine fin (t := t) rfl rfl rfl fun k => ?_
    by_cases e : k = b
    · subst e; simp [setf]
    · simp [setf, e]
  | @reuse t b =>
    refine fin (t := t) rfl rfl rfl fun k => ?_
    by_cases e : k = b
    · subst e; simp [setf]
    · simp [setf, e]
  | @giveBack t c b =>
    refine fin (t := t) rfl rfl rfl fun k => ?_
    by_cases e : k = b
    · subst e; simp [St.giveBack, setf]
    · simp [St.giveBack, setf, e]
  | newBuf _ _ hq =>
    have := key (by simp [St.goto]; rfl)
    subst this; rw [hq] at hl; cases hl
  | dReturn hq _ | exchangeOn hq _ _ _ | evUnlock hq | register hq _ | dErase hq =>
    have := key rfl
    subst this; rw [hq] at hl; cases hl
  | _ => exact fin rfl rfl rfl (fun _ => ⟨rfl, rfl⟩)

/-- Steps of thread `t` in `evictThreads` and of the threads left to evict, in the logging calls they are in. -/
inductive Evicts (t : Nat) : St → St → Prop
  | refl {w} : Evicts t w w
  | mine {w w' w''} : Evicts t w w' → Step true w' w'' → w''.pc t ≠ w'.pc t → (∀ u, u ≠ t → w''.pc u = w'.pc u) →
      Evicts t w w''
  | call {w w' w'' u} : Evicts t w w' → Step true w' w'' → w'.pend u = true → (w'.pc u).logging = true →
      w''.pc u ≠ w'.pc u → (∀ x, x ≠ u → w''.pc x = w'.pc x) → Evicts t w w''

theorem Evicts.trans {t : Nat} {w w' w'' : St} (h : Evicts t w w') (h' : Evicts t w' w'') : Evicts t w w'' := by
  induction h' with
  | refl => exact h
  | mine _ a b c ih => exact .mine ih a b c
  | call _ a b c d e ih => exact .call ih a b c d e

/-- What is left to do. -/
def work (n : Nat) (w : St) : Nat := ∑ u ∈ Finset.range n, if w.pend u then 1 + (w.pc u).left else 0

theorem work_lt {n : Nat} {w w' : St} {u : Nat} (hu : u < n) (hp : w.pend u = true)
    (hx : ∀ x, x ≠ u → w'.pend x = w.pend x ∧ w'.pc x = w.pc x ∨ w'.pend x = false)
    (h : w'.pend u = false ∨ (w'.pc u).left < (w.pc u).left) : work n w' < work n w := by
  refine Finset.sum_lt_sum (fun x _ => ?_) ⟨u, Finset.mem_range.2 hu, ?_⟩
  · by_cases e : x = u
    · subst e
      rw [hp]
      rcases h with h | h
      · rw [h]; simp
      · cases w'.pend x <;> simp; omega
    · rcases hx x e with ⟨a, b⟩ | a
      · rw [a, b]
      · rw [a]; simp
  · rw [hp]
    rcases h with h | h
    · rw [h]; simp
    · cases w'.pend u <;> simp; omega

/-- C106: an eviction can always be brought to its end, with the stopped callback next, by steps of the evicting
thread and of the threads left to evict that finish the logging calls they are in; no thread has to begin a call. -/
theorem C106_stop {n : Nat} {w : St} (h : Fitting n w) {t : Nat} {k : Bool} {d : Nat} (ht : w.pc t = .evict k d) :
    ∃ w', Evicts t w w' ∧ Fitting n w' ∧ w'.off ∧ (∀ u, w'.pend u = false) ∧ w'.pc t = .crit (if k then d + 1 else d) := by
  generalize hm : work n w = m
  induction m using Nat.strong_induction_on generalizing w with
  | _ m ih =>
  obtain ⟨g, hg⟩ := inv_reachable h.reachable
  by_cases hp : ∃ u, w.pend u = true
  · by_cases hf : ∃ u, w.pend u = true ∧ w.lk u = none
    · obtain ⟨u, h1, h2⟩ := hf
      have s1 := Step.evLock (pol := true) ht h1 h2
      generalize hw1 : ({ w.goto t (.evClear k d u) (learn w.mem t (w.lview u)) with lk := setf w.lk u (some t) } : St) = w1 at s1
      have q1 : w1.pc = setf w.pc t (.evClear k d u) := by subst hw1; rfl
      have f1 : Fitting n w1 := h.keep s1 (by subst hw1; rfl) (by subst hw1; rfl)
      have p1 : w1.pend = w.pend := by subst hw1; rfl
      have s2 := Step.evClear (pol := true) (w := w1) (t := t) (k := k) (d := d) (u := u) (by rw [q1, setf_self])
      generalize hw2 : ({ w1.goto t (.evUnlock k d u) (w1.mem.write t (.tc u)) with tc := setf w1.tc u none } : St) = w2 at s2
      have q2 : w2.pc = setf w1.pc t (.evUnlock k d u) := by subst hw2; rfl
      have f2 : Fitting n w2 := f1.keep s2 (by subst hw2; rfl) (by subst hw2; rfl)
      have p2 : w2.pend = w.pend := by subst hw2; exact p1
      have s3 := Step.evUnlock (pol := true) (w := w2) (t := t) (k := k) (d := d) (u := u) (by rw [q2, setf_self])
      generalize hw3 : ({ w2.goto t (.evict k d) w2.mem with
        lk := setf w2.lk u none
        lview := setf w2.lview u (w2.mem.view t)
        pend := setf w2.pend u false } : St) = w3 at s3
      have q3 : w3.pc = setf w2.pc t (.evict k d) := by subst hw3; rfl
      have f3 : Fitting n w3 := f2.keep s3 (by subst hw3; rfl) (by subst hw3; rfl)
      have p3 : w3.pend = setf w.pend u false := by subst hw3; rw [← p2]
      have t3 : w3.pc t = .evict k d := by rw [q3, setf_self]
      have hpc : ∀ x, w3.pc x = w.pc x := by
        intro x
        by_cases e : x = t
        · subst e; rw [t3, ht]
        · rw [q3, setf_ne _ _ e, q2, setf_ne _ _ e, q1, setf_ne _ _ e]
      have hlt : work n w3 < work n w := work_lt (h.fits.few u (hg.penReg u h1)) h1
        (fun x hx => .inl ⟨by rw [p3, setf_ne _ _ hx], hpc x⟩) (.inl (by rw [p3, setf_self]))
      obtain ⟨w', e1, e2⟩ := ih _ (hm ▸ hlt) f3 t3 rfl
      refine ⟨w', Evicts.trans ?_ e1, e2⟩
      refine .mine (.mine (.mine .refl s1 ?_ ?_) s2 ?_ ?_) s3 ?_ ?_
      · rw [q1, setf_self, ht]; simp
      · intro x hx; rw [q1, setf_ne _ _ hx]
      · rw [q2, setf_self, q1, setf_self]; simp
      · intro x hx; rw [q2, setf_ne _ _ hx]
      · rw [q3, setf_self, q2, setf_self]; simp
      · intro x hx; rw [q3, setf_ne _ _ hx]
    · obtain ⟨u, hu⟩ := hp
      have hl : (w.pc u).logging = true := by
        cases hk : w.lk u with
        | none => exact absurd ⟨u, hu, hk⟩ hf
        | some s =>
          rcases hg.lkpc u s hk with ⟨e, hs⟩ | ⟨k', d', hs⟩
          · cases hx : w.pc u <;> rw [hx] at hs <;> first | (cases hs; done) | rfl
          · exfalso
            have hh := hg.pcs t
            rw [ht] at hh
            have hm : w.mutex = some s := by
              have := hg.pcs s
              rcases hs with e | e <;> rw [e] at this <;> exact this.1
            have : s = t := by have := hh.1; rw [hm] at this; injection this
            subst this
            rcases hs with e | e <;> rw [ht] at e <;> cases e
      obtain ⟨w1, hs, hne, hd⟩ := C106_logs h hl
      have hL := little hs hl hne
      have hut : t ≠ u := by rintro rfl; rw [ht] at hl; cases hl
      have f1 : Fitting n w1 := h.step hs ⟨by rw [hL.reg]; exact h.fits.few, fun b hb => by
        rw [(hL.bufs b).1] at hb; rw [(hL.bufs b).2]; exact h.fits.room b hb⟩
      have hlt : work n w1 < work n w := by
        refine work_lt (h.fits.few u (hg.penReg u hu)) hu (fun x hx => .inl ⟨by rw [hL.pend], hL.pc x hx⟩) (.inr ?_)
        rcases hd with e | ⟨_, e⟩
        · rw [e]
          cases hq : w.pc u <;> rw [hq] at hl <;> first | (cases hl; done) | simp [Pc.left]
        · exact e
      obtain ⟨w', e1, e2⟩ := ih _ (hm ▸ hlt) f1 (by rw [hL.pc t hut]; exact ht) rfl
      exact ⟨w', Evicts.trans (.call .refl hs hu hl hne hL.pc) e1, e2⟩
  · have hp : ∀ u, w.pend u = false := fun u => by
      cases e : w.pend u with
      | false => rfl
      | true => exact absurd ⟨u, e⟩ hp
    obtain ⟨s1, ho⟩ := C104_callback h.reachable ht hp
    refine ⟨_, .mine .refl s1 ?_ ?_, h.keep s1 rfl rfl, ho, hp, setf_self _ _ _⟩
    · rw [ht]; simp [St.goto, setf]
    · intro x hx; exact setf_ne _ _ hx

/-- A case: thread 0 evicts, and thread 1 is about to get a chunk of the ring. -/
example : ∃ w w' : St, Fitting 2 w ∧ w.pc 0 = .evict false 0 ∧ w.pend 1 = true ∧ w.pc 1 = .getChunk 0 ∧
    Evicts 0 w w' ∧ w'.off ∧ (∀ u, w'.pend u = false) ∧ w'.pc 0 = .crit 0 := by
  obtain ⟨w, h, h1, h2, h3, -, -⟩ := exEvicting
  obtain ⟨w', e, -, ho, hp, hc⟩ := C106_stop h h1
  exact ⟨w, w', h, h1, h2, h3, e, ho, hp, hc⟩

end Phosphor.TLog.W
