import Verif.Proof.WeakCur
import Verif.Props.MpmcWeak
import Verif.Props.MpmcProgress
import Mathlib.Tactic.Choose
/-
The queue with its memory orders has every interleaving (C88).
-/
namespace Phosphor.Mpmc.W
open Phosphor.Weak
variable {α : Type} {n : Nat} {w w' : St α} {s s' : Mpmc.St α} {t : Nat}

/-- Memory stays in order. -/
theorem wf_step (h : w.mem.Wf) (hs : Step n w w') : w'.mem.Wf := by
  cases hs with
  | other => exact h.other
  | callEnq _ hr => exact h.loadRlx hr.1
  | enqSeq _ hr => exact h.loadAcq hr.1
  | enqReload _ hr => exact h.loadRlx hr.1
  | enqCasOk _ hr => exact h.rmwRlx hr.1
  | enqCasFail _ hr => exact h.loadRlx hr.1
  | enqWrite => exact h.write _
  | enqPub => exact h.storeRel
  | callDeq _ hr => exact h.loadRlx hr.1
  | deqSeq _ hr => exact h.loadAcq hr.1
  | deqReload _ hr => exact h.loadRlx hr.1
  | deqCasOk _ hr => exact h.rmwRlx hr.1
  | deqCasFail _ hr => exact h.loadRlx hr.1
  | deqRead => exact h.read _
  | deqPub => exact h.storeRel

theorem Reachable.wf (h : Reachable n w) : w.mem.Wf := by
  induction h with
  | init => exact .init _
  | step _ hs ih => exact wf_step ih hs

/-- The latest values of `w` are the values of `s`. -/
structure Now (w : St α) (s : Mpmc.St α) : Prop where
  enq : w.mem.Cur .enq s.enqPos
  deq : w.mem.Cur .deq s.deqPos
  seq : ∀ i, w.mem.Cur (.seq i) (s.seq i)
  data : w.data = s.data
  pc : w.pc = s.pc
  log : w.log = s.log
  pub : w.pub = s.pub
  rel : w.rel = s.rel
  got : w.got = s.got

theorem Now.init : Now (St.init : St α) Mpmc.St.init :=
  ⟨.init _, .init _, fun _ => .init _, rfl, rfl, rfl, rfl, rfl, rfl⟩

/-- Only the position of a thread changes. -/
theorem Now.move (h : Now w s) {μ : Mem Loc Nat Nat} (t : Nat) (p : Pc α) (e : μ.hist = w.mem.hist) :
    Now (w.goto t p μ) (s.goto t p) :=
  ⟨h.enq.keep e, h.deq.keep e, fun i => (h.seq i).keep e, h.data, by simp [St.goto, Mpmc.St.goto, h.pc],
    h.log, h.pub, h.rel, h.got⟩

/-- Every step of an interleaving is a step with the memory orders. -/
theorem Now.step (h : Now w s) (hw : w.mem.Wf) (hs : Mpmc.Step n s s') : ∃ w', Step n w w' ∧ Now w' s' := by
  have seqs : ∀ {i ts v} {m : Msg Loc Nat} {μ : Mem Loc Nat Nat},
      (∀ ts', ts < ts' → w.mem.hist (.seq i) ts' = none) → m.val = v →
      (μ.hist = fun k j => if k = .seq i ∧ j = ts + 1 then some m else w.mem.hist k j) →
      ∀ j, μ.Cur (.seq j) (setf s.seq i v j) := by
    intro i ts v m μ h1 h2 h3 j
    by_cases hj : j = i
    · subst hj; rw [setf_self]; exact Mem.Cur.new h1 h3 h2
    · rw [setf_ne _ _ hj]; exact (h.seq j).away (by simpa using hj) h3
  cases hs with
  | callEnq hp =>
    obtain ⟨ts, m, hr, hv, -⟩ := h.enq.get hw _
    rw [← hv]
    exact ⟨_, .callEnq (by rw [h.pc]; exact hp) hr, h.move _ _ (by rfl)⟩
  | enqSeq hp =>
    obtain ⟨ts, m, hr, hv, -⟩ := (h.seq _).get hw _
    rw [← hv]
    exact ⟨_, .enqSeq (by rw [h.pc]; exact hp) hr, h.move _ _ (by rfl)⟩
  | enqReload hp =>
    obtain ⟨ts, m, hr, hv, -⟩ := h.enq.get hw _
    rw [← hv]
    exact ⟨_, .enqReload (by rw [h.pc]; exact hp) hr, h.move _ _ (by rfl)⟩
  | enqCasOk hp hpos =>
    obtain ⟨ts, m, hr, hv, -, hf, hl⟩ := h.enq.get hw _
    refine ⟨_, .enqCasOk (by rw [h.pc]; exact hp) hr (hv.trans hpos) hf, ?_⟩
    exact ⟨.new hl rfl rfl, h.deq.away (by simp) rfl, fun i => (h.seq i).away (by simp) rfl, h.data,
      by simp [St.goto, Mpmc.St.goto, h.pc], by simp [h.log], h.pub, h.rel, h.got⟩
  | enqCasFail hp =>
    obtain ⟨ts, m, hr, hv, -⟩ := h.enq.get hw _
    rw [← hv]
    exact ⟨_, .enqCasFail (by rw [h.pc]; exact hp) hr, h.move _ _ (by rfl)⟩
  | enqWrite hp =>
    refine ⟨_, .enqWrite (by rw [h.pc]; exact hp), ?_⟩
    exact ⟨h.enq.keep rfl, h.deq.keep rfl, fun i => (h.seq i).keep rfl, by simp [h.data],
      by simp [St.goto, Mpmc.St.goto, h.pc], h.log, h.pub, h.rel, h.got⟩
  | enqPub hp =>
    obtain ⟨ts, m, hr, hv, -, hf, hl⟩ := (h.seq _).get hw _
    refine ⟨_, .enqPub (by rw [h.pc]; exact hp) hf, ?_⟩
    exact ⟨h.enq.away (by simp) rfl, h.deq.away (by simp) rfl, seqs hl rfl rfl, h.data,
      by simp [St.goto, Mpmc.St.goto, h.pc], h.log, by simp [h.pub], h.rel, h.got⟩
  | callDeq hp =>
    obtain ⟨ts, m, hr, hv, -⟩ := h.deq.get hw _
    rw [← hv]
    exact ⟨_, .callDeq (by rw [h.pc]; exact hp) hr, h.move _ _ (by rfl)⟩
  | deqSeq hp =>
    obtain ⟨ts, m, hr, hv, -⟩ := (h.seq _).get hw _
    rw [← hv]
    exact ⟨_, .deqSeq (by rw [h.pc]; exact hp) hr, h.move _ _ (by rfl)⟩
  | deqReload hp =>
    obtain ⟨ts, m, hr, hv, -⟩ := h.deq.get hw _
    rw [← hv]
    exact ⟨_, .deqReload (by rw [h.pc]; exact hp) hr, h.move _ _ (by rfl)⟩
  | deqCasOk hp hpos =>
    obtain ⟨ts, m, hr, hv, -, hf, hl⟩ := h.deq.get hw _
    refine ⟨_, .deqCasOk (by rw [h.pc]; exact hp) hr (hv.trans hpos) hf, ?_⟩
    exact ⟨h.enq.away (by simp) rfl, .new hl rfl rfl, fun i => (h.seq i).away (by simp) rfl, h.data,
      by simp [St.goto, Mpmc.St.goto, h.pc], h.log, h.pub, h.rel, h.got⟩
  | deqCasFail hp =>
    obtain ⟨ts, m, hr, hv, -⟩ := h.deq.get hw _
    rw [← hv]
    exact ⟨_, .deqCasFail (by rw [h.pc]; exact hp) hr, h.move _ _ (by rfl)⟩
  | deqRead hp =>
    refine ⟨_, .deqRead (by rw [h.pc]; exact hp), ?_⟩
    rw [h.data]
    exact h.move _ _ (by rfl)
  | deqPub hp =>
    obtain ⟨ts, m, hr, hv, -, hf, hl⟩ := (h.seq _).get hw _
    refine ⟨_, .deqPub (by rw [h.pc]; exact hp) hf, ?_⟩
    exact ⟨h.enq.away (by simp) rfl, h.deq.away (by simp) rfl, seqs hl rfl rfl, h.data,
      by simp [St.goto, Mpmc.St.goto, h.pc], h.log, h.pub, by simp [h.rel], by simp [h.got]⟩

/-- Every state of memory has latest values. -/
theorem Reachable.now (h : Reachable n w) : ∃ s, Now w s := by
  choose f hf using fun l => h.wf.cur l
  exact ⟨⟨fun i => f (.seq i), w.data, f .enq, f .deq, w.pc, w.log, w.pub, w.rel, w.got⟩,
    hf _, hf _, fun i => hf _, rfl, rfl, rfl, rfl, rfl, rfl⟩

end Phosphor.Mpmc.W
