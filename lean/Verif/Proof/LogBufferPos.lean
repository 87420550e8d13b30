import Verif.Model.CustomBuffer
/-
A buffer is never created without chunks.
-/
namespace Phosphor.LogBuf
open TLog Custom
variable {ε : Type} {tid : Nat → Nat}

def posWork : Work → Prop
  | .startCreate n => 1 ≤ n
  | _ => True

def posPc : Pc ε → Prop
  | .held w st => posWork w ∧ ∀ n, .finishStart n ∈ st → 1 ≤ n
  | _ => True

theorem pos_pop {l : St ε} {t : Nat} {st : List Frame} (h : ∀ n, .finishStart n ∈ st → 1 ≤ n) : posPc ((l.pop t st).pc t) := by
  unfold St.pop
  split
  · simp [St.goto, setf_self, posPc]
  · simp only [St.goto, setf_self]; exact ⟨trivial, fun n hn => h n (List.mem_cons_of_mem _ hn)⟩
  · simp only [St.goto, setf_self]; exact ⟨h _ (List.mem_cons_self ..), fun n hn => h n (List.mem_cons_of_mem _ hn)⟩

theorem pos_unwind {l : St ε} {t : Nat} {st : List Frame} (h : ∀ n, .finishStart n ∈ st → 1 ≤ n) : posPc ((l.unwind t st).pc t) := by
  induction st with
  | nil => simp [St.unwind, St.goto, setf_self, posPc]
  | cons f st ih =>
    cases f with
    | resumeUser => simp only [St.unwind, St.goto, setf_self]; exact ⟨trivial, fun n hn => h n (List.mem_cons_of_mem _ hn)⟩
    | finishStart m => exact ih fun n hn => h n (List.mem_cons_of_mem _ hn)

theorem pos_goto {l : St ε} {t : Nat} {q : Pc ε} (h : posPc q) : posPc ((l.goto t q).pc t) := by
  simpa [St.goto, setf_self] using h

theorem pos_logStep {l l' : St ε} {t : Nat} {sp : Bool} (h : posPc (l.pc t)) (hs : l.logStep tid t sp = .to l') :
    posPc (l'.pc t) := by
  unfold St.logStep at hs
  split at hs
  case h_1 => cases hs; apply pos_goto; split <;> trivial
  case h_2 => split at hs <;> cases hs <;> first | exact h | exact pos_goto trivial
  case h_3 => cases hs; apply pos_goto; split <;> trivial
  case h_4 =>
    split at hs
    · cases hs; exact pos_goto trivial
    · split at hs
      · split at hs <;> cases hs; apply pos_goto; split <;> trivial
      · cases hs
  case h_5 =>
    split at hs
    · cases hs; apply pos_goto; split <;> trivial
    · cases hs; exact pos_goto trivial
  case h_6 => split at hs <;> cases hs; exact pos_goto trivial
  case h_7 => split at hs <;> first | cases hs; done | (split at hs <;> cases hs; exact pos_goto trivial)
  case h_8 => cases hs; apply pos_goto; split <;> trivial
  case h_9 => cases hs; apply pos_goto; split <;> trivial
  case h_10 => split at hs <;> cases hs; exact pos_goto trivial
  case h_11 =>
    split at hs
    · split at hs
      · split at hs <;> cases hs <;> exact pos_goto trivial
      · split at hs <;> cases hs <;> exact pos_goto trivial
    · cases hs
  case h_12 =>
    split at hs
    · split at hs <;> cases hs <;> first | exact h | exact pos_goto trivial
    · cases hs
  case h_13 => cases hs; exact pos_goto trivial
  case h_14 => cases hs; exact pos_goto trivial
  case h_15 => split at hs <;> cases hs <;> exact pos_goto trivial
  case h_16 =>
    split at hs
    · cases hs; exact pos_goto trivial
    · split at hs
      · cases hs; exact pos_goto ⟨trivial, fun n hn => by cases hn⟩
      · cases hs; exact pos_goto trivial
  case h_17 =>
    split at hs
    · cases hs
    · split at hs
      · split at hs <;> cases hs; exact pos_goto trivial
      · cases hs
  case h_18 => cases hs; exact pos_goto trivial
  case h_19 => cases hs

theorem pos_heldStep {l l' : St ε} {t : Nat} {sp : Bool} (h : posPc (l.pc t)) (hs : l.heldStep tid t sp = .to l') :
    posPc (l'.pc t) := by
  unfold St.heldStep at hs
  split at hs
  case h_1 => cases hs; exact pos_goto trivial
  case h_2 => split at hs <;> cases hs; exact pos_goto trivial
  case h_3 => cases hs; exact pos_goto trivial
  case h_4 sh st hp =>
    rw [hp] at h
    split at hs <;> cases hs
    · exact pos_goto ⟨trivial, h.2⟩
    · exact pos_pop h.2
  case h_5 u rest sh st hp =>
    have h0 := h
    rw [hp] at h
    split at hs
    · cases hs; exact pos_goto ⟨trivial, h.2⟩
    · split at hs <;> cases hs
      · exact pos_goto ⟨trivial, h.2⟩
      · exact h0
  case h_6 hp => rw [hp] at h; cases hs; exact pos_goto ⟨trivial, h.2⟩
  case h_7 hp => rw [hp] at h; cases hs; exact pos_goto ⟨trivial, h.2⟩
  case h_8 hp => rw [hp] at h; cases hs; exact pos_goto ⟨trivial, h.2⟩
  case h_9 hp => rw [hp] at h; cases hs; exact pos_pop h.2
  case h_10 => cases hs

theorem pos_log {l l' : St ε} {t : Nat} {a : Choice ε} (ha : ∀ cfg, a ≠ .start cfg) (h : posPc (l.pc t))
    (hs : l.next true tid t a = .to l') : posPc (l'.pc t) := by
  cases a <;> simp only [St.next] at hs
  case step =>
    split at hs
    · exact pos_heldStep h hs
    · exact pos_logStep h hs
  case spurious =>
    split at hs
    · exact pos_heldStep h hs
    · exact pos_logStep h hs
  case log => split at hs <;> cases hs; exact pos_goto trivial
  case lock => split at hs <;> cases hs; exact pos_goto ⟨trivial, fun n hn => by cases hn⟩
  case register => split at hs <;> cases hs; exact pos_goto trivial
  case deregister => split at hs <;> cases hs; exact pos_goto trivial
  case free => split at hs <;> cases hs; exact h
  case start cfg => exact absurd rfl (ha cfg)
  case stop =>
    split at hs
    · rename_i st hp
      split at hs <;> cases hs
      · rw [hp] at h
        refine pos_goto ⟨trivial, fun n hn => h.2 n ?_⟩
        simpa using hn
      · exact h
    · cases hs
  case getBuffer => split at hs <;> first | (cases hs; done) | (split at hs <;> cases hs <;> exact h)
  case getTraceContext => split at hs <;> first | (cases hs; done) | (split at hs <;> cases hs <;> exact h)
  case ret => split at hs <;> cases hs; rename_i st hp; rw [hp] at h; exact pos_pop h.2
  case throw => split at hs <;> cases hs; rename_i st hp; rw [hp] at h; exact pos_unwind h.2

theorem pos_giveBack {c c' : CSt ε} {t p b i : Nat} (h : posPc (c.log.pc t)) (hs : c.giveBack t p b i = .to c') :
    posPc (c'.log.pc t) := by
  unfold CSt.giveBack at hs
  split at hs <;> cases hs
  exact h

theorem pos_lift {c c' : CSt ε} {t : Nat} {a : Choice ε} (ha : ∀ cfg, a ≠ .start cfg) (h : posPc (c.log.pc t))
    (hs : c.lift (c.log.next true tid t a) = .to c') : posPc (c'.log.pc t) := by
  unfold CSt.lift at hs
  split at hs <;> cases hs
  rename_i l hl
  exact pos_log ha h hl

theorem pos_step {c c' : CSt ε} {t : Nat} {sp : Bool} (h : posPc (c.log.pc t)) (hs : c.step tid t sp = .to c') :
    posPc (c'.log.pc t) := by
  unfold CSt.step at hs
  split at hs
  case h_1 =>
    split at hs
    · cases hs; exact pos_goto trivial
    · split at hs <;> cases hs; apply pos_goto; split <;> trivial
  case h_2 => split at hs <;> first | (cases hs; done) | exact pos_giveBack h hs
  case h_3 => split at hs <;> cases hs; exact pos_goto trivial
  case h_4 => cases hs
  case h_5 => split at hs <;> first | (cases hs; done) | (split at hs <;> cases hs; exact pos_goto trivial)
  case h_6 =>
    split at hs
    · exact pos_giveBack h hs
    · exact pos_lift (by simp) h hs
  case h_7 n st hp => rw [hp] at h; cases hs; exact pos_goto ⟨trivial, h.2⟩
  case h_8 => exact pos_lift (by intro cfg; split <;> simp) h hs

theorem pos_next {c c' : CSt ε} {t : Nat} {a : Act ε} (h : posPc (c.log.pc t)) (hs : c.next tid t a = .to c') :
    posPc (c'.log.pc t) := by
  cases a with
  | result r =>
    simp only [CSt.next, CSt.result] at hs
    split at hs
    · split at hs
      · cases hs; exact pos_goto trivial
      · split at hs <;> cases hs; exact pos_goto trivial
    · cases hs
  | stats =>
    simp only [CSt.next, CSt.stats] at hs
    split at hs
    · split at hs
      · split at hs
        · split at hs <;> cases hs; exact h
        · cases hs
      · cases hs
    · cases hs
  | act a =>
    simp only [CSt.next] at hs
    split at hs
    · split at hs
      · unfold CSt.leave at hs
        split at hs
        · split at hs <;> cases hs; exact pos_goto trivial
        · split at hs <;> cases hs; exact h
        · cases hs; exact h
        · cases hs
      · cases hs
    · split at hs
      · exact pos_step h hs
      · exact pos_step h hs
      · unfold CSt.start at hs
        split at hs
        case h_2 => cases hs
        case h_1 st hp =>
          have h0 := h
          rw [hp] at h
          split at hs
          · cases hs
          · dsimp only at hs
            split at hs
            · cases hs; exact h0
            · rename_i hn
              split at hs
              · cases hs
                refine pos_goto ⟨trivial, fun n hm => ?_⟩
                simp only [List.mem_cons, Frame.finishStart.injEq] at hm
                rcases hm with rfl | hm | hm
                · exact Nat.one_le_iff_ne_zero.2 hn
                · cases hm
                · exact h.2 n hm
              · cases hs
                refine pos_goto ⟨Nat.one_le_iff_ne_zero.2 hn, fun n hm => h.2 n ?_⟩
                simpa using hm
      · split at hs
        · rename_i l hl; cases hs; exact pos_log (by simp) h hl
        · cases hs
        · cases hs
      · unfold CSt.moveOut at hs
        split at hs <;> cases hs
        rename_i l hl; exact pos_log (by simp) h hl
      · unfold CSt.moveOut at hs
        split at hs <;> cases hs
        rename_i l hl; exact pos_log (by simp) h hl
      · exact pos_lift (by intro cfg hc; simp_all) h hs

end Phosphor.LogBuf
