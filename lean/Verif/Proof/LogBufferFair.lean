import Verif.Proof.LogBufferInv
import Verif.Props.Progress
/-
The log over the code of its buffers while a run is being stopped: how far the other threads are from
being clear of their chunk locks.
-/
namespace Phosphor.TLog
variable {ε : Type} {tid : Nat → Nat} {s s' : St ε} {t : Nat}

/-- A thread in `logEvent`, or about to release the mutex, is not blocked. -/
theorem left_unblocked (hh : 0 < (s.pc t).left) : s.next true tid t .step ≠ .blocked := by
  intro hn
  simp only [St.next] at hn
  split at hn
  · rename_i ho
    have : s.pc t = .release := by
      unfold St.logStep at ho
      split at ho
      case h_19 =>
        revert hh
        cases hq : s.pc t <;> simp_all [Pc.left]
      all_goals first
        | (cases ho; done)
        | (split at ho <;> first
            | (cases ho; done)
            | (split at ho <;> first
                | (cases ho; done)
                | (split at ho <;> first
                    | (cases ho; done)
                    | (split at ho <;> cases ho))))
    simp only [St.heldStep, this] at hn
    cases hn
  · rename_i hb; exact hb hn

end Phosphor.TLog

namespace Phosphor.Custom
open TLog
variable {ε : Type} {tid : Nat → Nat} {c c' : CSt ε} {t u : Nat}

/-- How far thread `u` is from being clear of its chunk lock. -/
def CSt.away (c : CSt ε) (u : Nat) : Nat := 2 * (c.log.pc u).inside - if c.inCall u = none then 0 else 1

/-- What a step of thread `u` does while `t` is stopping the run. -/
structure Passing (c : CSt ε) (t u : Nat) (c' : CSt ε) : Prop where
  pc : c'.log.pc t = c.log.pc t
  hist : c'.log.hist = c.log.hist
  buffer : c'.log.buffer = c.log.buffer
  registered : c'.log.registered = c.log.registered
  away : c'.away u ≤ c.away u
  holder : ∀ b i, holder c'.calls b i = holder c.calls b i ∨ holder c'.calls b i = none ∨
    holder c'.calls b i = some u ∧ (c.log.pc u).pastInit = true ∧
      ∀ j, Custom.holder c.calls b j ≠ some u ∧ (Custom.holder c'.calls b j = some u → j = i)

theorem away_pos : 0 < c.away u ↔ 0 < (c.log.pc u).inside := by
  unfold CSt.away
  split
  · simp
  · constructor <;> intro h1 <;> omega

theorem away_zero : c.away u = 0 ↔ (c.log.pc u).inside = 0 := by
  have := away_pos (c := c) (u := u); omega

/-- A thread with the chunk lock is not with the mutex. -/
theorem no_mutex (h : Inv c) (hu : u ≠ t) (he : (c.log.pc t).evicting = true) : (c.log.pc u).holdsMutex = false := by
  cases hx : (c.log.pc u).holdsMutex with
  | false => rfl
  | true => exact absurd (h.ctl.same_holder hx (Pc.evicting_spec _ he).1) hu

theorem Passing.goto (hu : u ≠ t) {q : Pc ε} (hin : c.inCall u = none) (hq : q.inside ≤ (c.log.pc u).inside) :
    Passing c t u { c with log := c.log.goto u q } := by
  refine ⟨setf_ne _ _ (Ne.symm hu), rfl, rfl, rfl, ?_, fun _ _ => .inl rfl⟩
  simp only [CSt.away, hin, if_true, goto_pc]; omega

theorem Passing.lift (h : Inv c) (hu : u ≠ t) (he : (c.log.pc t).evicting = true) (hin : c.inCall u = none) {a : Choice ε}
    (hs : c.lift (c.log.next true tid u a) = .to c') : Passing c t u c' := by
  unfold CSt.lift at hs
  split at hs <;> cases hs
  rename_i l hl
  obtain ⟨h1, h2, h3, h4, h5⟩ := other_next h.ctl hu he hl
  refine ⟨h1, h2, h3, h4, ?_, fun _ _ => .inl rfl⟩
  simp only [CSt.away, hin, if_true]; omega

theorem passing_step (h : Inv c) (hu : u ≠ t) (he : (c.log.pc t).evicting = true) (hin : c.inCall u = none) {sp : Bool}
    (hs : c.step tid u sp = .to c') : Passing c t u c' := by
  have hm := no_mutex h hu he
  have ret : ∀ {p b i : Nat}, c.giveBack u p b i = .to c' → Passing c t u c' := by
    intro p b i hs
    unfold CSt.giveBack at hs
    split at hs <;> cases hs
    refine ⟨rfl, rfl, rfl, rfl, ?_, fun b' j => ?_⟩
    · simp only [CSt.away, hin, if_true]; omega
    · simp only [holder]; split
      · exact .inr (.inl rfl)
      · exact .inl rfl
  unfold CSt.step at hs
  split at hs
  case h_1 e hp =>
    split at hs
    · cases hs; exact .goto hu hin (by rw [hp]; simp [Pc.inside, Pc.left])
    · split at hs
      · cases hs; refine .goto hu hin ?_
        rw [hp]; split <;> simp [Pc.inside, Pc.left]
      · cases hs
  case h_2 e p hp =>
    split at hs
    · cases hs
    · exact ret hs
  case h_3 e p hp =>
    split at hs
    · cases hs
      refine ⟨setf_ne _ _ (Ne.symm hu), rfl, rfl, rfl, ?_, fun _ _ => .inl rfl⟩
      simp [CSt.away, hin, goto_pc, setf_self, hp, Pc.inside, Pc.left]
    · cases hs
  case h_4 => cases hs
  case h_5 e hp =>
    split at hs
    · cases hs
    · split at hs
      · cases hs
        refine ⟨setf_ne _ _ (Ne.symm hu), rfl, rfl, rfl, ?_, fun _ _ => .inl rfl⟩
        simp [CSt.away, hin, goto_pc, hp, Pc.inside, Pc.left]
      · cases hs
  case h_6 hp => rw [hp] at hm; cases hm
  case h_7 hp => rw [hp] at hm; cases hm
  case h_8 => exact .lift h hu he hin hs

theorem passing_next (h : Inv c) (hu : u ≠ t) (he : (c.log.pc t).evicting = true) {a : Act ε}
    (hs : c.next tid u a = .to c') : Passing c t u c' := by
  have hm := no_mutex h hu he
  have nheld : ∀ w st, c.log.pc u ≠ .held w st := by intro w st hp; rw [hp] at hm; cases hm
  cases a with
  | result r =>
    simp only [CSt.next, CSt.result] at hs
    split at hs
    case h_2 => cases hs
    case h_1 e p hp =>
      have hin := h.waits u e p hp
      have hb := (h.inside u p hin).2
      have hnc := h.ctl.noChunk u (by simp [hp, Pc.noChunk])
      split at hs
      · cases hs
        refine ⟨setf_ne _ _ (Ne.symm hu), rfl, rfl, rfl, ?_, fun _ _ => .inl rfl⟩
        simp [CSt.away, hin, goto_pc, setf_self, hp, Pc.inside, Pc.left]
      · split at hs <;> cases hs
        refine ⟨setf_ne _ _ (Ne.symm hu), rfl, rfl, rfl, ?_, fun b' j => ?_⟩
        · simp [CSt.away, hin, goto_pc, setf_self, hp, Pc.inside, Pc.left]
        · simp only [holder]; split
          · rename_i hx
            have no : ∀ j, holder c.calls p j ≠ some u := by
              intro j hj
              rcases h.kept u p j hj hb with h1 | ⟨_, h1, _⟩
              · rw [hnc] at h1; cases h1
              · rw [hp] at h1; cases h1
            refine .inr (.inr ⟨rfl, by simp [hp, Pc.pastInit], fun k => ⟨by rw [← hx.1]; exact no k, fun hk => ?_⟩⟩)
            split at hk
            · rename_i hy; rw [← hy.2, hx.2]
            · rw [← hx.1] at hk; exact absurd hk (no k)
          · exact .inl rfl
  | stats =>
    simp only [CSt.next, CSt.stats] at hs
    split at hs
    · rename_i hp; exact absurd hp (nheld _ _)
    · cases hs
  | act a =>
    simp only [CSt.next] at hs
    split at hs
    case h_1 p hin =>
      split at hs
      case h_2 => cases hs
      case h_1 =>
        unfold CSt.leave at hs
        split at hs
        · rename_i e q hp
          split at hs <;> cases hs
          refine ⟨setf_ne _ _ (Ne.symm hu), rfl, rfl, rfl, ?_, fun _ _ => .inl rfl⟩
          simp [CSt.away, hin, goto_pc, setf_self, hp, Pc.inside, Pc.left]
        · rename_i hp; rw [hp] at hm; cases hm
        · rename_i hp; exact absurd hp (nheld _ _)
        · cases hs
    case h_2 hin =>
      split at hs
      · exact passing_step h hu he hin hs
      · exact passing_step h hu he hin hs
      · unfold CSt.start at hs
        split at hs
        · rename_i hp; exact absurd hp (nheld _ _)
        · cases hs
      · rename_i b
        split at hs <;> cases hs
        rename_i l hl
        obtain ⟨h1, h2, h3, h4, h5⟩ := other_next h.ctl hu he hl
        refine ⟨h1, h2, h3, h4, ?_, fun _ _ => .inl rfl⟩
        simp only [CSt.away, hin, if_true]; omega
      · simp only [St.next] at hs
        split at hs
        · rename_i hp; exact absurd hp (nheld _ _)
        · cases hs
      · simp only [St.next] at hs
        split at hs
        · rename_i hp; exact absurd hp (nheld _ _)
        · cases hs
      · exact .lift h hu he hin hs

/-- A thread that is not clear and in no function of the buffer can go on, and gets closer. -/
theorem away_step (h : Inv c) (hu : u ≠ t) (he : (c.log.pc t).evicting = true) (hin : c.inCall u = none)
    (hp : 0 < c.away u) : c.next tid u (.act .step) ≠ .blocked ∧
      ∀ c', c.next tid u (.act .step) = .to c' → c'.away u < c.away u := by
  have hi := away_pos.1 hp
  have hm := no_mutex h hu he
  have hleft := Nat.lt_of_lt_of_le hi (Pc.inside_le _)
  have hal : c.away u = 2 * (c.log.pc u).inside := by simp [CSt.away, hin]
  have hnre : (c.log.pc u).inside = (c.log.pc u).left := by
    cases hq : c.log.pc u <;> simp [Pc.inside]
    rw [hq] at hi; cases hi
  have ret : ∀ {p b i : Nat}, c.giveBack u p b i ≠ .blocked ∧ ∀ c', c.giveBack u p b i = .to c' → c'.away u < c.away u := by
    intro p b i
    unfold CSt.giveBack
    split
    · refine ⟨by simp, fun c' hc => ?_⟩
      cases hc
      rw [hal]; simp only [CSt.away, setf_self]; simp; omega
    · exact ⟨by simp, by simp⟩
  simp only [CSt.next, hin]
  unfold CSt.step
  split
  case h_1 e hq =>
    split
    · refine ⟨by simp, fun c' hc => ?_⟩
      cases hc; simp [CSt.away, hin, goto_pc, hq, Pc.inside, Pc.left]
    · split
      · refine ⟨by simp, fun c' hc => ?_⟩
        cases hc; simp only [CSt.away, hin, goto_pc, hq, if_true]; split <;> simp [Pc.inside, Pc.left]
      · exact ⟨by simp, by simp⟩
  case h_2 e p hq =>
    split
    · exact ⟨by simp, by simp⟩
    · exact ret
  case h_3 e p hq =>
    split
    · refine ⟨by simp, fun c' hc => ?_⟩
      cases hc; simp [CSt.away, hin, goto_pc, setf_self, hq, Pc.inside, Pc.left]
    · exact ⟨by simp, by simp⟩
  case h_4 e p hq => rw [h.waits u e p hq] at hin; cases hin
  case h_5 e hq =>
    split
    · exact ⟨by simp, by simp⟩
    · split
      · refine ⟨by simp, fun c' hc => ?_⟩
        cases hc; simp [CSt.away, hin, goto_pc, hq, Pc.inside, Pc.left]
      · exact ⟨by simp, by simp⟩
  case h_6 hq => rw [hq] at hm; cases hm
  case h_7 hq => rw [hq] at hm; cases hm
  case h_8 n1 n2 n3 n4 n5 n6 n7 =>
    simp only [Bool.false_eq_true, if_false]
    refine ⟨fun hb => ?_, fun c' hc => ?_⟩
    · unfold CSt.lift at hb
      split at hb <;> cases hb
      rename_i hl
      exact left_unblocked hleft hl
    · unfold CSt.lift at hc
      split at hc <;> cases hc
      rename_i l hl
      have key : (l.pc u).left < (c.log.pc u).left := by
        simp only [St.next] at hl
        split at hl
        · unfold St.heldStep at hl
          split at hl
          case h_3 hq => rw [hq] at hm; cases hm
          case h_10 => cases hl
          all_goals (rename_i hq; rw [hq] at hleft; cases hleft)
        · rcases logStep_left hl with h1 | ⟨e, hq, _, h2 | h2⟩ | ⟨e, p, hq, _⟩
          · exact h1
          · have := (h.ctl.slave u).1 h2
            rw [hq] at this; cases this
          · cases h2
          · exact absurd hq (n4 e p)
      rw [hal]
      simp only [CSt.away, hin, if_true]
      have := Pc.inside_le (l.pc u)
      omega

/-- A step of the thread that is stopping the run. -/
theorem stopping_next (h : Inv c) (he : (c.log.pc t).evicting = true) {a : Act ε} (hs : c.next tid t a = .to c') :
    (Finishes c.log.hist c'.log ∨ ((c'.log.pc t).evicting = true ∧ c'.log.hist = c.log.hist ∧
      c'.log.buffer = c.log.buffer ∧ c'.log.registered = c.log.registered ∧
      (c'.log.pc t).evictLeft ≤ (c.log.pc t).evictLeft ∧ (∀ u ∈ (c'.log.pc t).pending, u ∈ (c.log.pc t).pending) ∧
      (a = .act .step → (c'.log.pc t).evictLeft < (c.log.pc t).evictLeft ∨
        ∃ u ∈ (c.log.pc t).pending, (c.log.pc u).holdsSlave = true))) ∧
    ∀ b i, holder c'.calls b i = holder c.calls b i := by
  have hin : c.inCall t = none := by
    cases hx : c.inCall t with
    | none => rfl
    | some p =>
      have := (h.inside t p hx).1
      revert he this
      cases hq : c.log.pc t with
      | held w st => cases w <;> simp [insidePc, Pc.evicting]
      | _ => simp [Pc.evicting]
  have nu : ∀ st, c.log.pc t ≠ .held .user st := by intro st hp; rw [hp] at he; cases he
  have lift : ∀ {k : Choice ε}, (a = .act .step → k = .step) → c.lift (c.log.next true tid t k) = .to c' →
      (Finishes c.log.hist c'.log ∨ ((c'.log.pc t).evicting = true ∧ c'.log.hist = c.log.hist ∧
      c'.log.buffer = c.log.buffer ∧ c'.log.registered = c.log.registered ∧
      (c'.log.pc t).evictLeft ≤ (c.log.pc t).evictLeft ∧ (∀ u ∈ (c'.log.pc t).pending, u ∈ (c.log.pc t).pending) ∧
      (a = .act .step → (c'.log.pc t).evictLeft < (c.log.pc t).evictLeft ∨
        ∃ u ∈ (c.log.pc t).pending, (c.log.pc u).holdsSlave = true))) ∧
      ∀ b i, holder c'.calls b i = holder c.calls b i := by
    intro k hk hs
    unfold CSt.lift at hs
    split at hs <;> cases hs
    rename_i l hl
    refine ⟨?_, fun _ _ => rfl⟩
    rcases evict_next h.ctl he hl with h1 | ⟨h1, h2, _, h4, h5, _, h7, h8, h9⟩
    · exact .inl h1
    · exact .inr ⟨h1, h2, h4, h5, h7, h8, fun ha => h9 (hk ha)⟩
  cases a with
  | result r =>
    simp only [CSt.next, CSt.result] at hs
    split at hs
    · rename_i hp; rw [hp] at he; cases he
    · cases hs
  | stats =>
    simp only [CSt.next, CSt.stats] at hs
    cases hs
  | act k =>
    have step : ∀ {sp : Bool}, (k = .step → sp = false) → c.step tid t sp = .to c' → _ := fun {sp} hk hs => by
      unfold CSt.step at hs
      split at hs
      case h_8 =>
        refine lift (k := if sp then .spurious else .step) ?_ hs
        intro ha; cases ha; simp [hk rfl]
      all_goals (rename_i hp; rw [hp] at he; cases he)
    simp only [CSt.next, hin] at hs
    split at hs
    · exact step (fun _ => rfl) hs
    · exact step (fun hk => by cases hk) hs
    · unfold CSt.start at hs
      split at hs
      · rename_i hp; exact absurd hp (nu _)
      · cases hs
    · rename_i b
      split at hs <;> cases hs
      rename_i l hl
      refine ⟨?_, fun _ _ => rfl⟩
      rcases evict_next h.ctl he hl with h1 | ⟨h1, h2, _, h4, h5, _, h7, h8, h9⟩
      · exact .inl h1
      · exact .inr ⟨h1, h2, h4, h5, h7, h8, fun ha => by cases ha⟩
    · simp only [St.next] at hs
      cases hs
    · simp only [St.next] at hs
      cases hs
    · rename_i n1 n2 n3 n4 n5 n6
      exact lift (fun ha => by cases ha; exact absurd rfl n1) hs

end Phosphor.Custom
