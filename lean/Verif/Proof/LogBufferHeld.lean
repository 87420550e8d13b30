import Mathlib.Data.List.Perm.Subperm
import Verif.Proof.LogBufferFair
/-
While a run is being stopped, the chunks of its buffer are with registered threads, one each at most.
-/
namespace Phosphor.TLog
variable {ε : Type} {tid : Nat → Nat} {s s' : St ε} {t : Nat}

theorem pop_keep (s : St ε) (t : Nat) (st : List Frame) : (s.pop t st).registered = s.registered ∧
    (s.pop t st).buffer = s.buffer ∧ ((s.pop t st).pc t).evicting = false := by
  unfold St.pop; split <;> exact ⟨rfl, rfl, by rw [goto_pc]; rfl⟩

theorem unwind_keep (s : St ε) (t : Nat) (st : List Frame) : ((s.unwind t st).pc t).evicting = false := by
  induction st with
  | nil => unfold St.unwind; rw [goto_pc]; rfl
  | cons a st ih =>
    cases a
    · unfold St.unwind; rw [goto_pc]; rfl
    · unfold St.unwind; exact ih

/-- A stop, until its last step, leaves the registered threads and the buffer as they are. -/
theorem evict_keep (he : (s.pc t).evicting = true) {c : Choice ε} (hs : s.next true tid t c = .to s') :
    s'.registered = s.registered ∧ s'.buffer = s.buffer := by
  have held : ∀ other, s.heldStep tid t other = .to s' → s'.registered = s.registered ∧ s'.buffer = s.buffer := by
    intro other hs
    unfold St.heldStep at hs
    split at hs
    case h_4 hp =>
      split at hs <;> cases hs
      · exact ⟨rfl, rfl⟩
      · exact ⟨(pop_keep _ _ _).1, (pop_keep _ _ _).2.1⟩
    case h_5 hp =>
      split at hs
      · cases hs; exact ⟨rfl, rfl⟩
      · split at hs <;> cases hs <;> exact ⟨rfl, rfl⟩
    case h_6 => cases hs; exact ⟨rfl, rfl⟩
    case h_7 => cases hs; exact ⟨rfl, rfl⟩
    case h_10 => cases hs
    all_goals (rename_i hp; rw [hp] at he; cases he)
  have nolog : ∀ other, s.logStep tid t other = .blocked := by
    intro other
    unfold Pc.evicting at he
    split at he
    · rename_i hp; simp only [St.logStep, hp]
    · rename_i hp; simp only [St.logStep, hp]
    · rename_i hp; simp only [St.logStep, hp]
    · cases he
  have nidle : s.isIdle t = false := by
    unfold St.isIdle; split
    · rename_i hp; rw [hp] at he; cases he
    · rfl
  rcases next_choice nidle (fun st hp => by rw [hp] at he; cases he) hs with rfl | rfl | ⟨b, rfl, rfl⟩
  · simp only [St.next, nolog] at hs; exact held _ hs
  · simp only [St.next, nolog] at hs; exact held _ hs
  · exact ⟨rfl, rfl⟩

/-- A stop begins while tracing is on. -/
theorem evict_begin (he : (s.pc t).evicting = false) {c : Choice ε} (hs : s.next true tid t c = .to s')
    (he' : (s'.pc t).evicting = true) : s.enabled = true ∧ s'.registered = s.registered ∧ s'.buffer = s.buffer := by
  have held : ∀ other, s.heldStep tid t other = .to s' → s.enabled = true ∧ s'.registered = s.registered ∧ s'.buffer = s.buffer := by
    intro other hs
    exfalso
    unfold St.heldStep at hs
    split at hs
    case h_1 => cases hs; rw [goto_pc] at he'; cases he'
    case h_2 => split at hs <;> cases hs; rw [goto_pc] at he'; cases he'
    case h_3 => cases hs; rw [goto_pc] at he'; cases he'
    case h_8 => cases hs; rw [goto_pc] at he'; cases he'
    case h_9 => cases hs; rw [(pop_keep _ _ _).2.2] at he'; cases he'
    case h_10 => cases hs
    all_goals (rename_i hp; rw [hp] at he; cases he)
  have log : ∀ sp, s.logStep tid t sp = .to s' → s.enabled = true ∧ s'.registered = s.registered ∧ s'.buffer = s.buffer := by
    intro sp hs
    rcases logStep_target hs with h1 | h1 | ⟨rest, h1⟩
    · exfalso
      unfold Pc.evicting at he'
      split at he'
      · rename_i hp; rw [hp] at h1; cases h1
      · rename_i hp; rw [hp] at h1; cases h1
      · rename_i hp; rw [hp] at h1; cases h1
      · cases he'
    · rw [h1] at he'; cases he'
    · unfold St.logStep at hs
      split at hs
      case h_16 hp =>
        split at hs
        · cases hs; rw [goto_pc] at h1; cases h1
        · split at hs <;> cases hs
          · exact ⟨by assumption, rfl, rfl⟩
          · rw [goto_pc] at h1; cases h1
      case h_2 hp =>
        split at hs <;> cases hs
        · rw [goto_pc] at h1; cases h1
        · rw [goto_pc] at h1; cases h1
        · rw [hp] at h1; cases h1
      case h_12 hp =>
        split at hs
        · split at hs <;> cases hs
          · rw [goto_pc] at h1; cases h1
          · rw [hp] at h1; cases h1
        · cases hs
      all_goals first
        | (cases hs; done)
        | (cases hs; rw [goto_pc] at h1; first | (cases h1; done) | (split at h1 <;> cases h1))
        | (split at hs <;> first
            | (cases hs; done)
            | (cases hs; rw [goto_pc] at h1; first | (cases h1; done) | (split at h1 <;> cases h1))
            | (split at hs <;> first
                | (cases hs; done)
                | (cases hs; rw [goto_pc] at h1; first | (cases h1; done) | (split at h1 <;> cases h1))
                | (split at hs <;> first
                    | (cases hs; done)
                    | (cases hs; rw [goto_pc] at h1; first | (cases h1; done) | (split at h1 <;> cases h1)))))
  have same : s'.pc t = s.pc t → False := by intro h; rw [h, he] at he'; cases he'
  cases c with
  | step =>
    simp only [St.next] at hs
    split at hs
    · exact held _ hs
    · exact log _ hs
  | spurious =>
    simp only [St.next] at hs
    split at hs
    · exact held _ hs
    · exact log _ hs
  | start cfg =>
    simp only [St.next] at hs
    split at hs
    · split at hs
      · cases hs
      · split at hs
        · split at hs
          · cases hs; exact (same rfl).elim
          · split at hs <;> cases hs
            · exact ⟨by assumption, rfl, rfl⟩
            · rw [goto_pc] at he'; cases he'
        · cases hs
    · cases hs
  | stop sh =>
    simp only [St.next] at hs
    split at hs
    · split at hs <;> cases hs
      · exact ⟨by assumption, rfl, rfl⟩
      · exact (same rfl).elim
    · cases hs
  | ret =>
    simp only [St.next] at hs
    split at hs <;> cases hs
    rw [(pop_keep _ _ _).2.2] at he'; cases he'
  | throw =>
    simp only [St.next] at hs
    split at hs <;> cases hs
    rw [unwind_keep] at he'; cases he'
  | getBuffer =>
    simp only [St.next] at hs
    split at hs
    · split at hs <;> cases hs <;> exact (same rfl).elim
    · cases hs
  | getTraceContext =>
    simp only [St.next] at hs
    split at hs
    · split at hs <;> cases hs <;> exact (same rfl).elim
    · cases hs
  | _ =>
    exfalso
    simp only [St.next] at hs
    split at hs <;> cases hs
    first
      | (rw [goto_pc] at he'; cases he'; done)
      | exact same rfl

end Phosphor.TLog

namespace Phosphor.Custom
open TLog
variable {ε : Type} {tid : Nat → Nat} {c c' : CSt ε} {t u : Nat}

theorem next_pcs (h : Inv c) {a : Act ε} (hs : c.next tid t a = .to c') (hu : u ≠ t) : c'.log.pc u = c.log.pc u := by
  cases a with
  | result r =>
    simp only [CSt.next, CSt.result] at hs
    split at hs
    · split at hs
      · cases hs; exact setf_ne _ _ hu
      · split at hs <;> cases hs
        exact setf_ne _ _ hu
    · cases hs
  | stats => exact (LogBuf.logStep_stats hs).pcs u hu
  | act k =>
    cases hin : c.inCall t with
    | none => exact (LogBuf.logStep_act h hin hs).pcs u hu
    | some p =>
      simp only [CSt.next, hin] at hs
      split at hs
      · unfold CSt.leave at hs
        split at hs
        · split at hs <;> cases hs
          exact setf_ne _ _ hu
        · split at hs <;> cases hs
          rfl
        · cases hs; rfl
        · cases hs
      · cases hs

theorem custom_evict_keep (h : Inv c) (he : (c.log.pc t).evicting = true) {a : Act ε} (hs : c.next tid t a = .to c') :
    c'.log.registered = c.log.registered ∧ c'.log.buffer = c.log.buffer := by
  have hin : c.inCall t = none := by
    cases hx : c.inCall t with
    | none => rfl
    | some p =>
      have := (h.inside t p hx).1
      revert he this
      cases hq : c.log.pc t with
      | held w st => cases w <;> simp [insidePc, Pc.evicting]
      | _ => simp [Pc.evicting]
  have nu : ∀ st, c.log.pc t ≠ .held .user st := by intro st hp; rw [hp] at he; cases he
  have lift : ∀ {k : Choice ε}, c.lift (c.log.next true tid t k) = .to c' →
      c'.log.registered = c.log.registered ∧ c'.log.buffer = c.log.buffer := by
    intro k hs
    unfold CSt.lift at hs
    split at hs <;> cases hs
    rename_i l hl
    exact evict_keep he hl
  have step : ∀ {sp : Bool}, c.step tid t sp = .to c' →
      c'.log.registered = c.log.registered ∧ c'.log.buffer = c.log.buffer := fun {sp} hs => by
    unfold CSt.step at hs
    split at hs
    case h_8 => exact lift hs
    all_goals (rename_i hp; rw [hp] at he; cases he)
  cases a with
  | result r =>
    simp only [CSt.next, CSt.result] at hs
    split at hs
    · rename_i hp; rw [hp] at he; cases he
    · cases hs
  | stats =>
    simp only [CSt.next, CSt.stats] at hs
    cases hs
  | act k =>
    simp only [CSt.next, hin] at hs
    split at hs
    · exact step hs
    · exact step hs
    · unfold CSt.start at hs
      split at hs
      · rename_i hp; exact absurd hp (nu _)
      · cases hs
    · rename_i b
      split at hs <;> cases hs
      rename_i l hl
      exact evict_keep he hl
    · simp only [St.next] at hs
      cases hs
    · simp only [St.next] at hs
      cases hs
    · exact lift hs

theorem custom_evict_begin (he : (c.log.pc t).evicting = false) {a : Act ε} (hs : c.next tid t a = .to c')
    (he' : (c'.log.pc t).evicting = true) : c.log.enabled = true ∧ c'.log.registered = c.log.registered ∧
      c'.log.buffer = c.log.buffer ∧ ∀ b i, holder c'.calls b i = holder c.calls b i := by
  have same : c'.log.pc t = c.log.pc t → False := by intro h; rw [h, he] at he'; cases he'
  have lift : ∀ {k : Choice ε}, c.lift (c.log.next true tid t k) = .to c' → c.log.enabled = true ∧
      c'.log.registered = c.log.registered ∧
      c'.log.buffer = c.log.buffer ∧ ∀ b i, holder c'.calls b i = holder c.calls b i := by
    intro k hs
    unfold CSt.lift at hs
    split at hs <;> cases hs
    rename_i l hl
    obtain ⟨h1, h2, h3⟩ := evict_begin he hl he'
    exact ⟨h1, h2, h3, fun _ _ => rfl⟩
  have ret : ∀ {p b i : Nat}, c.giveBack t p b i = .to c' → False := by
    intro p b i hs
    unfold CSt.giveBack at hs
    split at hs <;> cases hs
    exact same rfl
  have step : ∀ {sp : Bool}, c.step tid t sp = .to c' → c.log.enabled = true ∧
      c'.log.registered = c.log.registered ∧
      c'.log.buffer = c.log.buffer ∧ ∀ b i, holder c'.calls b i = holder c.calls b i := fun {sp} hs => by
    unfold CSt.step at hs
    split at hs
    case h_1 =>
      split at hs
      · cases hs; rw [goto_pc] at he'; cases he'
      · split at hs <;> cases hs
        rw [goto_pc] at he'; split at he' <;> cases he'
    case h_2 =>
      split at hs
      · cases hs
      · exact (ret hs).elim
    case h_3 => split at hs <;> cases hs; simp only [goto_pc] at he'; cases he'
    case h_4 => cases hs
    case h_5 =>
      split at hs
      · cases hs
      · split at hs <;> cases hs
        simp only [goto_pc] at he'; cases he'
    case h_6 =>
      split at hs
      · exact (ret hs).elim
      · exact lift hs
    case h_7 => cases hs; simp only [goto_pc] at he'; cases he'
    case h_8 => exact lift hs
  cases a with
  | result r =>
    exfalso
    simp only [CSt.next, CSt.result] at hs
    split at hs
    · split at hs
      · cases hs; simp only [goto_pc] at he'; cases he'
      · split at hs <;> cases hs
        simp only [goto_pc] at he'; cases he'
    · cases hs
  | stats =>
    exfalso
    simp only [CSt.next, CSt.stats] at hs
    split at hs
    · split at hs
      · split at hs
        · split at hs <;> cases hs; exact same rfl
        · cases hs
      · cases hs
    · cases hs
  | act k =>
    simp only [CSt.next] at hs
    split at hs
    · exfalso
      split at hs
      · unfold CSt.leave at hs
        split at hs
        · split at hs <;> cases hs
          simp only [goto_pc] at he'; cases he'
        · split at hs <;> cases hs
          exact same rfl
        · cases hs; exact same rfl
        · cases hs
      · cases hs
    · split at hs
      · exact step hs
      · exact step hs
      · unfold CSt.start at hs
        split at hs
        · split at hs
          · cases hs
          · dsimp only at hs
            split at hs
            · cases hs; exact (same rfl).elim
            · split at hs <;> cases hs
              · exact ⟨by assumption, rfl, rfl, fun _ _ => rfl⟩
              · simp only [goto_pc] at he'; cases he'
        · cases hs
      · split at hs <;> cases hs
        rename_i l hl
        obtain ⟨h1, h2, h3⟩ := evict_begin he hl he'
        exact ⟨h1, h2, h3, fun _ _ => rfl⟩
      · exfalso
        unfold CSt.moveOut at hs
        split at hs <;> cases hs
        rename_i l hl
        simp only [St.next] at hl
        split at hl
        · split at hl <;> cases hl <;> exact same rfl
        · cases hl
      · exfalso
        unfold CSt.moveOut at hs
        split at hs <;> cases hs
        rename_i l hl
        simp only [St.next] at hl
        split at hl
        · split at hl <;> cases hl <;> exact same rfl
        · cases hl
      · exact lift hs

/-- While a run is being stopped, its chunks are with registered threads, one each at most. -/
theorem Reachable.held (h : Reachable tid c) {o b : Nat} (he : (c.log.pc o).evicting = true) (hb : c.log.buffer = some b) :
    (∀ i v, holder c.calls b i = some v → v ∈ c.log.registered) ∧
    ∀ i j v, holder c.calls b i = some v → holder c.calls b j = some v → i = j := by
  induction h generalizing o b with
  | init => cases he
  | @step c c' t a hr hs ih =>
    have hi := hr.inv
    cases hx : (c.log.pc o).evicting with
    | true =>
      by_cases hto : t = o
      · subst hto
        obtain ⟨k1, k2⟩ := custom_evict_keep hi hx hs
        have k3 := (stopping_next hi hx hs).2
        obtain ⟨i1, i2⟩ := ih hx (by rw [← k2]; exact hb)
        exact ⟨fun i v => by rw [k1, k3]; exact i1 i v, fun i j v => by rw [k3, k3]; exact i2 i j v⟩
      · have P := passing_next hi hto hx hs
        obtain ⟨i1, i2⟩ := ih hx (by rw [← P.buffer]; exact hb)
        refine ⟨fun i v hv => ?_, fun i j v hv hw => ?_⟩
        · rw [P.registered]
          rcases P.holder b i with h1 | h1 | ⟨h1, h2, _⟩
          · exact i1 i v (by rw [← h1]; exact hv)
          · rw [h1] at hv; cases hv
          · rw [h1] at hv; cases hv
            exact (hi.ctl.reg _).2 (hi.ctl.pastInit _ h2)
        · rcases P.holder b i with h1 | h1 | ⟨h1, _, h3⟩
          · rcases P.holder b j with g1 | g1 | ⟨g1, _, g3⟩
            · exact i2 i j v (by rw [← h1]; exact hv) (by rw [← g1]; exact hw)
            · rw [g1] at hw; cases hw
            · rw [g1] at hw; cases hw
              exact absurd (by rw [← h1]; exact hv) (g3 i).1
          · rw [h1] at hv; cases hv
          · rw [h1] at hv; cases hv
            rcases P.holder b j with g1 | g1 | ⟨g1, _, g3⟩
            · exact absurd (by rw [← g1]; exact hw) (h3 j).1
            · rw [g1] at hw; cases hw
            · exact ((h3 j).2 g1).symm
    | false =>
      have hto : t = o := by
        by_cases hne : t = o
        · exact hne
        · rw [next_pcs hi hs (Ne.symm hne), hx] at he; cases he
      subst hto
      obtain ⟨e1, e2, e3, e4⟩ := custom_evict_begin hx hs he
      have key : ∀ i v, holder c.calls b i = some v → (c.log.tenant v).chunk = some (b, i) := by
        intro i v hv
        rcases hi.kept v b i hv (by rw [← e3]; exact hb) with h1 | ⟨h1, _⟩
        · exact h1
        · rw [e1] at h1; cases h1
      refine ⟨fun i v hv => ?_, fun i j v hv hw => ?_⟩
      · rw [e4] at hv
        rw [e2]
        exact (hi.ctl.reg _).2 (hi.ctl.chunkInit _ (by rw [key i v hv]; simp))
      · rw [e4] at hv hw
        have := key i v hv
        rw [key j v hw] at this; cases this; rfl

/-- A registered thread without a chunk leaves a chunk free, if there are enough. -/
theorem Reachable.spare (h : Reachable tid c) {o b : Nat} (he : (c.log.pc o).evicting = true) (hb : c.log.buffer = some b)
    (hu : u ∈ c.log.registered) (hno : ∀ i, holder c.calls b i ≠ some u) {n : Nat}
    (hall : ∀ i, i < n → ∃ v, holder c.calls b i = some v) : n < c.log.registered.length := by
  obtain ⟨k1, k2⟩ := h.held he hb
  have hf : ∃ f : Nat → Nat, ∀ i, i < n → holder c.calls b i = some (f i) :=
    ⟨fun i => (holder c.calls b i).getD 0, fun i hi => by obtain ⟨v, hv⟩ := hall i hi; simp [hv]⟩
  obtain ⟨f, hf⟩ := hf
  have nd : (u :: (List.range n).map f).Nodup := by
    refine List.nodup_cons.2 ⟨?_, ?_⟩
    · intro hm
      obtain ⟨i, hi, e⟩ := List.mem_map.1 hm
      exact hno i (by rw [hf i (List.mem_range.1 hi), e])
    · refine List.pairwise_map.2 (List.Pairwise.imp_of_mem ?_ List.nodup_range)
      intro i j hi hj hne e
      refine hne (k2 i j (f i) (hf i (List.mem_range.1 hi)) ?_)
      rw [e]; exact hf j (List.mem_range.1 hj)
  have := (List.subperm_of_subset nd (l₂ := c.log.registered) (by
    intro v hv
    rcases List.mem_cons.1 hv with rfl | hv
    · exact hu
    · obtain ⟨i, hi, e⟩ := List.mem_map.1 hv
      exact k1 i v (by rw [← e]; exact hf i (List.mem_range.1 hi)))).length_le
  simp at this
  omega

end Phosphor.Custom
