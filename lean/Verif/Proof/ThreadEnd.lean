import Verif.Model.ThreadEnd
import Verif.Proof.TraceLogMany
import Verif.Proof.TraceLogEvents
import Verif.Proof.TraceLogAny
/-
The tenants still to be evicted are registered.
-/
namespace Phosphor.TLog
variable {ε : Type} {tid : Nat → Nat} {s s' : St ε} {t : Nat} {pol : Bool}

/-- The tenants a thread in `evictThreads` has still to deal with. -/
def Pc.evictees : Pc ε → List Nat
  | .held (.evict l _) _ => l
  | .held (.evictClear u l _) _ => u :: l
  | .held (.evictUnlock u l _) _ => u :: l
  | _ => []

theorem Pc.evictees_holds {p : Pc ε} {u : Nat} (h : u ∈ p.evictees) : p.holdsMutex = true := by
  unfold Pc.evictees at h
  split at h
  · rfl
  · rfl
  · rfl
  · cases h

/-- What a step does to the evictees and the registered tenants. -/
structure Evicts (s : St ε) (t : Nat) (s' : St ε) : Prop where
  pc : ∀ u ∈ (s'.pc t).evictees, u ∈ (s.pc t).evictees ∨ u ∈ s.registered
  reg : s'.registered = s.registered ∨ ((s.pc t).holdsMutex = true ∧ (s'.pc t).evictees = [] ∧
    ∀ u, u ≠ t → (u ∈ s'.registered ↔ u ∈ s.registered))

theorem Evicts.plain (x : St ε) (q : Pc ε) (h : x.registered = s.registered) (hq : q.evictees = []) :
    Evicts s t (x.goto t q) :=
  ⟨fun u hu => (by rw [goto_pc, hq] at hu; cases hu), Or.inl h⟩

theorem Evicts.stay (x : St ε) (h : x.registered = s.registered) (hp : x.pc = s.pc) : Evicts s t x :=
  ⟨fun u hu => Or.inl (by rw [← hp]; exact hu), Or.inl h⟩

theorem Evicts.begin (x : St ε) (sh full st) (h : x.registered = s.registered) :
    Evicts s t (x.beginStop t sh full st) :=
  ⟨fun u hu => Or.inr (by rw [St.beginStop, goto_pc] at hu; rw [← h]; exact hu), Or.inl h⟩

theorem Evicts.popped (x : St ε) (st : List Frame) (h : x.registered = s.registered) : Evicts s t (x.pop t st) := by
  match st with
  | [] => exact .plain x _ h rfl
  | .resumeUser :: st => exact .plain x _ h rfl
  | .finishStart n :: st => exact .plain x _ h rfl

theorem Evicts.unwound (x : St ε) (st : List Frame) (h : x.registered = s.registered) :
    Evicts s t (x.unwind t st) := by
  rw [unwind_eq]
  split
  · exact .plain x _ h rfl
  · exact .plain x _ h rfl

theorem logStep_evicts {sp : Bool} (hs : s.logStep tid t sp = .to s') : Evicts s t s' := by
  unfold St.logStep at hs
  repeat' split at hs
  all_goals first
    | cases hs; done
    | (cases hs; exact .stay _ rfl rfl)
    | (cases hs; exact .begin _ _ _ _ rfl)
    | (cases hs; refine .plain _ _ ?_ ?_ <;> first | rfl | (split <;> rfl))

theorem heldStep_evicts {other : Bool} (hs : s.heldStep tid t other = .to s') : Evicts s t s' := by
  unfold St.heldStep at hs
  split at hs
  · rename_i n hp
    cases hs
    unfold St.registerBody
    split
    · exact .plain _ _ rfl rfl
    · dsimp only
      refine ⟨fun u hu => (by rw [goto_pc] at hu; cases hu), Or.inr ⟨by rw [hp]; rfl, by rw [goto_pc]; rfl, fun u hu => ?_⟩⟩
      have : ∀ x : St ε, x.registered = t :: s.registered → (u ∈ (x.goto t .release).registered ↔ u ∈ s.registered) := by
        intro x hx
        show u ∈ x.registered ↔ _
        rw [hx, List.mem_cons]
        exact ⟨fun h => h.resolve_left hu, Or.inr⟩
      split <;> exact this _ rfl
  · rename_i hp
    split at hs
    · rename_i x hx
      cases hs
      unfold St.deregisterBody at hx
      split at hx
      · split at hx
        · cases hx
        · rename_i y hy
          have hk := returnOwn_keeps hy
          refine ⟨fun u hu => (by rw [goto_pc] at hu; cases hu), Or.inr ⟨by rw [hp]; rfl, by rw [goto_pc]; rfl, fun u hu => ?_⟩⟩
          have : x.registered = s.registered.filter (· ≠ t) := by
            dsimp only at hx
            split at hx <;> cases hx <;> rw [← hk.2.2]
          show u ∈ x.registered ↔ _
          rw [this, List.mem_filter]
          simp [hu]
      · cases hx
        exact .plain { s with hist := _ } _ rfl rfl
    · cases hs
  · cases hs; exact .plain { s with owner := none } _ rfl rfl
  · split at hs
    · cases hs; exact .plain { s with hist := _ } _ rfl rfl
    · cases hs; exact .popped { s with hist := _ } _ rfl
  · rename_i u rest sh st hp
    split at hs
    · cases hs
      refine ⟨fun v hv => Or.inl ?_, Or.inl rfl⟩
      rw [goto_pc] at hv
      rw [hp]
      simp only [Pc.evictees, List.mem_append, List.mem_singleton] at hv ⊢
      rw [List.mem_cons]
      exact hv.symm
    · split at hs
      · cases hs
        refine ⟨fun v hv => Or.inl ?_, Or.inl rfl⟩
        rw [goto_pc] at hv
        rw [hp]
        exact hv
      · cases hs; exact .stay _ rfl rfl
  · rename_i u rest sh st hp
    cases hs
    refine ⟨fun v hv => Or.inl ?_, Or.inl rfl⟩
    rw [goto_pc] at hv
    rw [hp]
    exact hv
  · rename_i u rest sh st hp
    cases hs
    refine ⟨fun v hv => Or.inl ?_, Or.inl rfl⟩
    rw [goto_pc] at hv
    rw [hp]
    exact List.mem_cons_of_mem _ hv
  · cases hs; exact .plain (s.createBuffer _) _ rfl rfl
  · cases hs; exact .popped s.enable _ rfl
  · cases hs

theorem next_evicts {c : Choice ε} (hs : s.next pol tid t c = .to s') : Evicts s t s' := by
  have key : ∀ sp, (match s.logStep tid t sp with
      | .blocked => s.heldStep tid t sp
      | o => o) = .to s' → Evicts s t s' := by
    intro sp hs
    split at hs
    · exact heldStep_evicts hs
    · exact logStep_evicts hs
  unfold St.next at hs
  cases c with
  | step => exact key false hs
  | spurious => exact key true hs
  | log e => dsimp only at hs; split at hs <;> cases hs; exact .plain s _ rfl rfl
  | lock => dsimp only at hs; split at hs <;> cases hs; exact .plain { s with owner := some t } _ rfl rfl
  | register n => dsimp only at hs; split at hs <;> cases hs; exact .plain { s with owner := some t } _ rfl rfl
  | deregister => dsimp only at hs; split at hs <;> cases hs; exact .plain { s with owner := some t } _ rfl rfl
  | free c => dsimp only at hs; split at hs <;> cases hs; exact .stay _ rfl rfl
  | start cfg =>
    dsimp only at hs
    split at hs
    · split at hs
      · cases hs
      · split at hs
        · split at hs
          · cases hs; exact .stay _ rfl rfl
          · split at hs <;> cases hs
            · exact .begin _ _ _ _ rfl
            · exact .plain { s with config := cfg, hist := .configure cfg :: s.hist } _ rfl rfl
        · cases hs
    · cases hs
  | stop sh =>
    dsimp only at hs
    split at hs
    · split at hs <;> cases hs
      · exact .begin _ _ _ _ rfl
      · exact .stay _ rfl rfl
    · cases hs
  | getBuffer => dsimp only at hs; split at hs <;> (try split at hs) <;> cases hs <;> exact .stay _ rfl rfl
  | getTraceContext => dsimp only at hs; split at hs <;> (try split at hs) <;> cases hs <;> exact .stay _ rfl rfl
  | ret => dsimp only at hs; split at hs <;> cases hs; exact .popped s _ rfl
  | throw => dsimp only at hs; split at hs <;> cases hs; exact .unwound s _ rfl

/-- Whoever is still to be evicted is registered. -/
theorem evictees_registered (h : Reachable pol tid s) (v u : Nat) (hu : u ∈ (s.pc v).evictees) :
    u ∈ s.registered := by
  induction h generalizing v u with
  | init => cases hu
  | step hr hs ih =>
    rename_i s s' t c
    have he := next_evicts hs
    have hc := hr.ctl0
    by_cases hv : v = t
    · subst hv
      have h1 : u ∈ s.registered := (he.pc u hu).elim (ih v u) id
      rcases he.reg with e | ⟨_, e, _⟩
      · rw [e]; exact h1
      · rw [e] at hu; cases hu
    · rw [next_pc hs hv] at hu
      have h1 := ih v u hu
      rcases he.reg with e | ⟨hm, _, _⟩
      · rw [e]; exact h1
      · have a := (hc.own v).2 (Pc.evictees_holds hu)
        have b := (hc.own t).2 hm
        rw [a] at b
        exact absurd (Option.some.inj b) hv

theorem registered_step {c : Choice ε} (hs : s.next pol tid t c = .to s') {u : Nat} (hu : u ∈ s'.registered) :
    u ∈ s.registered ∨ u = t := by
  rcases (next_evicts hs).reg with e | ⟨_, _, e⟩
  · exact Or.inl (e ▸ hu)
  · by_cases h : u = t
    · exact Or.inr h
    · exact Or.inl ((e u h).1 hu)

end Phosphor.TLog
