import Verif.Props.ConfigObject
import Verif.Props.TraceLog
/-
Property C71: the default constructed configuration.
-/
namespace Phosphor.Cfg
open TLog

/-- C71: the default constructed configuration is that of a log that was never started, describes
itself as a fixed buffer of no bytes without categories, and no log starts tracing with it: the
call is rejected and tracing stays as it is. -/
theorem C71_default :
    Obj.new.abs = (St.init : St Nat).config ∧
    Obj.new.getBufferMode = .fixed ∧ Obj.new.getBufferSize = 0 ∧ Obj.new.getStoppedCallback = none ∧
    Obj.new.getStopTracingOnDestruct = false ∧ Obj.new.getEnabledCategories = [] ∧
    Obj.new.getDisabledCategories = [] ∧
    Obj.new.abs.toString =
      .ok "buffer-mode:fixed;buffer-size:0;enabled-categories:;disabled-categories:".toList ∧
    ∀ (pol : Bool) (tid : Nat → Nat) (s : St Nat) (t : Nat) (st : List Frame),
      s.pc t = .held .user st → pol = false ∨ finishing st = 0 →
      s.next pol tid t (.start Obj.new.abs) =
        .to { s with config := Obj.new.abs, hist := .reject :: .configure Obj.new.abs :: s.hist } := by
  refine ⟨rfl, rfl, rfl, rfl, rfl, rfl, rfl, by decide +kernel, ?_⟩
  intro pol tid s t st hp h
  simp only [St.next, hp]
  rw [if_neg (by rintro ⟨h1, h2⟩; rcases h with h | h <;> simp_all), if_pos (show Obj.new.abs.mode = .fixed ∨ _ from Or.inl rfl),
    if_pos (by decide)]

end Phosphor.Cfg
