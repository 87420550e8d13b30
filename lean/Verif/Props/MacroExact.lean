import Verif.Props.Macros
/-
Properties C50, C66 and C68, further: the names of the events of a lock guard, the operators of
the time expressions, and the parameters of the function macros when compiled out.
-/
namespace Phosphor

/-- C50: the two events of a lock guard are complete events of the category of the guard, named
after it with `.wait` and `.held` behind; both have one argument, a pointer, which the wait event
names `this` and the held event does not name. -/
theorem C50_names (category name : Str) :
    (lockWaitTpi category name).category = category ∧ (lockHeldTpi category name).category = category ∧
    (lockWaitTpi category name).name = name ++ ['.', 'w', 'a', 'i', 't'] ∧
    (lockHeldTpi category name).name = name ++ ['.', 'h', 'e', 'l', 'd'] ∧
    (∀ tpi ∈ [lockWaitTpi category name, lockHeldTpi category name],
      tpi.type = .complete ∧ tpi.argTypes = (.isPointer, .isNone)) ∧
    (lockWaitTpi category name).argNames = (some ['t', 'h', 'i', 's'], some []) ∧
    (lockHeldTpi category name).argNames = (some [], some []) := by
  refine ⟨rfl, rfl, rfl, rfl, ?_, rfl, rfl⟩
  simp [lockWaitTpi, lockHeldTpi]

namespace Macro

/-- C66: the operators a time expression may use. `+` needs a duration on one side, `-` needs a
duration on the right or a point on both sides; the result is a point iff exactly one operand is;
and it is defined iff the result fits 64 bits, and exact then. -/
theorem C66_operators (plus : Bool) (x y z : TVal) :
    chronoOp plus x y = .ok z ↔
      (match plus, x, y, z with
        | true, .point a, .dur b, .point c => c = a + b ∧ -9223372036854775808 ≤ c ∧ c ≤ 9223372036854775807
        | true, .dur a, .point b, .point c => c = a + b ∧ -9223372036854775808 ≤ c ∧ c ≤ 9223372036854775807
        | true, .dur a, .dur b, .dur c => c = a + b ∧ -9223372036854775808 ≤ c ∧ c ≤ 9223372036854775807
        | false, .point a, .point b, .dur c => c = a - b ∧ -9223372036854775808 ≤ c ∧ c ≤ 9223372036854775807
        | false, .point a, .dur b, .point c => c = a - b ∧ -9223372036854775808 ≤ c ∧ c ≤ 9223372036854775807
        | false, .dur a, .dur b, .dur c => c = a - b ∧ -9223372036854775808 ≤ c ∧ c ≤ 9223372036854775807
        | _, _, _, _ => False) := by
  have h : ∀ (v : Int) (k : Int → TVal) (z : TVal), (if inRange v then Res.ok (k v) else .ub) = .ok z ↔
      (z = k v ∧ -9223372036854775808 ≤ v ∧ v ≤ 9223372036854775807) := by
    intro v k z
    by_cases hv : inRange v = true
    · rw [if_pos hv]
      simp only [inRange, decide_eq_true_eq] at hv
      constructor
      · intro e; cases e; exact ⟨rfl, by omega, by omega⟩
      · rintro ⟨rfl, -⟩; rfl
    · rw [if_neg hv]
      simp only [inRange, decide_eq_true_eq] at hv
      constructor
      · intro e; cases e
      · rintro ⟨-, h1, h2⟩; exact absurd ⟨by omega, by omega⟩ hv
  cases plus <;> cases x <;> cases y <;> simp only [chronoOp, h] <;> cases z <;>
    simp <;> omega

/-- Half a second before a time point. -/
example : chronoOp false (.point 2000000000) (.dur 500000000) = .ok (.point 1500000000) := by decide

/-- C68 fails: when compiled out, the function macros with arguments take exactly one parameter more
than when compiled in. -/
theorem C68_refuted_functions (n : Nat) :
    (("TRACE_FUNCTION1", n) ∈ enabledMacros ↔ n = 3) ∧ (("TRACE_FUNCTION1", n) ∈ disabledMacros ↔ n = 4) ∧
    (("TRACE_FUNCTION2", n) ∈ enabledMacros ↔ n = 5) ∧ (("TRACE_FUNCTION2", n) ∈ disabledMacros ↔ n = 6) := by
  simp [enabledMacros, disabledMacros]

end Macro
end Phosphor
