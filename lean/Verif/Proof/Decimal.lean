import Verif.Model.StringUtils
import Verif.Spec.Json
/-
Facts about decimal printing used by several parts.
-/
namespace Phosphor
open Json

theorem digit_iff (c : Char) : Digit c ↔ c.isDigit = true := by
  simp [Digit, Char.isDigit, Char.le_def]

theorem digitsVal_eq (s : Str) : digitsVal s = Nat.ofDigitChars 10 s 0 := by
  rw [Nat.ofDigitChars_eq_foldl]; rfl

theorem isDigit_toDigits {n : Nat} {c : Char} (h : c ∈ Nat.toDigits 10 n) : c.isDigit = true :=
  Nat.isDigit_of_mem_toDigits (by omega) (by omega) h

theorem digitsVal_toDigits (n : Nat) : digitsVal (Nat.toDigits 10 n) = n := by
  rw [digitsVal_eq, Nat.ofDigitChars_ten_toDigits]

theorem toDigits_ne_nil (n : Nat) : Nat.toDigits 10 n ≠ [] := Nat.toDigits_ne_nil

theorem head_toDigits (n : Nat) (h : 0 < n) : (Nat.toDigits 10 n).head? ≠ some '0' := by
  induction n using Nat.strongRecOn with
  | ind n ih =>
    by_cases hn : n < 10
    · rw [Nat.toDigits_of_lt_base hn]
      match n, h, hn with
      | 1, _, _ | 2, _, _ | 3, _, _ | 4, _, _ | 5, _, _ | 6, _, _ | 7, _, _ | 8, _, _ | 9, _, _ =>
        decide
    · rw [Nat.toDigits_of_base_le (by omega) (by omega)]
      have := ih (n / 10) (by omega) (by omega)
      cases hd : Nat.toDigits 10 (n / 10) with
      | nil => exact absurd hd (toDigits_ne_nil _)
      | cons c cs => rw [hd] at this; simpa using this

theorem isInt_toDigits (n : Nat) : IsInt (Nat.toDigits 10 n) := by
  by_cases h : n = 0
  · subst h; left; rfl
  · right
    exact ⟨toDigits_ne_nil n, fun c hc => (digit_iff c).2 (isDigit_toDigits hc),
      head_toDigits n (by omega)⟩

theorem digitsVal_append_single (s : Str) (c : Char) :
    digitsVal (s ++ [c]) = 10 * digitsVal s + (c.toNat - '0'.toNat) := by
  simp [digitsVal]

theorem digitsVal_replicate_zero (k : Nat) (s : Str) :
    digitsVal (List.replicate k '0' ++ s) = digitsVal s := by
  induction k with
  | zero => simp
  | succ k ih => simpa [digitsVal, List.replicate_succ] using ih

/-- Digits contain none of the characters used as separators. -/
theorem not_mem_toDigits {n : Nat} {c : Char} (h : c.isDigit = false) : c ∉ Nat.toDigits 10 n := by
  intro hc
  have := isDigit_toDigits hc
  rw [h] at this; cases this

end Phosphor
