import Verif.Props.EventIff
/-
C25, continued: the text of a time says which time it is, also where it is no number; and what the
texts that are no numbers look like.
-/
namespace Phosphor
open Json

/-- The value of a digit string with an optional sign. -/
def signedVal : Str → Int
  | '-' :: s => -(digitsVal s : Int)
  | s => digitsVal s

theorem signedVal_digits {s : Str} (h : IsDigits s) : signedVal s = digitsVal s := by
  cases s with
  | nil => rfl
  | cons c s =>
    have hc : Digit c := h.2 c (List.mem_cons_self ..)
    have : c ≠ '-' := by rintro rfl; exact absurd hc (by decide)
    unfold signedVal
    split
    · next e => cases e; exact absurd rfl this
    · rfl

theorem signedVal_fmtInt (i : Int) : signedVal (fmtInt i) = i := by
  unfold fmtInt
  split
  · show -(digitsVal _ : Int) = i
    rw [digitsVal_toDigits]; omega
  · rw [signedVal_digits ⟨toDigits_ne_nil _, fun c hc => (digit_iff c).2 (isDigit_toDigits hc)⟩,
      digitsVal_toDigits]; omega

theorem signedVal_fmtIntPad (w : Nat) (i : Int) : signedVal (fmtIntPad w i) = i := by
  unfold fmtIntPad
  split
  · show -(digitsVal _ : Int) = i
    have := digitsVal_padZero (w - 1) i.natAbs
    rw [fmtNat] at this; rw [this]; omega
  · have h1 := isDigits_padZero w i.natAbs
    have h2 := digitsVal_padZero w i.natAbs
    rw [fmtNat] at h1 h2
    rw [signedVal_digits h1, h2]; omega

theorem fmtInt_no_dot (i : Int) : '.' ∉ fmtInt i := by
  unfold fmtInt
  have h : '.' ∉ Nat.toDigits 10 i.natAbs := fun hc =>
    absurd ((digit_iff _).2 (isDigit_toDigits hc)) (by decide)
  split
  · intro hc
    rcases List.mem_cons.1 hc with e | hc
    · exact absurd e (by decide)
    · exact h hc
  · exact h

theorem split_at {c : Char} {a b a' b' : Str} (h : c ∉ a) (h' : c ∉ a') (e : a ++ c :: b = a' ++ c :: b') :
    a = a' ∧ b = b' := by
  induction a generalizing a' with
  | nil =>
    cases a' with
    | nil => exact ⟨rfl, by simpa using e⟩
    | cons d a' => injection e with e1 e2; subst e1; exact absurd (List.mem_cons_self ..) h'
  | cons d a ih =>
    cases a' with
    | nil => injection e with e1 e2; subst e1; exact absurd (List.mem_cons_self ..) h
    | cons d' a' =>
      injection e with e1 e2
      subst e1
      obtain ⟨e3, e4⟩ := ih (fun x => h (List.mem_cons_of_mem _ x)) (fun x => h' (List.mem_cons_of_mem _ x)) e2
      exact ⟨by rw [e3], e4⟩

/-- C25: two times with the same text are the same time, to the nanosecond, whether the text is a
JSON number or not: nothing of a time stamp or duration is lost in the export. -/
theorem C25_injective {x y : BitVec 64} (h : fmtMicros x = fmtMicros y) : x = y := by
  obtain ⟨h1, h2⟩ := split_at (fmtInt_no_dot _) (fmtInt_no_dot _) h
  have e1 := congrArg signedVal h1
  have e2 := congrArg signedVal h2
  rw [signedVal_fmtInt, signedVal_fmtInt] at e1
  rw [signedVal_fmtIntPad, signedVal_fmtIntPad] at e2
  apply BitVec.eq_of_toInt_eq
  rw [← Int.mul_tdiv_add_tmod x.toInt 1000, ← Int.mul_tdiv_add_tmod y.toInt 1000, e1, e2]

/-- C25: what is exported for a time below zero. The sign is shown twice, or in the middle, and it
takes up a place of the three digits after the point. -/
theorem C25_refuted_texts :
    fmtMicros (BitVec.ofInt 64 (-1500)) = "-1.-500".toList ∧
    fmtMicros (BitVec.ofInt 64 (-5)) = "0.-05".toList ∧
    fmtMicros (BitVec.ofInt 64 (-1005)) = "-1.-05".toList ∧
    fmtMicros (BitVec.ofInt 64 (-50)) = "0.-50".toList ∧
    fmtMicros (BitVec.ofInt 64 (-2000)) = "-2.000".toList := by decide

/-- The texts of two times a nanosecond apart. -/
example : fmtMicros 999#64 ≠ fmtMicros 1000#64 ∧ fmtMicros 999#64 = "0.999".toList ∧
    fmtMicros 1000#64 = "1.000".toList := by decide

end Phosphor
