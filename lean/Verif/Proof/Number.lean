import Verif.Model.TraceEvent
import Verif.Proof.Decimal
import Verif.Spec.JsonCheck
import Verif.Spec.Event
import Mathlib.Tactic.Ring
import Mathlib.Tactic.FieldSimp
import Mathlib.Data.Rat.Cast.Order
/-
Number texts produced by the library, against the JSON grammar.
-/
namespace Phosphor
open Json

theorem pow10_zero : pow10 0 = 1 := by simp [pow10]

theorem number_fmtNat (n : Nat) : Number n (fmtNat n) := by
  have h := UNumber.mk (isInt_toDigits n) Frac.none Exp.none
  rw [digitsVal_toDigits, pow10_zero] at h
  simpa [fmtNat] using Number.pos h

theorem ratCast_of_neg {i : Int} (h : i < 0) : (i : Rat) = -((i.natAbs : Nat) : Rat) := by
  obtain ⟨n, rfl⟩ : ∃ n : Nat, i = -(n : Int) := ⟨i.natAbs, by omega⟩
  rw [Int.natAbs_neg, Int.natAbs_natCast]; push_cast; rfl

theorem ratCast_of_nonneg {i : Int} (h : 0 ≤ i) : (i : Rat) = ((i.natAbs : Nat) : Rat) := by
  obtain ⟨n, rfl⟩ : ∃ n : Nat, i = (n : Int) := ⟨i.natAbs, by omega⟩
  rw [Int.natAbs_natCast]; push_cast; rfl

theorem number_fmtInt (i : Int) : Number i (fmtInt i) := by
  unfold fmtInt
  have h := UNumber.mk (isInt_toDigits i.natAbs) Frac.none Exp.none
  rw [digitsVal_toDigits, pow10_zero] at h
  simp only [List.append_nil, add_zero, mul_one] at h
  split
  · rename_i hn
    rw [ratCast_of_neg hn]; exact Number.neg h
  · rename_i hn
    rw [ratCast_of_nonneg (by omega)]; exact Number.pos h

theorem digitsVal_padZero (w n : Nat) : digitsVal (padZero w (fmtNat n)) = n := by
  rw [padZero, digitsVal_replicate_zero, fmtNat, digitsVal_toDigits]

theorem isDigits_padZero (w n : Nat) : IsDigits (padZero w (fmtNat n)) := by
  refine ⟨by simp [padZero, fmtNat], ?_⟩
  intro c hc
  rcases List.mem_append.1 hc with h | h
  · rw [(List.mem_replicate.1 h).2]; decide
  · exact (digit_iff c).2 (isDigit_toDigits h)

theorem length_toDigits_le {w n : Nat} (hw : 0 < w) (h : n < 10 ^ w) :
    (Nat.toDigits 10 n).length ≤ w := by
  induction w generalizing n with
  | zero => omega
  | succ w ih =>
    by_cases hn : n < 10
    · rw [Nat.toDigits_of_lt_base hn]; simp
    · have e := Nat.toDigits_append_toDigits (b := 10) (by omega) (n := n / 10) (d := n % 10)
        (by omega) (by omega)
      rw [Nat.div_add_mod] at e
      rw [← e, List.length_append, Nat.toDigits_of_lt_base (Nat.mod_lt _ (by omega))]
      have : 0 < w := by
        rcases Nat.eq_zero_or_pos w with rfl | h'
        · simp at h; omega
        · exact h'
      have := ih this (n := n / 10) (by rw [Nat.pow_succ] at h; omega)
      simp; omega

theorem length_padZero {w n : Nat} (hw : 0 < w) (h : n < 10 ^ w) :
    (padZero w (fmtNat n)).length = w := by
  have := length_toDigits_le hw h
  simp only [padZero, fmtNat, List.length_append, List.length_replicate]; omega

theorem unumber_fixed {w a f : Nat} (hw : 0 < w) (h : f < 10 ^ w) :
    UNumber ((a : Rat) + f / (10 ^ w : Nat)) (fmtNat a ++ '.' :: padZero w (fmtNat f)) := by
  have h := UNumber.mk (isInt_toDigits a) (Frac.some (isDigits_padZero w f)) Exp.none
  rw [digitsVal_toDigits, pow10_zero, digitsVal_padZero, length_padZero hw ‹_›] at h
  simpa [fmtNat] using h

theorem fmtMicros_nonneg {x : BitVec 64} (h : 0 ≤ x.toInt) :
    Number ((x.toInt : Rat) / 1000) (fmtMicros x) := by
  unfold fmtMicros
  obtain ⟨n, hn⟩ : ∃ n : Nat, x.toInt = n := ⟨x.toInt.toNat, by omega⟩
  rw [hn]
  have h1 : (n : Int).tdiv 1000 = ((n / 1000 : Nat) : Int) := by
    rw [Int.tdiv_eq_ediv_of_nonneg (by omega)]; omega
  have h2 : (n : Int).tmod 1000 = ((n % 1000 : Nat) : Int) := by
    rw [Int.tmod_eq_emod_of_nonneg (by omega)]; omega
  rw [h1, h2]
  have h3 : ∀ m : Nat, fmtInt (m : Int) = fmtNat m := by
    intro m; rw [fmtInt, if_neg (by omega)]; rfl
  have h4 : ∀ m : Nat, fmtIntPad 3 (m : Int) = padZero 3 (fmtNat m) := by
    intro m; rw [fmtIntPad, if_neg (by omega)]; rfl
  rw [h3, h4]
  have := unumber_fixed (w := 3) (a := n / 1000) (f := n % 1000) (by omega) (by omega)
  have hq : ((n / 1000 : Nat) : Rat) + ((n % 1000 : Nat) : Rat) / ((10 ^ 3 : Nat) : Rat)
      = ((n : Int) : Rat) / 1000 := by
    have e : (n : Rat) = 1000 * ((n / 1000 : Nat) : Rat) + ((n % 1000 : Nat) : Rat) := by
      exact_mod_cast (Nat.div_add_mod n 1000).symm
    push_cast
    rw [e]
    generalize ((n / 1000 : Nat) : Rat) = a
    generalize ((n % 1000 : Nat) : Rat) = b
    field_simp
  rw [hq] at this
  exact Number.pos this

theorem fmtMicros_multiple {x : BitVec 64} (h : x.toInt < 0) (hd : (1000 : Int) ∣ x.toInt) :
    Number ((x.toInt : Rat) / 1000) (fmtMicros x) := by
  unfold fmtMicros
  obtain ⟨k, hk⟩ := hd
  rw [hk]
  have h1 : (1000 * k).tdiv 1000 = k := by
    rw [Int.mul_tdiv_cancel_left _ (by omega)]
  have h2 : (1000 * k).tmod 1000 = 0 := by
    rw [Int.mul_tmod_right]
  rw [h1, h2]
  have hk0 : k < 0 := by omega
  rw [fmtInt, if_pos hk0]
  have := unumber_fixed (w := 3) (a := k.natAbs) (f := 0) (by omega) (by omega)
  have e : (((1000 * k : Int)) : Rat) / 1000 = -((k.natAbs : Rat) + ((0 : Nat) : Rat) / ((10 ^ 3 : Nat) : Rat)) := by
    rw [Int.cast_mul, ratCast_of_neg hk0]
    generalize (k.natAbs : Rat) = y
    push_cast
    field_simp; ring
  rw [e]
  exact Number.neg this

/-- A value followed by `.-` is rejected. -/
theorem run_dot_minus {q : Mode} (hq : q.done = true) (r : Str) :
    run (some (q, [])) ('.' :: '-' :: r) = none := by
  have hd : digitB '.' = false := by decide
  have hd' : digitB '-' = false := by decide
  cases q <;> first
    | (cases hq; done)
    | simp [run, step, stepAfter, isWsB, hd, hd', run_none]

theorem fmtMicros_negative {x : BitVec 64} (h : x.toInt < 0) (hd : ¬ (1000 : Int) ∣ x.toInt) :
    ¬ Legal (fmtMicros x) := by
  apply not_legal
  unfold fmtMicros accepts
  have hneg : x.toInt.tmod 1000 < 0 := by
    have h0 : x.toInt.tmod 1000 ≠ 0 := fun h0 => hd (Int.dvd_of_tmod_eq_zero h0)
    have h2 := Int.tmod_lt_of_pos (-x.toInt) (b := 1000) (by omega)
    have h3 : 0 ≤ (-x.toInt).tmod 1000 := Int.tmod_nonneg _ (by omega)
    rw [Int.neg_tmod] at h3
    omega
  rw [fmtIntPad, if_pos hneg, run_append]
  obtain ⟨q, hq, hdone⟩ := run_number (number_fmtInt (x.toInt.tdiv 1000)) []
  rw [hq, run_dot_minus hdone]

/-! ### Hexadecimal -/

theorem hexVal_digitChar {d : Nat} (h : d < 16) : hexVal (Nat.digitChar d) = some d := by
  have : ∀ d : Fin 16, hexVal (Nat.digitChar d) = some d.val := by decide
  exact this ⟨d, h⟩

theorem isHexDigit_digitChar {d : Nat} (h : d < 16) : IsHexDigit (Nat.digitChar d) := by
  have : ∀ d : Fin 16, IsHexDigit (Nat.digitChar d) := by decide
  exact this ⟨d, h⟩

theorem fmtHex_step (n : Nat) (h : ¬ n < 16) :
    fmtHex n = fmtHex (n / 16) ++ [Nat.digitChar (n % 16)] := by
  have := Nat.toDigits_append_toDigits (b := 16) (by omega) (n := n / 16) (d := n % 16)
    (by omega) (by omega)
  rw [Nat.div_add_mod, Nat.toDigits_of_lt_base (n := n % 16) (by omega)] at this
  exact this.symm

theorem fmtHex_spec (n : Nat) :
    hexDigitsVal (fmtHex n) = n ∧ fmtHex n ≠ [] ∧ ∀ c ∈ fmtHex n, IsHexDigit c := by
  induction n using Nat.strongRecOn with
  | ind n ih =>
    by_cases h : n < 16
    · rw [fmtHex, Nat.toDigits_of_lt_base h]
      refine ⟨by simp [hexDigitsVal, hexVal_digitChar h], by simp, ?_⟩
      intro c hc
      rw [List.mem_singleton.1 hc]; exact isHexDigit_digitChar h
    · obtain ⟨h1, h2, h3⟩ := ih (n / 16) (by omega)
      rw [fmtHex_step n h]
      refine ⟨?_, by simp, ?_⟩
      · rw [hexDigitsVal, List.foldl_append] 
        rw [hexDigitsVal] at h1
        rw [h1]
        simp [hexVal_digitChar (show n % 16 < 16 by omega)]; omega
      · intro c hc
        rcases List.mem_append.1 hc with h' | h'
        · exact h3 c h'
        · rw [List.mem_singleton.1 h']; exact isHexDigit_digitChar (by omega)

theorem fmtHex_injective {m n : Nat} (h : fmtHex m = fmtHex n) : m = n := by
  rw [← (fmtHex_spec m).1, h, (fmtHex_spec n).1]

/-- Plain characters denote themselves. -/
theorem chars_plain {s : Str} (h : ∀ c ∈ s, PlainChar c) : Chars s s := by
  induction s with
  | nil => exact .nil
  | cons c s ih =>
    have hc := h c (List.mem_cons_self ..)
    exact .plain hc.1 hc.2.1 hc.2.2 (ih (fun x hx => h x (List.mem_cons_of_mem _ hx)))

theorem utf8_length (n : Nat) : (utf8 n).length ≤ 3 := by
  unfold utf8; split <;> [simp; (split <;> simp)]

theorem chars_length {v t : Str} (h : Chars v t) : v.length ≤ t.length := by
  induction h with
  | nil => simp
  | plain _ _ _ _ ih => simpa using ih
  | short _ _ ih => simp only [List.length_cons]; omega
  | unicode _ _ _ _ _ ih =>
    simp only [List.length_cons, List.length_append]
    have := utf8_length
    rename_i a b c d i j k l v t _ _ _ _ _ 
    have := this (4096 * i + 256 * j + 16 * k + l)
    omega

/-- A text denotes itself iff it needs no escape. -/
theorem chars_self_iff {s : Str} : Chars s s ↔ ∀ c ∈ s, PlainChar c := by
  refine ⟨?_, chars_plain⟩
  have key : ∀ v t, Chars v t → v.length = t.length → v = t → ∀ c ∈ t, PlainChar c := by
    intro v t h
    induction h with
    | nil => simp
    | plain h1 h2 h3 _ ih =>
      intro hl he c hc
      simp only [List.cons.injEq, true_and] at he
      rcases List.mem_cons.1 hc with rfl | hc
      · exact ⟨h1, h2, h3⟩
      · exact ih (by simpa using hl) he c hc
    | short _ hc ih =>
      intro hl
      have := chars_length hc
      simp only [List.length_cons] at hl; omega
    | @unicode a b c d i j k l v t _ _ _ _ hc ih =>
      intro hl
      have := chars_length hc
      have := utf8_length (4096 * i + 256 * j + 16 * k + l)
      simp only [List.length_cons, List.length_append] at hl; omega
  exact fun h => key s s h rfl rfl

theorem isHexDigit_plain {c : Char} (h : IsHexDigit c) : PlainChar c := by
  refine ⟨?_, ?_, ?_⟩
  · rcases h with h | h
    · have := h.1; rw [Char.le_def, UInt32.le_iff_toNat_le] at this
      have h2 : ('0' : Char).val.toNat = 48 := by decide
      show 32 ≤ c.val.toNat; omega
    · have := h.1; rw [Char.le_def, UInt32.le_iff_toNat_le] at this
      have h2 : ('a' : Char).val.toNat = 97 := by decide
      show 32 ≤ c.val.toNat; omega
  · rintro rfl; revert h; decide
  · rintro rfl; revert h; decide

theorem hexText_fmtHex (n : Nat) : HexText n ('0' :: 'x' :: fmtHex n) := by
  obtain ⟨h1, h2, h3⟩ := fmtHex_spec n
  exact ⟨_, rfl, h2, h3, h1⟩

theorem hexText_plain {n : Nat} {s : Str} (h : HexText n s) : ∀ c ∈ s, PlainChar c := by
  obtain ⟨ds, rfl, _, h3, _⟩ := h
  intro c hc
  rcases List.mem_cons.1 hc with rfl | hc
  · decide
  rcases List.mem_cons.1 hc with rfl | hc
  · decide
  exact isHexDigit_plain (h3 c hc)

end Phosphor
