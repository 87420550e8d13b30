import Verif.Spec.Double
import Verif.Proof.Number
import Mathlib.Tactic.Linarith
import Mathlib.Tactic.Positivity
import Mathlib.Tactic.LinearCombination
import Mathlib.Tactic.NormNum
/-
`%f` of a double, against the value of the double.
-/
namespace Phosphor
open Json

theorem pow2_nat (n : Nat) : pow2 (n : Int) = (2 : Rat) ^ n := by
  show pow2 (Int.ofNat n) = _
  simp [pow2]

theorem pow2_neg (n : Nat) : pow2 (-(n : Int)) = 1 / (2 : Rat) ^ n := by
  cases n with
  | zero => simp [pow2]
  | succ n =>
    have : -((n + 1 : Nat) : Int) = Int.negSucc n := rfl
    rw [this]; simp [pow2]

theorem pow2_sub (a b : Nat) : pow2 ((a : Int) - b) = (2 : Rat) ^ a / (2 : Rat) ^ b := by
  by_cases h : b ≤ a
  · obtain ⟨k, rfl⟩ := Nat.exists_eq_add_of_le h
    have : ((b + k : Nat) : Int) - b = (k : Nat) := by push_cast; ring
    rw [this, pow2_nat, pow_add]; field_simp
  · obtain ⟨k, rfl⟩ := Nat.exists_eq_add_of_le (Nat.le_of_lt (Nat.lt_of_not_le h))
    have : (a : Int) - ((a + k : Nat) : Int) = -(k : Nat) := by push_cast; ring
    rw [this, pow2_neg, pow_add]; field_simp

/-- Significand with the implicit bit. -/
def dblSig (d : BitVec 64) : Nat := if dblExp d = 0 then dblFrac d else 2 ^ 52 + dblFrac d

/-- Exponent, 1 for subnormals. -/
def dblE (d : BitVec 64) : Nat := if dblExp d = 0 then 1 else dblExp d

theorem extract_exp (d : BitVec 64) : (d.extractLsb' 52 11).toNat = dblExp d := by
  rw [BitVec.extractLsb'_toNat, Nat.shiftRight_eq_div_pow, dblExp]

theorem extract_frac (d : BitVec 64) : (d.extractLsb' 0 52).toNat = dblFrac d := by
  rw [BitVec.extractLsb'_toNat, Nat.shiftRight_eq_div_pow, dblFrac]; simp

/-- Value of a finite double in terms of the model's fields. -/
theorem f64Value_eq (d : BitVec 64) :
    f64Value d = if dblExp d = 2047 then none
      else some ((if dblSign d then -1 else 1) *
        ((dblSig d : Rat) * ((2 : Rat) ^ dblE d / (2 : Rat) ^ 1075))) := by
  unfold f64Value ieeeValue
  rw [extract_exp, extract_frac]
  by_cases h : dblExp d = 2047
  · rw [if_pos h, if_pos h]
  · rw [if_neg h, if_neg h]
    congr 1
    show (if dblSign d = true then (-1 : Rat) else 1) * _ = _
    congr 1
    have key : (2 : Rat) ^ 1075 = 2 ^ 1023 * 4503599627370496 := by
      rw [show (1075 : Nat) = 1023 + 52 from rfl, pow_add]; norm_num
    by_cases h0 : dblExp d = 0
    · rw [if_pos h0, dblSig, if_pos h0, dblE, if_pos h0]
      have := pow2_sub 1 1023
      rw [show ((1 : Int) - (1023 : Nat)) = ((1 : Nat) : Int) - (1023 : Nat) from rfl, this, key]
      push_cast
      generalize (2 : Rat) ^ 1023 = A
      rw [div_mul_div_comm, mul_div_assoc, mul_comm _ A]
    · rw [if_neg h0, dblSig, if_neg h0, dblE, if_neg h0]
      rw [pow2_sub, key]
      push_cast
      have hA : (2 : Rat) ^ 1023 ≠ 0 := by positivity
      generalize (2 : Rat) ^ 1023 = A at *
      generalize (2 : Rat) ^ dblExp d = C
      field_simp

theorem roundHalfEven_spec {a b : Nat} (hb : 0 < b) :
    2 * a ≤ 2 * (roundHalfEven a b * b) + b ∧ 2 * (roundHalfEven a b * b) ≤ 2 * a + b ∧
    ((2 * a = 2 * (roundHalfEven a b * b) + b ∨ 2 * (roundHalfEven a b * b) = 2 * a + b) →
      roundHalfEven a b % 2 = 0) := by
  unfold roundHalfEven
  have h1 := Nat.div_add_mod' a b
  have h2 := Nat.mod_lt a hb
  generalize a / b = q at *
  generalize a % b = r at *
  have hq : (q + 1) * b = q * b + b := by ring
  generalize hX : q * b = X at *
  simp only
  split
  · rw [hX]; omega
  · split
    · rw [hq]; omega
    · split
      · rw [hX]; omega
      · rw [hq]; omega

theorem dblMicros_eq (d : BitVec 64) :
    dblMicros d = if 1075 ≤ dblE d then dblSig d * 2 ^ (dblE d - 1075) * 1000000
      else roundHalfEven (dblSig d * 1000000) (2 ^ (1075 - dblE d)) := rfl

/-- The rounded magnitude is the nearest multiple of a millionth, ties to even. -/
theorem dblMicros_spec (d : BitVec 64) (x : Rat)
    (hx : x = (dblSig d : Rat) * ((2 : Rat) ^ dblE d / (2 : Rat) ^ 1075)) :
    2 * 1000000 * x ≤ 2 * dblMicros d + 1 ∧ 2 * (dblMicros d : Rat) ≤ 2 * 1000000 * x + 1 ∧
    ((2 * 1000000 * x = 2 * dblMicros d + 1 ∨ 2 * (dblMicros d : Rat) = 2 * 1000000 * x + 1) →
      dblMicros d % 2 = 0) := by
  rw [dblMicros_eq]
  split
  · rename_i h
    obtain ⟨k, hk⟩ := Nat.exists_eq_add_of_le h
    rw [hk, Nat.add_sub_cancel_left]
    have : x = (dblSig d : Rat) * 2 ^ k := by
      rw [hx, hk, pow_add]
      have hA : (2 : Rat) ^ 1075 ≠ 0 := by positivity
      generalize (2 : Rat) ^ 1075 = A at *
      field_simp
    rw [this]
    push_cast
    generalize (dblSig d : Rat) * 2 ^ k = y
    refine ⟨by linarith, by linarith, ?_⟩
    rintro (h | h) <;> linarith
  · rename_i h
    obtain ⟨k, hk⟩ := Nat.exists_eq_add_of_le (Nat.le_of_lt (Nat.lt_of_not_le h))
    rw [show 1075 - dblE d = k by omega]
    have hpos : 0 < 2 ^ k := Nat.two_pow_pos k
    obtain ⟨h1, h2, h3⟩ := roundHalfEven_spec (a := dblSig d * 1000000) hpos
    generalize hn : roundHalfEven (dblSig d * 1000000) (2 ^ k) = n at *
    have hB : (0 : Rat) < 2 ^ k := by positivity
    have hxe : x * 2 ^ k = dblSig d := by
      rw [hx]
      have : (2 : Rat) ^ 1075 = 2 ^ dblE d * 2 ^ k := by rw [← pow_add, ← hk]
      rw [this]
      have hA : (2 : Rat) ^ dblE d ≠ 0 := by positivity
      generalize (2 : Rat) ^ dblE d = A at *
      field_simp
    have c1 : 2 * ((dblSig d : Rat) * 1000000) ≤ 2 * (n * 2 ^ k) + 2 ^ k := by exact_mod_cast h1
    have c2 : 2 * ((n : Rat) * 2 ^ k) ≤ 2 * ((dblSig d : Rat) * 1000000) + 2 ^ k := by
      exact_mod_cast h2
    rw [← hxe] at c1 c2
    refine ⟨?_, ?_, ?_⟩
    · refine le_of_mul_le_mul_right ?_ hB
      linarith
    · refine le_of_mul_le_mul_right ?_ hB
      linarith
    · intro hh
      apply h3
      rcases hh with hh | hh
      · left
        have : 2 * ((dblSig d : Rat) * 1000000) = 2 * (n * 2 ^ k) + 2 ^ k := by
          rw [← hxe]; linear_combination (2 : Rat) ^ k * hh
        exact_mod_cast this
      · right
        have : 2 * ((n : Rat) * 2 ^ k) = 2 * ((dblSig d : Rat) * 1000000) + 2 ^ k := by
          rw [← hxe]; linear_combination (2 : Rat) ^ k * hh
        exact_mod_cast this

theorem fmtDouble_number {d : BitVec 64} (h : dblExp d ≠ 2047) :
    Number ((if dblSign d then -1 else 1) * ((dblMicros d : Rat) / 1000000)) (fmtDouble d) := by
  unfold fmtDouble
  simp only [if_neg h]
  have hu := unumber_fixed (w := 6) (a := dblMicros d / 1000000) (f := dblMicros d % 1000000)
    (by omega) (by omega)
  have e : ((dblMicros d / 1000000 : Nat) : Rat) + ((dblMicros d % 1000000 : Nat) : Rat)
      / ((10 ^ 6 : Nat) : Rat) = (dblMicros d : Rat) / 1000000 := by
    have e : (dblMicros d : Rat) = 1000000 * ((dblMicros d / 1000000 : Nat) : Rat)
        + ((dblMicros d % 1000000 : Nat) : Rat) := by
      exact_mod_cast (Nat.div_add_mod (dblMicros d) 1000000).symm
    rw [e]
    generalize ((dblMicros d / 1000000 : Nat) : Rat) = a
    generalize ((dblMicros d % 1000000 : Nat) : Rat) = b
    push_cast
    field_simp
  rw [e] at hu
  cases dblSign d with
  | true => simpa using Number.neg hu
  | false => simpa using Number.pos hu

theorem fmtDouble_nonfinite {d : BitVec 64} (h : dblExp d = 2047) : ¬ Legal (fmtDouble d) := by
  apply not_legal
  unfold fmtDouble
  simp only [if_pos h]
  cases dblSign d <;> by_cases hf : dblFrac d = 0 <;> simp only [hf, if_true, if_false] <;> decide

/-! ### `float` arguments -/

def fltSign (f : BitVec 32) : Bool := f.msb
def fltExp (f : BitVec 32) : Nat := f.toNat / 2 ^ 23 % 2 ^ 8
def fltFrac (f : BitVec 32) : Nat := f.toNat % 2 ^ 23

theorem f32Value_eq (f : BitVec 32) :
    f32Value f = if fltExp f = 255 then none
      else some ((if fltSign f then -1 else 1) *
        (((if fltExp f = 0 then fltFrac f else 2 ^ 23 + fltFrac f : Nat) : Rat) *
          ((2 : Rat) ^ (if fltExp f = 0 then 1 else fltExp f) / (2 : Rat) ^ 150))) := by
  unfold f32Value ieeeValue
  have e1 : (f.extractLsb' 23 8).toNat = fltExp f := by
    rw [BitVec.extractLsb'_toNat, Nat.shiftRight_eq_div_pow, fltExp]
  have e2 : (f.extractLsb' 0 23).toNat = fltFrac f := by
    rw [BitVec.extractLsb'_toNat, Nat.shiftRight_eq_div_pow, fltFrac]; simp
  rw [e1, e2]
  by_cases h : fltExp f = 255
  · rw [if_pos h, if_pos h]
  · rw [if_neg h, if_neg h]
    congr 1
    show (if fltSign f = true then (-1 : Rat) else 1) * _ = _
    congr 1
    have key : (2 : Rat) ^ 150 = 2 ^ 127 * 8388608 := by
      rw [show (150 : Nat) = 127 + 23 from rfl, pow_add]; norm_num
    by_cases h0 : fltExp f = 0
    · simp only [if_pos h0]
      rw [show ((1 : Int) - (127 : Nat)) = ((1 : Nat) : Int) - (127 : Nat) from rfl, pow2_sub, key]
      push_cast
      generalize (2 : Rat) ^ 127 = A
      rw [div_mul_div_comm, mul_div_assoc, mul_comm _ A]
    · simp only [if_neg h0]
      rw [pow2_sub, key]
      push_cast
      have hA : (2 : Rat) ^ 127 ≠ 0 := by positivity
      generalize (2 : Rat) ^ 127 = A at *
      generalize (2 : Rat) ^ fltExp f = C
      field_simp

/-- Fields of a double assembled from sign, exponent and fraction. -/
theorem dbl_fields (s : Bool) (e m : Nat) (he : e < 2 ^ 11) (hm : m < 2 ^ 52) :
    let d := BitVec.ofNat 64 ((if s then 2 ^ 63 else 0) + e * 2 ^ 52 + m)
    dblSign d = s ∧ dblExp d = e ∧ dblFrac d = m := by
  intro d
  have hlt : (if s then 2 ^ 63 else 0) + e * 2 ^ 52 + m < 2 ^ 64 := by
    cases s <;> simp <;> omega
  have hd : d.toNat = (if s then 2 ^ 63 else 0) + e * 2 ^ 52 + m := by
    simp only [d, BitVec.toNat_ofNat]; exact Nat.mod_eq_of_lt hlt
  refine ⟨?_, ?_, ?_⟩
  · rw [dblSign, BitVec.msb_eq_decide, hd]
    cases s <;> simp <;> omega
  · rw [dblExp, hd]; cases s <;> simp <;> omega
  · rw [dblFrac, hd]; cases s <;> simp <;> omega

theorem f64Value_mk (s : Bool) (e m : Nat) (he : e < 2047) (hm : m < 2 ^ 52) :
    f64Value (BitVec.ofNat 64 ((if s then 2 ^ 63 else 0) + e * 2 ^ 52 + m)) =
      some ((if s then -1 else 1) *
        (((if e = 0 then m else 2 ^ 52 + m : Nat) : Rat) *
          ((2 : Rat) ^ (if e = 0 then 1 else e) / (2 : Rat) ^ 1075))) := by
  obtain ⟨h1, h2, h3⟩ := dbl_fields s e m (by omega) hm
  rw [f64Value_eq, h2, if_neg (by omega), h1, dblSig, dblE, h2, h3]

/-- Converting a `float` to `double` preserves the value. -/
theorem f64Value_fltToDbl (f : BitVec 32) : f64Value (fltToDbl f) = f32Value f := by
  have hm : fltFrac f < 2 ^ 23 := Nat.mod_lt _ (by decide)
  have he : fltExp f < 2 ^ 8 := Nat.mod_lt _ (by decide)
  have hdef : fltToDbl f =
      if fltExp f = 255 then
        BitVec.ofNat 64 ((if fltSign f then 2 ^ 63 else 0) + 2047 * 2 ^ 52 + fltFrac f * 2 ^ 29)
      else if fltExp f = 0 then
        if fltFrac f = 0 then BitVec.ofNat 64 (if fltSign f then 2 ^ 63 else 0)
        else BitVec.ofNat 64 ((if fltSign f then 2 ^ 63 else 0)
          + ((fltFrac f).log2 + 874) * 2 ^ 52
          + (fltFrac f - 2 ^ (fltFrac f).log2) * 2 ^ (52 - (fltFrac f).log2))
      else BitVec.ofNat 64 ((if fltSign f then 2 ^ 63 else 0)
        + (fltExp f + 896) * 2 ^ 52 + fltFrac f * 2 ^ 29) := rfl
  rw [f32Value_eq, hdef]
  generalize fltExp f = e at *
  generalize fltFrac f = m at *
  generalize fltSign f = s at *
  by_cases h255 : e = 255
  · rw [if_pos h255, if_pos h255]
    obtain ⟨_, h2, _⟩ := dbl_fields s 2047 (m * 2 ^ 29) (by omega) (by omega)
    rw [f64Value_eq, h2, if_pos rfl]
  rw [if_neg h255, if_neg h255]
  by_cases h0 : e = 0
  · simp only [if_pos h0]
    by_cases hm0 : m = 0
    · rw [if_pos hm0]
      have := f64Value_mk s 0 0 (by omega) (by omega)
      simp only [Nat.zero_mul, Nat.add_zero] at this
      rw [this, hm0]; simp
    · rw [if_neg hm0]
      have hL : 2 ^ m.log2 ≤ m := Nat.log2_self_le hm0
      have hL' : m < 2 ^ (m.log2 + 1) := Nat.lt_log2_self
      have hlog : m.log2 < 23 := by
        rw [Nat.log2_lt hm0]; exact hm
      generalize m.log2 = L at *
      have hfrac : (m - 2 ^ L) * 2 ^ (52 - L) < 2 ^ 52 := by
        have : 2 ^ 52 = 2 ^ L * 2 ^ (52 - L) := by rw [← Nat.pow_add]; congr 1; omega
        rw [this]
        apply Nat.mul_lt_mul_of_pos_right _ (Nat.two_pow_pos _)
        rw [Nat.pow_succ] at hL'; omega
      rw [f64Value_mk s (L + 874) _ (by omega) hfrac]
      simp only [if_neg (show ¬ L + 874 = 0 by omega)]
      have hsig : 2 ^ 52 + (m - 2 ^ L) * 2 ^ (52 - L) = m * 2 ^ (52 - L) := by
        have : 2 ^ 52 = 2 ^ L * 2 ^ (52 - L) := by rw [← Nat.pow_add]; congr 1; omega
        rw [this, ← Nat.add_mul]; congr 1; omega
      rw [hsig]
      congr 2
      push_cast
      have : (2 : Rat) ^ 1075 = 2 ^ (52 - L) * 2 ^ (L + 874) * 2 ^ 149 := by
        rw [← pow_add, ← pow_add, show 52 - L + (L + 874) + 149 = 1075 by
          clear * - hlog; omega]
      rw [this, pow_succ (2 : Rat) 149, pow_one]
      have hA : (2 : Rat) ^ (52 - L) ≠ 0 := by positivity
      have hB : (2 : Rat) ^ (L + 874) ≠ 0 := by positivity
      have hC : (2 : Rat) ^ 149 ≠ 0 := by positivity
      generalize (2 : Rat) ^ (52 - L) = A at *
      generalize (2 : Rat) ^ (L + 874) = B at *
      generalize (2 : Rat) ^ 149 = C at *
      field_simp
  · simp only [if_neg h0]
    rw [f64Value_mk s (e + 896) (m * 2 ^ 29) (by omega) (by omega)]
    simp only [if_neg (show ¬ e + 896 = 0 by omega)]
    congr 2
    have : 2 ^ 52 + m * 2 ^ 29 = (2 ^ 23 + m) * 2 ^ 29 := by omega
    rw [this, Nat.cast_mul]
    have : (2 : Rat) ^ 1075 = 2 ^ 896 * 2 ^ 29 * 2 ^ 150 := by
      rw [← pow_add, ← pow_add]
    rw [this, pow_add]
    generalize ((2 ^ 23 + m : Nat) : Rat) = M
    have hA : (2 : Rat) ^ 896 ≠ 0 := by positivity
    generalize (2 : Rat) ^ 896 = A at *
    have hB : (2 : Rat) ^ 150 ≠ 0 := by positivity
    generalize (2 : Rat) ^ 150 = B at *
    rw [show ((2 ^ 29 : Nat) : Rat) = 2 ^ 29 by norm_num]
    have hC : (2 : Rat) ^ 29 ≠ 0 := by positivity
    generalize (2 : Rat) ^ 29 = C at *
    generalize (2 : Rat) ^ e = D
    field_simp

end Phosphor
