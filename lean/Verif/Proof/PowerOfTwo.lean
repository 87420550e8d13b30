import Verif.Model.TraceBuffer
/-
Bit smearing: `upper_power_of_two`.
-/
namespace Phosphor

/-- Bit `i` of `y` is the disjunction of `w` consecutive bits of `x` from `i` up. -/
def Smear (x w y : Nat) : Prop := ∀ i, y.testBit i = true ↔ ∃ d, d < w ∧ x.testBit (i + d) = true

theorem smear_step {x w y : Nat} (h : Smear x w y) : Smear x (w + w) (y ||| (y >>> w)) := by
  intro i
  rw [Nat.testBit_or, Nat.testBit_shiftRight, Bool.or_eq_true, h i, h (w + i)]
  constructor
  · rintro (⟨d, hd, hx⟩ | ⟨d, hd, hx⟩)
    · exact ⟨d, by omega, hx⟩
    · exact ⟨w + d, by omega, by rw [← hx]; congr 1; omega⟩
  · rintro ⟨d, hd, hx⟩
    by_cases hw : d < w
    · exact Or.inl ⟨d, hw, hx⟩
    · exact Or.inr ⟨d - w, by omega, by rw [← hx]; congr 1; omega⟩

theorem smear_one (x : Nat) : Smear x 1 x := by
  intro i
  constructor
  · intro h; exact ⟨0, by omega, by simpa using h⟩
  · rintro ⟨d, hd, hx⟩
    have : d = 0 := by omega
    subst this; simpa using hx

/-- Smearing all bits of a non-zero number below 2^w gives all ones up to its top bit. -/
theorem smear_full {x w y : Nat} (h : Smear x w y) (hx : x ≠ 0) (hlt : x < 2 ^ w) :
    y + 1 = 2 ^ (x.log2 + 1) := by
  have hy : y = 2 ^ (x.log2 + 1) - 1 := by
    apply Nat.eq_of_testBit_eq
    intro i
    rw [Nat.testBit_two_pow_sub_one]
    rw [Bool.eq_iff_iff, h i]
    simp only [decide_eq_true_eq]
    constructor
    · rintro ⟨d, _, hb⟩
      have := Nat.ge_two_pow_of_testBit hb
      have h2 := (Nat.le_log2 hx).2 this
      omega
    · intro hi
      have hlog : x.log2 < w := (Nat.log2_lt hx).2 hlt
      refine ⟨x.log2 - i, by omega, ?_⟩
      rw [show i + (x.log2 - i) = x.log2 by omega]
      exact Nat.testBit_log2 hx
  have := Nat.two_pow_pos (x.log2 + 1)
  omega

/-- The smearing part of `upper_power_of_two`, on naturals. -/
def smear32 (x : Nat) : Nat :=
  let v := x
  let v := v ||| (v >>> 1)
  let v := v ||| (v >>> 2)
  let v := v ||| (v >>> 4)
  let v := v ||| (v >>> 8)
  v ||| (v >>> 16)

theorem smear32_spec (x : Nat) : Smear x 32 (smear32 x) :=
  smear_step (smear_step (smear_step (smear_step (smear_step (smear_one x)))))

theorem upperPowerOfTwo_eq (v : BitVec 64) (h1 : 1 ≤ v.toNat) : upperPowerOfTwo v =
      if BitVec.ofNat 64 (smear32 (v.toNat - 1)) + 1 = 1 then 2
      else BitVec.ofNat 64 (smear32 (v.toNat - 1)) + 1 := by
  have hlt := v.isLt
  have hsub : (v - 1).toNat = v.toNat - 1 := by
    rw [BitVec.toNat_sub_of_le (by rw [BitVec.le_def]; simpa using h1)]
    rfl
  unfold upperPowerOfTwo
  have : ∀ (n : Nat) (a : BitVec 64), a ||| (a >>> n) = BitVec.ofNat 64 (a.toNat ||| (a.toNat >>> n)) := by
    intro n a
    apply BitVec.eq_of_toNat_eq
    have hb : a.toNat ||| (a.toNat >>> n) < 2 ^ 64 :=
      Nat.or_lt_two_pow a.isLt (Nat.lt_of_le_of_lt (Nat.shiftRight_le _ _) a.isLt)
    rw [BitVec.toNat_ofNat, Nat.mod_eq_of_lt hb, BitVec.toNat_or, BitVec.toNat_ushiftRight]
  have key : ∀ (n : Nat) (m : Nat), m < 2 ^ 64 →
      BitVec.ofNat 64 m ||| (BitVec.ofNat 64 m >>> n) = BitVec.ofNat 64 (m ||| (m >>> n)) ∧
        m ||| (m >>> n) < 2 ^ 64 := by
    intro n m hm
    rw [this]
    simp only [BitVec.toNat_ofNat, Nat.mod_eq_of_lt hm]
    exact ⟨trivial, Nat.or_lt_two_pow hm (Nat.lt_of_le_of_lt (Nat.shiftRight_le _ _) hm)⟩
  have hv : v - 1 = BitVec.ofNat 64 (v.toNat - 1) := by
    apply BitVec.eq_of_toNat_eq
    rw [hsub]
    simp only [BitVec.toNat_ofNat]
    rw [Nat.mod_eq_of_lt (by omega)]
  rw [hv]
  obtain ⟨e1, b1⟩ := key 1 (v.toNat - 1) (by omega)
  obtain ⟨e2, b2⟩ := key 2 _ b1
  obtain ⟨e3, b3⟩ := key 4 _ b2
  obtain ⟨e4, b4⟩ := key 8 _ b3
  obtain ⟨e5, b5⟩ := key 16 _ b4
  simp only [e1, e2, e3, e4, e5]
  rfl

theorem upperPowerOfTwo_toNat (v : BitVec 64) (h1 : 1 ≤ v.toNat) (h2 : v.toNat ≤ 2 ^ 32) :
    (upperPowerOfTwo v).toNat =
      if v.toNat ≤ 2 then 2 else 2 ^ ((v.toNat - 1).log2 + 1) := by
  have hup := upperPowerOfTwo_eq v h1
  rw [hup]
  by_cases hx : v.toNat - 1 = 0
  · rw [hx]
    have : smear32 0 = 0 := by decide
    rw [this]
    rw [if_pos (by decide), if_pos (by omega)]
    rfl
  · have hs := smear_full (smear32_spec (v.toNat - 1)) hx (by omega)
    have hl : (v.toNat - 1).log2 < 32 := (Nat.log2_lt hx).2 (by omega)
    have hp : 2 ^ ((v.toNat - 1).log2 + 1) ≤ 2 ^ 32 := Nat.pow_le_pow_right (by omega) (by omega)
    have hge : 2 ^ 1 ≤ 2 ^ ((v.toNat - 1).log2 + 1) := Nat.pow_le_pow_right (by omega) (by omega)
    have hto : (BitVec.ofNat 64 (smear32 (v.toNat - 1)) + 1).toNat
        = 2 ^ ((v.toNat - 1).log2 + 1) := by
      rw [BitVec.toNat_add, BitVec.toNat_ofNat]
      rw [Nat.mod_eq_of_lt (a := smear32 _) (by omega)]
      show (_ + 1) % 2 ^ 64 = _
      omega
    rw [if_neg]
    · rw [hto]
      by_cases h3 : v.toNat ≤ 2
      · rw [if_pos h3]
        have : v.toNat - 1 = 1 := by omega
        rw [this]; decide
      · rw [if_neg h3]
    · intro hc
      have := congrArg BitVec.toNat hc
      rw [hto] at this
      simp at this

end Phosphor
