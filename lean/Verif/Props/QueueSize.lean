import Verif.Props.Buffer
import Mathlib.Tactic.ByContra
/-
C20 for every 64-bit chunk count.
-/
namespace Phosphor

theorem smear32_lt {x : Nat} (h : x < 2 ^ 64) : smear32 x < 2 ^ 64 := by
  have key : ∀ (n m : Nat), m < 2 ^ 64 → m ||| (m >>> n) < 2 ^ 64 := fun n m hm =>
    Nat.or_lt_two_pow hm (Nat.lt_of_le_of_lt (Nat.shiftRight_le _ _) hm)
  unfold smear32
  exact key _ _ (key _ _ (key _ _ (key _ _ (key _ _ h))))

/-- C20, exact form: for a chunk count `v` of 64 bits the queue has the smallest sufficient power of two
iff `v` is at most 2^63 and the binary representation of `v - 1` has no 32 zeros in a row below its
leading one. Missing for the full claim: the other counts, all above 2^32 (`C20_refuted`). -/
theorem C20_exact_partial (v : BitVec 64) (h1 : 1 ≤ v.toNat) :
    C20_smallest v.toNat (upperPowerOfTwo v).toNat ↔
      v.toNat ≤ 2 ^ 63 ∧
      ∀ j, 2 ^ (j + 32) ≤ v.toNat - 1 → ∃ d, d < 32 ∧ (v.toNat - 1).testBit (j + d) = true := by
  have hlt := v.isLt
  by_cases hx : v.toNat - 1 = 0
  · have hv : v.toNat ≤ 2 ^ 32 := by omega
    refine ⟨fun _ => ⟨by omega, fun j hj => ?_⟩, fun _ => C20_upper_power_of_two_partial v h1 hv⟩
    have := Nat.two_pow_pos (j + 32)
    omega
  rw [upperPowerOfTwo_eq v h1]
  have hs := smear32_spec (v.toNat - 1)
  have hy := smear32_lt (x := v.toNat - 1) (by omega)
  have hto : (BitVec.ofNat 64 (smear32 (v.toNat - 1)) + 1).toNat = (smear32 (v.toNat - 1) + 1) % 2 ^ 64 := by
    rw [BitVec.toNat_add, BitVec.toNat_ofNat, Nat.mod_eq_of_lt hy]
    rfl
  have hge : ∀ i, (v.toNat - 1).testBit i = true → (smear32 (v.toNat - 1)).testBit i = true := fun i hi =>
    (hs i).2 ⟨0, by omega, by simpa using hi⟩
  have hy0 : smear32 (v.toNat - 1) ≠ 0 := by
    intro e
    have := hge _ (Nat.testBit_log2 hx)
    rw [e] at this
    simp at this
  rw [if_neg (fun hc => by
    have := congrArg BitVec.toNat hc
    rw [hto] at this
    have e1 : (1 : BitVec 64).toNat = 1 := rfl
    rw [e1] at this
    omega), hto]
  constructor
  · rintro ⟨⟨k, hk⟩, h2, h3, -⟩
    have hm : smear32 (v.toNat - 1) + 1 < 2 ^ 64 := by
      by_contra hc
      have : smear32 (v.toNat - 1) + 1 = 2 ^ 64 := by omega
      rw [this, Nat.mod_self] at h2
      omega
    rw [Nat.mod_eq_of_lt hm] at hk h3
    have hk63 : k < 64 := (Nat.pow_lt_pow_iff_right (a := 2) (by omega)).1 (by omega)
    have hp : 2 ^ k ≤ 2 ^ 63 := Nat.pow_le_pow_right (by omega) (by omega)
    refine ⟨by omega, fun j hj => ?_⟩
    have hjk : j + 32 < k := (Nat.pow_lt_pow_iff_right (a := 2) (by omega)).1
      (show 2 ^ (j + 32) < 2 ^ k by omega)
    have hb : (smear32 (v.toNat - 1)).testBit j = true := by
      rw [show smear32 (v.toNat - 1) = 2 ^ k - 1 by omega, Nat.testBit_two_pow_sub_one]
      simp; omega
    exact (hs j).1 hb
  · rintro ⟨h63, hz⟩
    have hyv : smear32 (v.toNat - 1) = 2 ^ ((v.toNat - 1).log2 + 1) - 1 := by
      apply Nat.eq_of_testBit_eq
      intro i
      rw [Nat.testBit_two_pow_sub_one, Bool.eq_iff_iff, hs i]
      simp only [decide_eq_true_eq]
      constructor
      · rintro ⟨d, _, hb⟩
        have := (Nat.le_log2 hx).2 (Nat.ge_two_pow_of_testBit hb)
        omega
      · intro hi
        by_cases hd : (v.toNat - 1).log2 - i < 32
        · refine ⟨(v.toNat - 1).log2 - i, hd, ?_⟩
          rw [show i + ((v.toNat - 1).log2 - i) = (v.toNat - 1).log2 by omega]
          exact Nat.testBit_log2 hx
        · exact hz i ((Nat.le_log2 hx).1 (by omega))
    have hl : (v.toNat - 1).log2 < 63 := (Nat.log2_lt hx).2 (by omega)
    have hp : 2 ^ ((v.toNat - 1).log2 + 1) ≤ 2 ^ 63 := Nat.pow_le_pow_right (by omega) (by omega)
    have hpos := Nat.two_pow_pos ((v.toNat - 1).log2 + 1)
    rw [hyv, Nat.sub_add_cancel hpos, Nat.mod_eq_of_lt (by omega)]
    have hlt := Nat.lt_log2_self (n := v.toNat - 1)
    have hle := Nat.log2_self_le hx
    refine ⟨⟨_, rfl⟩, ?_, by omega, fun k hk hv => ?_⟩
    · have := Nat.pow_le_pow_right (n := 2) (by omega) (show 1 ≤ (v.toNat - 1).log2 + 1 by omega)
      simpa using this
    · apply Nat.pow_le_pow_right (by omega)
      have h3 : 2 ^ (v.toNat - 1).log2 < 2 ^ k := by omega
      have := (Nat.pow_lt_pow_iff_right (a := 2) (by omega)).1 h3
      omega

/-- A count above 2^32 for which it works, and one for which it does not. -/
example : (upperPowerOfTwo (BitVec.ofNat 64 (2 ^ 40))).toNat = 2 ^ 40 ∧
    (upperPowerOfTwo (BitVec.ofNat 64 (2 ^ 40 + 1))).toNat = 2 ^ 41 - 2 ^ 9 + 1 := by decide

end Phosphor
