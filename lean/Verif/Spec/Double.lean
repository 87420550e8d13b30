import Verif.Model.Basic
/-
The values of IEEE 754 binary32 and binary64 numbers, written independently of the model.
-/
namespace Phosphor

/-- Power of two with integer exponent. -/
def pow2 : Int → Rat
  | .ofNat n => (2 ^ n : Nat)
  | .negSucc n => 1 / (2 ^ (n + 1) : Nat)

/-- Value of an IEEE 754 number with sign `neg`, biased exponent `e`, `p`-bit fraction `f`:
`none` for infinities and NaNs (`e = emax`). -/
def ieeeValue (neg : Bool) (e f p bias emax : Nat) : Option Rat :=
  if e = emax then none
  else some ((if neg then -1 else 1) *
    (if e = 0 then ((f : Rat) / (2 ^ p : Nat)) * pow2 (1 - bias)
     else (1 + (f : Rat) / (2 ^ p : Nat)) * pow2 (e - bias)))

/-- Value of a `double` given by its bits. -/
def f64Value (d : BitVec 64) : Option Rat :=
  ieeeValue d.msb (d.extractLsb' 52 11).toNat (d.extractLsb' 0 52).toNat 52 1023 2047

/-- Value of a `float` given by its bits. -/
def f32Value (d : BitVec 32) : Option Rat :=
  ieeeValue d.msb (d.extractLsb' 23 8).toNat (d.extractLsb' 0 23).toNat 23 127 255

end Phosphor
