import Verif.Model.FloatBits

/-
IEEE-754 binary32 rounding for the few float operations modelled at bit level. Specification, not happyml code.
Numbers are non-negative rationals `num/den` in units of 2^-149.
-/
namespace Verif.FloatArith
open FloatBits

/-- The bit pattern of the float nearest to `num/den` units, ties to even (round-to-nearest, the default mode).
`s` is the exponent shift: the significand is `num / (den * 2^s)`, at most `2^24`. Overflow gives infinity. -/
def roundUnits (num den : Nat) : Nat :=
  let s := Nat.log2 (num / den) - 23
  let q := num / (den * 2 ^ s)
  let r := num % (den * 2 ^ s)
  let up := den * 2 ^ s < 2 * r ∨ (2 * r = den * 2 ^ s ∧ q % 2 = 1)
  let m := if up then q + 1 else q
  Nat.min (s * 2 ^ 23 + m) 0x7F800000

/-- `a < b` on floats (false when either is a NaN). The infinities compare as larger than every finite value since
`FloatBits.value` continues with exponent 255. -/
def flt (a b : BitVec 32) : Bool := !isNaN a && !isNaN b && decide (value a < value b)

/-- `1.0f` -/
def one : BitVec 32 := 0x3F800000#32

/-- `std::min(a, b)`: `(b < a) ? b : a` -/
def fmin (a b : BitVec 32) : BitVec 32 := if flt b a then b else a
/-- `std::max(a, b)`: `(a < b) ? b : a` -/
def fmax (a b : BitVec 32) : BitVec 32 := if flt a b then b else a

/-- `x * 255` in float for a non-negative finite `x`. -/
def mul255 (x : BitVec 32) : BitVec 32 := BitVec.ofNat 32 (roundUnits (magUnits (expo x) (frac x) * 255) 1)

/-- Truncation of a non-negative finite float to an integer. -/
def truncNat (x : BitVec 32) : Nat := magUnits (expo x) (frac x) / 2 ^ 149

/-- `(float) k / 255.f` for an integer `0 ≤ k < 2^24` (exactly representable). -/
def div255 (k : Nat) : BitVec 32 := BitVec.ofNat 32 (roundUnits (k * 2 ^ 149) 255)

end Verif.FloatArith
