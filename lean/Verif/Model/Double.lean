import Mathlib.Data.Int.Log
import Mathlib.Data.Rat.Floor
import Verif.Model.Float32

/-!
64-bit floats (`double`) with the arithmetic of IEEE 754, rounded to nearest, ties to even. Specification of the machine, not happyml code. Only finite numbers, as
rational numbers: an operation whose result is infinite has no result (`none`). The sign of zero is left out.
-/
namespace Verif.Double
open Verif FloatBits

/-- The exponent of the last bit of a `double` near `x`: 53 bits, but none below 2^-1074. -/
def last (x : ℚ) : Int := max (-1074) (Int.log 2 |x| - 52)

/-- The nearest integer, ties to even. -/
def nearest (x : ℚ) : Int := if x - ⌊x⌋ < 1 / 2 then ⌊x⌋ else if 1 / 2 < x - ⌊x⌋ then ⌊x⌋ + 1 else if ⌊x⌋ % 2 = 0 then ⌊x⌋ else ⌊x⌋ + 1

/-- The nearest number with 53 bits. -/
def rnd (x : ℚ) : ℚ := nearest (x / 2 ^ last x) * 2 ^ last x

/-- The result of an operation whose exact result is `x`. -/
def op (x : ℚ) : Option ℚ := if |rnd x| < 2 ^ 1024 then some (rnd x) else none

/-- `(double) a` -/
def ofFloat (a : F32) : Option ℚ := if isFinite a.bits then some ((value a.bits : ℚ) / 2 ^ 149) else none

/-- `(float) x` -/
def toFloat (x : ℚ) : F32 := F32.rounded (decide (x < 0)) (x.num.natAbs * 2 ^ 149) x.den

end Verif.Double
