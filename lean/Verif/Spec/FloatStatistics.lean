import Verif.Model.Float32
import Mathlib.Algebra.Order.Field.Rat

/-!
# Numbers that floats denote, and the exact mean
-/
namespace Verif.FloatStatistics
open Verif FloatBits

/-- The number that a finite float denotes. -/
def number (a : F32) : ℚ := (value a.bits : ℚ) / 2 ^ 149

/-- The mean of some floats. -/
def exactMean (l : List F32) : ℚ := (l.map number).sum / l.length

end Verif.FloatStatistics
