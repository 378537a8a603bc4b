import Mathlib.Data.Rat.Defs
import Mathlib.Algebra.Order.Field.Rat
import Mathlib.Algebra.Order.Field.Power

/-!
# The numbers a `double` can hold (without an upper limit)
-/
namespace Verif.Double

/-- A number with 53 bits, none of them below 2^-1074. -/
def Rep (x : ℚ) : Prop := ∃ m e : Int, x = m * 2 ^ e ∧ |m| ≤ 2 ^ 53 ∧ -1074 ≤ e

end Verif.Double
