import Verif.Model.Statistics
import Mathlib.Analysis.SpecialFunctions.Log.Basic

/-!
`geometricMean` of a tensor, /repo/src/types/base_tensors.hpp 497-571. Simplification: exact real arithmetic, logarithm and exponential instead of those of `double`, and no rounding
of the result to `float`; the stored values are finite.
-/
namespace Verif.GeometricMean
open Verif Statistics

/-- base_tensors.hpp:560-565: one element, with the sum of logarithms and the number of elements so far; `none`: NaN has been returned. -/
noncomputable def step (s : Option (ℝ × ℝ)) (v : ℝ) : Option (ℝ × ℝ) := s.bind fun s => if v ≤ 0 then none else some (s.1 + Real.log v, s.2 + 1)

/-- base_tensors.hpp:552-571; `none` is NaN, also that of 0/0 (569). -/
noncomputable def geometricMean (t : Tensor ℝ) : Option ℝ :=
  ((elements t).foldl step (some (0, 0))).bind fun s => if s.2 = 0 then none else some (Real.exp (s.1 / s.2))

end Verif.GeometricMean
