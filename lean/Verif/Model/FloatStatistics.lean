import Verif.Model.Double
import Verif.Model.Statistics

/-!
The statistics of tensors and columns with the roundings of the code (the versions with exact arithmetic are in `Verif.Model.Statistics`): mean and deviation of a
tensor, the running values of a column, and the views that normalize and undo it. Numbers are in `double` except where the code says `float`. A result `none` is
infinite or NaN; so is everything computed from an element that is. Simplifications: counts are exact (fewer than 2^53 elements); `sqrt` is left out, so instead of a
deviation there is the number its root is taken of.
-/
namespace Verif.FloatStatistics
open Verif Double Statistics

/-- base_tensors.hpp:487-489 and 421-424: `index++; average += (value - average) / index;`. The state is (average, index). -/
def average (s : ℚ × Nat) (v : ℚ) : Option (ℚ × Nat) := do
  let d ← op (v - s.1)
  let q ← op (d / (s.2 + 1 : Nat))
  let a ← op (s.1 + q)
  return (a, s.2 + 1)

/-- base_tensors.hpp:467-495 `arithmeticMean` -/
def arithmeticMean (t : Tensor F32) : Option F32 := do
  let vs ← (elements t).mapM ofFloat
  let s ← vs.foldlM average (0, 0)
  return toFloat s.1

/-- base_tensors.hpp:411-428: what `standardDeviation` takes the root of. -/
def deviationSquared (t : Tensor F32) : Option ℚ := do
  let m ← arithmeticMean t
  let a ← ofFloat m
  let vs ← (elements t).mapM ofFloat
  let ws ← vs.mapM fun v => do
    let diff ← op (v - a)
    op (diff * diff)
  let s ← ws.foldlM average (0, 0)
  return s.1

/-- tensor_utils.hpp:161-177 `StandardizationAndNormalizationValues` without the derived `standard_deviation`. -/
structure Running where
  mean : ℚ
  m2 : ℚ
  total : Nat
  min : ℚ
  max : ℚ
  deriving DecidableEq

/-- The largest `double`. -/
def largest : ℚ := (2 ^ 53 - 1) * 2 ^ 971

/-- tensor_utils.hpp:162-169 -/
def Running.init : Running := ⟨0, 0, 0, largest, -largest⟩

/-- tensor_utils.hpp:187-195: one value; `std::min(a, b)` is `(b < a) ? b : a`, `std::max(a, b)` is `(a < b) ? b : a`. -/
def Running.step (s : Running) (v : ℚ) : Option Running := do
  let delta ← op (v - s.mean)
  let q ← op (delta / (s.total + 1 : Nat))
  let mean ← op (s.mean + q)
  let delta2 ← op (v - mean)
  let p ← op (delta * delta2)
  let m2 ← op (s.m2 + p)
  return ⟨mean, m2, s.total + 1, if v < s.min then v else s.min, if s.max < v then v else s.max⟩

/-- tensor_utils.hpp:179-198: all elements of a column, one tensor after another. -/
def running (ts : List (Tensor F32)) : Option Running := do
  let vs ← (ts.flatMap elements).mapM ofFloat
  vs.foldlM Running.step .init

/-- tensor_utils.hpp:199: what `standard_deviation` is the root of. -/
def Running.variance (s : Running) : Option ℚ := if s.total = 0 then none else op (s.m2 / s.total)

/-- normalize_tensor_view.hpp:23-31 -/
def normalize (lo hi v : F32) : F32 := (v - lo) / (hi - lo)

/-- denormalize_tensor_view.hpp:15-23 -/
def denormalize (lo hi v : F32) : F32 := v * (hi - lo) + lo

end Verif.FloatStatistics
