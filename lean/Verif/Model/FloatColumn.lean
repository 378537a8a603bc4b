import Verif.Model.FloatStatistics

/-!
What a dataset stores for a column of numbers, with the roundings of the code (the version with exact arithmetic is in `Verif.Model.Statistics`): the metadata from the running
values, standardizing and normalizing when a dataset is created, and undoing both when a result is shown. Simplifications: a result `none` is infinite or NaN; counts are
exact (fewer than 2^53 elements).
-/
namespace Verif.FloatColumn
open Verif Double FloatStatistics

/-- The exponent of the last bit of the root of `x`. Specification of the machine. -/
def rootLast (x : ℚ) : Int := Int.log 2 x / 2 - 52

/-- `sqrt` for `double`: the nearest number with 53 bits (there are no ties); NaN for negative numbers. Specification of the machine. -/
def root (x : ℚ) : Option ℚ :=
  let m := Nat.sqrt ⌊x / 4 ^ rootLast x⌋₊
  if x < 0 then none else some ((if ((m : ℚ) + 1 / 2) ^ 2 < x / 4 ^ rootLast x then (m : ℚ) + 1 else m) * 2 ^ rootLast x)

/-- The numbers in `BinaryColumnMetadata`. -/
structure Metadata where
  standardized : Bool
  mean : F32
  sd : F32
  lo : F32
  hi : F32
  deriving DecidableEq

/-- tensor_utils.hpp:199-200 and dataset_utils.hpp:233-254: the metadata of a column of numbers (purpose `'N'`), which is always normalized. -/
def metadata (ts : List (Tensor F32)) : Option Metadata := do
  let s ← running ts
  let w ← s.variance
  let d ← root w
  return ⟨decide (1 < d), toFloat s.mean, toFloat d, toFloat s.min, toFloat s.max⟩

/-- standardize_tensor_view.hpp:39-42 -/
def standardize (mean sd v : F32) : F32 := (v - mean) / sd

/-- unstandardize_tensor_view.hpp:18-21 -/
def unstandardize (mean sd v : F32) : F32 := v * sd + mean

/-- dataset_utils.hpp:126-140 `standardize_and_normalize`, one value. -/
def encode (m : Metadata) (v : F32) : F32 :=
  normalize m.lo m.hi (if m.standardized then standardize m.mean m.sd v else v)

/-- dataset_utils.hpp:142-154 `unstandardize_and_denormalize` and data_decoder.hpp:56-69, one value. -/
def decode (m : Metadata) (v : F32) : F32 :=
  if m.standardized then unstandardize m.mean m.sd (denormalize m.lo m.hi v) else denormalize m.lo m.hi v

end Verif.FloatColumn
