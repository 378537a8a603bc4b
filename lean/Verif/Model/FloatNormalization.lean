import Verif.Model.FloatColumn

/-!
The normalization layer with the roundings of the code (the version with exact arithmetic is in `Verif.Model.NormLayers`). Simplifications: a result `none` is infinite or NaN;
counts are exact (fewer than 2^53 elements; the count as a `float` has its own definition).
-/
namespace Verif.FloatNormalization
open Verif Double FloatColumn

/-- base_tensors.hpp:211-219: the elements in the order of `getValue(position_offset)`. -/
def flat (t : Tensor F32) : List F32 := (List.range t.size).map (Views.offsetGet t)

/-- standardize_tensor_view.hpp:19-25: one value. The state is (mean, M2), `n` is `total_elements`. -/
def step (n : Nat) (s : ℚ × ℚ) (v : ℚ) : Option (ℚ × ℚ) := do
  let delta ← op (v - s.1)
  let q ← op (delta / n)
  let mean ← op (s.1 + q)
  let delta2 ← op (v - mean)
  let p ← op (delta * delta2)
  let m2 ← op (s.2 + p)
  return (mean, m2)

/-- `1.0f` -/
def one : F32 := ⟨FloatArith.one⟩

/-- standardize_tensor_view.hpp:14-33: `mean_` and `std_dev_`. Without elements the variance is NaN. -/
def constants (t : Tensor F32) : Option (F32 × F32) := do
  let vs ← (flat t).mapM ofFloat
  let s ← vs.foldlM (step t.size) (0, 0)
  let w ← if t.size = 0 then none else op (s.2 / t.size)
  if w = 0 then return (toFloat s.1, one)
  else
    let d ← root w
    return (toFloat s.1, toFloat d)

/-- normalization_layer.hpp:23-43 `forward`: the view over the input (standardize_tensor_view.hpp:39-42). -/
def forward (t : Tensor F32) : Option (Tensor F32) := (constants t).map fun c => Views.map (standardize c.1 c.2) t

/-- standardize_derivative_tensor_view.hpp:24-43, one value: `d` is the value of the error, `v` that of the input, `n` is `(float) total_elements_`. -/
def derivative (mean sd n d v : F32) : F32 :=
  let common := d / (sd * n)
  let dx1 := d / sd
  let dx2 := F32.negate common * (v - mean)
  let diff := v - mean
  let common := d * diff / (sd * sd * sd * n)
  let dx3 := F32.negate n * diff * common
  dx1 + dx2 + dx3

/-- normalization_layer.hpp:45-60 `backward`, element by element: `input` of the derivative view is `lastInput`, the result of `forward`; mean and deviation are those of its
argument `t`. -/
def backward (t e : Tensor F32) (r c k : Nat) : Option F32 :=
  (constants t).map fun m => derivative m.1 m.2 (toFloat t.size) (e.get r c k) (standardize m.1 m.2 (t.get r c k))

end Verif.FloatNormalization
