import Verif.Model.Tensor
import Verif.Model.Optimizer
import Mathlib.Analysis.Real.Sqrt
import Mathlib.Algebra.Order.Floor.Ring

/-!
Tensors of pseudo random values: `/repo/src/types/tensor_impls/tensor_from_random.hpp` and
`/repo/src/types/tensor_impls/tensor_from_xavier.hpp`, the start of every layer with weights.

Simplifications: real arithmetic in place of `float` and `double`. A NaN is `none`.
-/
namespace Verif.RandomTensor
open Verif

/-- The literal of tensor_from_random.hpp:41 and 82. -/
noncomputable def piCode : ℝ := 314159265358979323846 / 10 ^ 20
/-- The literal of tensor_from_random.hpp:40. -/
noncomputable def eCode : ℝ := 271828 / 10 ^ 5

/-- `fmod` of the C library: the quotient is truncated; NaN for a zero divisor. -/
noncomputable def fmod (x y : ℝ) : Option ℝ :=
  if y = 0 then none else some (x - y * ((if 0 ≤ x / y then ⌊x / y⌋ else ⌈x / y⌉ : ℤ) : ℝ))

/-- tensor_from_random.hpp:39-41 and 78-84: `getValue`, from `max_value`, `range`, the shape and the seed. The seed is a `uint32_t`. -/
noncomputable def value (hi range : ℝ) (rows cols seed r c k : Nat) : Option ℝ :=
  let rangeConst := range / eCode
  let seedConst := ((seed % 2 ^ 32 % 12345689 + 1 : Nat) : ℝ) * rangeConst / piCode
  let offset := ((k : ℝ) * ((rows : ℝ) * (cols : ℝ)) + (r : ℝ) * (cols : ℝ) + ((c : ℝ) + 1) * rangeConst + seedConst) * piCode
  (fmod offset range).map fun m => hi - m

/-- tensor_from_random.hpp:31-42: `range` is computed from the arguments. -/
noncomputable def random (rows cols chans : Nat) (lo hi : ℝ) (seed : Nat) : Tensor (Option ℝ) :=
  ⟨rows, cols, chans, fun r c k => value (max hi lo) |hi - lo| rows cols seed r c k⟩

/-- tensor_from_xavier.hpp:13-27: `variance` -/
noncomputable def xavierBound (rows cols : Nat) : ℝ := Real.sqrt (2 / ((rows + cols : Nat) : ℝ)) / 2

/-- tensor_from_xavier.hpp:13-55 -/
noncomputable def xavier (rows cols chans seed : Nat) : Tensor (Option ℝ) :=
  ⟨rows, cols, chans, fun r c k => value (xavierBound rows cols) |xavierBound rows cols - -xavierBound rows cols| rows cols seed r c k⟩

/-- fully_connected_layer.hpp:17-29 with happyml_dsl.hpp:419-436: the layer registers with the optimizer, the id is part of the seed. -/
noncomputable def denseStart (o : Optimizer.Opt ℝ) (inputs outputs : Nat) : Tensor (Option ℝ) × Optimizer.Opt ℝ :=
  (xavier inputs outputs 1 ((Optimizer.register o).1 + 42), (Optimizer.register o).2)

/-- convolution_2d_valid_layer.hpp:31-34: the kernels of a convolution layer. -/
noncomputable def convStart (o : Optimizer.Opt ℝ) (kernel depth filters : Nat) : List (Tensor (Option ℝ)) × Optimizer.Opt ℝ :=
  ((List.range filters).map fun f => xavier kernel kernel depth ((Optimizer.register o).1 + f + 42), (Optimizer.register o).2)

end Verif.RandomTensor
