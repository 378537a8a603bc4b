import Verif.Model.FloatNetwork

/-!
The activation functions and their derivatives on single 32-bit floats (the real-valued versions are in `Verif.Model.Activation`).

The functions `std::exp(float)` and `std::tanh(float)` of the C library are parameters: the standard does not say what they return. `base_tensors.hpp:105`
(`using namespace std`) makes the unqualified `exp`, `tanh` and `abs` of the activation functions the overloads for `float`.

Simplification: every operation is rounded to 32 bits on its own (no wider intermediate results, no fused multiply-add), the rounding mode is the default one.
-/
namespace Verif.FloatActivation
open Verif

/-- `std::exp(float)` and `std::tanh(float)`. -/
structure Libm where
  exp : F32 → F32
  tanh : F32 → F32

/-- `1.0f` -/
def one : F32 := ⟨FloatArith.one⟩
/-- `-1.0f` -/
def minusOne : F32 := ⟨0xBF800000#32⟩
/-- `0.5f` -/
def half : F32 := ⟨0x3F000000#32⟩
/-- `2` converted to a float -/
def two : F32 := ⟨0x40000000#32⟩
/-- `0.01f` -/
def hundredth : F32 := ⟨0x3C23D70A#32⟩

inductive Act
  | relu | leaky | linear | sigmoid | sigmoidApprox | tanh | tanhApprox
  deriving DecidableEq

/-- `1.0f / (1.0f + exp(-1.0f * x))`: sigmoid_activation_function.hpp:17, tanh_approx_activation_function.hpp:23. -/
def logistic (m : Libm) (x : F32) : F32 := one / (one + m.exp (minusOne * x))

/-- `activate`: relu_activation_function.hpp:17-19 (`std::max(a, b)` is `a < b ? b : a`), leaky_relu_activation_function.hpp:15-18,
linear_activation_function.hpp:16-19, sigmoid_activation_function.hpp:16-18, sigmoid_approx_activation_function.hpp:16-18,
tanh_activation_function.hpp:17-24, tanh_approx_activation_function.hpp:20-26. -/
def Act.value (m : Libm) : Act → F32 → F32
  | .relu, x => if F32.lt x 0 then 0 else x
  | .leaky, x => F32.flag (F32.lt x 0) * (hundredth * x) + F32.flag (F32.ge x 0) * x
  | .linear, x => x
  | .sigmoid, x => logistic m x
  | .sigmoidApprox, x => half * (x / (one + x.abs) + one)
  | .tanh, x => m.tanh x
  | .tanhApprox, x => two * logistic m (two * x) - one

/-- `derivative`: relu_activation_function.hpp:24-29, leaky_relu_activation_function.hpp:22-25, linear_activation_function.hpp:21-24,
sigmoid_activation_function.hpp:24-27, sigmoid_approx_activation_function.hpp:24-28, tanh_activation_function.hpp:27-34,
tanh_approx_activation_function.hpp:31-42. -/
def Act.slope (m : Libm) : Act → F32 → F32
  | .relu, x => if F32.lt 0 x then one else 0
  | .leaky, x => F32.flag (F32.lt x 0) * hundredth + F32.flag (F32.ge x 0) * one
  | .linear, _ => one
  | .sigmoid, x =>
    let sig := logistic m x
    sig * (one - sig)
  | .sigmoidApprox, x =>
    let sig := half * (x / (one + x.abs) + one)
    sig * (one - sig)
  | .tanh, x =>
    let th := m.tanh x
    one - th * th
  | .tanhApprox, x =>
    let th := two * logistic m (two * x) - one
    one - th * th

end Verif.FloatActivation
