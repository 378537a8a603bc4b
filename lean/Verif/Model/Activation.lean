import Verif.Model.Statistics
import Mathlib.Analysis.SpecialFunctions.ExpDeriv
import Mathlib.Analysis.Complex.Trigonometric

/-!
The activation functions of `/repo/src/ml/activators` and the activation layer `/repo/src/ml/layers/activation_layer.hpp`.

`float` and `double` arithmetic is modelled by exact arithmetic on real numbers (no rounding, no overflow).
-/
namespace Verif.Activation
open Verif Views

/-- The activation functions that work on single values; softmax is separate. -/
inductive Kind where
  | relu | leaky | linear | sigmoid | sigmoidApprox | tanh | tanhApprox
  deriving DecidableEq

/-- `(float) condition` -/
noncomputable def flag (p : Prop) [Decidable p] : ℝ := if p then 1 else 0

/-- The lambda of `activate`: relu_activation_function.hpp:17-19 (`std::max(a, b)` is `a < b ? b : a`),
leaky_relu_activation_function.hpp:15-18, linear_activation_function.hpp:16-19, sigmoid_activation_function.hpp:16-18,
sigmoid_approx_activation_function.hpp:16-18, tanh_activation_function.hpp:17-24, tanh_approx_activation_function.hpp:20-26. -/
noncomputable def value : Kind → ℝ → ℝ
  | .relu, x => if x < 0 then 0 else x
  | .leaky, x => flag (x < 0) * (1 / 100 * x) + flag (x ≥ 0) * x
  | .linear, x => x
  | .sigmoid, x => 1 / (1 + Real.exp (-1 * x))
  | .sigmoidApprox, x => 1 / 2 * ((x / (1 + |x|)) + 1)
  | .tanh, x => Real.tanh x
  | .tanhApprox, x =>
    let twoX := 2 * x
    let sigmoid := 1 / (1 + Real.exp (-1 * twoX))
    2 * sigmoid - 1

/-- The lambda of `derivative`: relu_activation_function.hpp:24-30, leaky_relu_activation_function.hpp:23-26,
linear_activation_function.hpp:21-24, sigmoid_activation_function.hpp:24-27, sigmoid_approx_activation_function.hpp:24-28,
tanh_activation_function.hpp:29-33, tanh_approx_activation_function.hpp:33-41. -/
noncomputable def slope : Kind → ℝ → ℝ
  | .relu, x => if x > 0 then 1 else 0
  | .leaky, x => flag (x < 0) * (1 / 100) + flag (x ≥ 0) * 1
  | .linear, _ => 1
  | .sigmoid, x =>
    let sig := 1 / (1 + Real.exp (-1 * x))
    sig * (1 - sig)
  | .sigmoidApprox, x =>
    let sig := 1 / 2 * ((x / (1 + |x|)) + 1)
    sig * (1 - sig)
  | .tanh, x =>
    let th := Real.tanh x
    1 - th * th
  | .tanhApprox, x =>
    let twoX := 2 * x
    let sigmoid := 1 / (1 + Real.exp (-1 * twoX))
    let th := 2 * sigmoid - 1
    1 - th * th

/-- `activate` of a tensor, through `ValueTransformTensorView` -/
noncomputable def activate (k : Kind) (t : Tensor ℝ) : Tensor ℝ := map (value k) t
/-- `derivative` of a tensor -/
noncomputable def derivative (k : Kind) (t : Tensor ℝ) : Tensor ℝ := map (slope k) t

/-- softmax_activation_function.hpp:19-27 `activate`. The maximum and the sum are taken over the whole tensor, whatever its shape. A
tensor without elements has no maximum (`-INFINITY`) and the result has no elements either. -/
noncomputable def softmax (t : Tensor ℝ) : Tensor ℝ :=
  match Statistics.max t with
  | none => t
  | some m =>
    let numerator := map Real.exp (map (fun v => v - m) t)
    map (fun v => v / Statistics.sum numerator) numerator

/-- softmax_activation_function.hpp:29-32 `derivative`: the input itself -/
def softmaxDerivative (t : Tensor ℝ) : Tensor ℝ := t

/-- activation_layer.hpp:30-56 `backward` for the inputs that were queued since the last call, oldest first: the average of their
derivatives, times the error. `none`: no input was queued, or the shapes do not fit (exceptions). -/
def backward {F : Type} [Field F] (slopes : Tensor F → Tensor F) (queued : List (Tensor F)) (error : Tensor F) : Option (Tensor F) :=
  match queued with
  | [] => none
  | [x] => multiply (slopes x) error
  | x :: rest =>
    (rest.foldlM (fun acc y => add acc (slopes y)) (slopes x)).bind fun s =>
      multiply (map (fun v => v / ((rest.length + 1 : Nat) : F)) s) error

end Verif.Activation
