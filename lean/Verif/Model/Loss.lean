import Verif.Model.Statistics
import Mathlib.Analysis.SpecialFunctions.Log.Basic

/-!
The loss functions of `/repo/src/ml/losses`, on real numbers (no rounding, no overflow).
-/
namespace Verif.Loss
open Verif Views

inductive Kind where
  | mse | mae | smae | bce | cce
  deriving DecidableEq

/-- The constants used: `smoothness` of smae_loss.hpp:19 (1, a public member), the clipping bounds `1e-8f` and `1.0f - 1e-8f` of
binary_cross_entropy.hpp:22-24 and log_tensor_view.hpp:26 (the latter is `1.0f` in single precision), and the constant that replaces a
zero denominator (element_wise_divide_tensor_view.hpp:20-64, 1e-8). -/
structure Constants where
  smoothness : ℝ
  low : ℝ
  high : ℝ
  eps : ℝ

/-- `std::clamp` -/
noncomputable def clamp (lo hi x : ℝ) : ℝ := if x < lo then lo else if hi < x then hi else x

/-- log_tensor_view.hpp:24-27 -/
noncomputable def logView (c : Constants) (t : Tensor ℝ) : Tensor ℝ := map (fun v => Real.log (clamp c.low c.high v)) t

/-- less_than_scalar_tensor_view.hpp:15-18 -/
noncomputable def lessThan (t : Tensor ℝ) (s : ℝ) : Tensor ℝ := map (fun v => if v < s then 1 else 0) t

/-- masked_select_tensor_view.hpp:12-25 with discriminator 0 -/
noncomputable def select (mask above below : Tensor ℝ) : Tensor ℝ := maskedSelect (fun v => decide (0 < v)) mask above below

/-- `compute_error`: mse_loss.hpp:12-14, mae_loss.hpp:16-20, smae_loss.hpp:21-35, binary_cross_entropy.hpp:21-37,
categorical_cross_entropy_loss.hpp:28-40. `none`: tensors of different shapes (an exception). -/
noncomputable def error (c : Constants) : Kind → (truth prediction : Tensor ℝ) → Option (Tensor ℝ)
  | .mse, truth, prediction => subtract prediction truth
  | .mae, truth, prediction => (subtract prediction truth).map (map fun v => |v|)
  | .smae, truth, prediction =>
    (subtract prediction truth).map fun diff =>
      let absDiff := map (fun v => |v|) diff
      let squared := map (fun v => v ^ 2) diff
      let smooth := map (fun v => 1 / 2 / c.smoothness * v) squared
      let unsmooth := map (fun v => v - 1 / 2 * c.smoothness) absDiff
      select (lessThan absDiff c.smoothness) smooth unsmooth
  | .bce, truth, prediction =>
    let clipped := map (clamp c.low c.high) prediction
    let clippedRest := map (clamp c.low c.high) (map (fun v => 1 - v) prediction)
    (multiply truth (logView c clipped)).bind fun a =>
      (multiply (map (fun v => 1 - v) truth) (logView c clippedRest)).bind fun b =>
        (add a b).map (map fun v => -1 * v)
  | .cce, truth, prediction => multiply (map (fun v => -1 * v) truth) (logView c prediction)

/-- `compute_loss`: mse_loss.hpp:16-22, mae_loss.hpp:22-27, smae_loss.hpp:37-43, binary_cross_entropy.hpp:40-45,
categorical_cross_entropy_loss.hpp:43-47. (An empty tensor gives 0/0 for `smae`; shapes without elements do not occur.) -/
noncomputable def loss : Kind → Tensor ℝ → ℝ
  | .mse, e => Statistics.arithmeticMean (map (fun v => v ^ 2) e)
  | .mae, e => Statistics.arithmeticMean e
  | .smae, e => Statistics.sum e / (e.size : ℝ)
  | .bce, e => Statistics.sum e
  | .cce, e => Statistics.sum e

/-- `compute_loss_derivative`: mse_loss.hpp:24-30, mae_loss.hpp:29-37, smae_loss.hpp:45-59, binary_cross_entropy.hpp:49-71,
categorical_cross_entropy_loss.hpp:51-58. `total` is the result of `compute_error` for the same prediction (neural_network.hpp:471-482). -/
noncomputable def derivative (c : Constants) : Kind → (total truth prediction : Tensor ℝ) → Option (Tensor ℝ)
  | .mse, total, _, _ => some (map (fun v => 2 * v) total)
  | .mae, _, truth, prediction => (subtract prediction truth).map (map fun v => -1 * v)
  | .smae, _, truth, prediction =>
    (subtract prediction truth).map fun diff =>
      let absDiff := map (fun v => |v|) diff
      let smooth := map (fun v => 1 / c.smoothness * v) diff
      let unsmooth := map (fun v => -1 * v) diff
      select (lessThan absDiff c.smoothness) smooth unsmooth
  | .bce, _, truth, prediction =>
    (divide c.eps truth prediction).bind fun a =>
      (divide c.eps (map (fun v => 1 - v) truth) (map (fun v => 1 - v) prediction)).bind fun b =>
        (subtract a b).map (map fun v => -1 * v)
  | .cce, _, truth, prediction => subtract prediction truth

/-- The loss of a prediction, and the derivative reported for it, as in neural_network.hpp:471-482. -/
noncomputable def lossOf (c : Constants) (k : Kind) (truth prediction : Tensor ℝ) : Option ℝ :=
  (error c k truth prediction).map (loss k)
noncomputable def reported (c : Constants) (k : Kind) (truth prediction : Tensor ℝ) : Option (Tensor ℝ) :=
  (error c k truth prediction).bind fun e => derivative c k e truth prediction

end Verif.Loss
