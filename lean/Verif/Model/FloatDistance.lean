import Verif.Model.FloatAdam

/-!
The losses that measure a distance (`mse`, `mae`, `smae`) on single 32-bit floats (the real-valued versions for tensors are in `Verif.Model.Loss`): the views
compute element by element, so one element of the truth and one of the prediction determine one element of the error and of the derivative.

`powf` of the C library is a parameter. Not modelled: the mean over the elements (computed in `double`). The smoothness of `smae` has its default value 1
(smae_loss.hpp:19; nothing in the code changes it), for which `0.5f / smoothness`, `0.5f * smoothness` and `1.0f / smoothness` are 0.5, 0.5 and 1.
-/
namespace Verif.FloatDistance
open Verif FloatActivation FloatAdam

/-- The three losses. -/
inductive Kind
  | mse | mae | smae
  deriving DecidableEq

/-- masked_select_tensor_view.hpp:18-25 with discriminator 0; base_tensors.hpp:733-741: the base class stores its second tensor in both `middle_child_` and
`right_child_`. -/
def select (mask valueAbove _valueBelow : F32) : F32 :=
  let middle := valueAbove
  let right := valueAbove
  if F32.lt 0 mask then middle else right

/-- less_than_scalar_tensor_view.hpp:15-18 -/
def lessThan (v scalar : F32) : F32 := if F32.lt v scalar then one else 0

/-- `compute_error`: mse_loss.hpp:12-14, mae_loss.hpp:16-20, smae_loss.hpp:21-35, with subtract_tensor_view.hpp:45-47, absolute_tensor_view.hpp:20-23,
power_tensor_view.hpp:20-23, scalar_multiply_tensor_view.hpp:32-34, scalar_subtract_tensor_view.hpp:34-40. -/
def error (lib : Roots) : Kind → F32 → F32 → F32
  | .mse, truth, prediction => prediction - truth
  | .mae, truth, prediction => (prediction - truth).abs
  | .smae, truth, prediction =>
    let diff := prediction - truth
    let smooth := half * lib.pow diff two
    let unsmooth := diff.abs - half
    select (lessThan diff.abs one) smooth unsmooth

/-- What `compute_loss` takes the mean of: mse_loss.hpp:16-22, mae_loss.hpp:22-27, smae_loss.hpp:37-43. -/
def term (lib : Roots) (kind : Kind) (truth prediction : F32) : F32 :=
  let e := error lib kind truth prediction
  if kind = .mse then lib.pow e two else e

/-- `compute_loss_derivative` for a batch of one record (neural_network.hpp hands the error over): mse_loss.hpp:24-30, mae_loss.hpp:29-37, smae_loss.hpp:45-59. -/
def derivative (lib : Roots) : Kind → F32 → F32 → F32
  | .mse, truth, prediction => two * error lib .mse truth prediction
  | .mae, truth, prediction => minusOne * (prediction - truth)
  | .smae, truth, prediction =>
    let diff := prediction - truth
    let smooth := one * diff
    let unsmooth := minusOne * diff
    select (lessThan diff.abs one) smooth unsmooth

end Verif.FloatDistance
