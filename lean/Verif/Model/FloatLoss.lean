import Verif.Model.FloatActivation

/-!
The cross-entropy losses on single 32-bit floats (the real-valued versions for tensors are in `Verif.Model.Loss`): the views compute element by element, so
one element of the truth and one of the prediction determine one element of the error and of the derivative.

`std::log(float)` is a parameter. Not modelled: the sum of the errors (`compute_loss`, computed in `double`).
-/
namespace Verif.FloatLoss
open Verif FloatActivation

/-- `1e-8f` -/
def epsilon : F32 := ⟨0x322BCC77#32⟩

/-- `1.0f - 1e-8f` -/
def upper : F32 := one - epsilon

/-- `std::clamp(v, lo, hi)` -/
def clamp (v lo hi : F32) : F32 := if F32.lt v lo then lo else if F32.lt hi v then hi else v

/-- log_tensor_view.hpp:24-27 -/
def logView (log : F32 → F32) (v : F32) : F32 := log (clamp v epsilon upper)

/-- `compute_error`: binary_cross_entropy.hpp:21-37, with clip_tensor_view.hpp:23-26, scalar_subtract_tensor_view.hpp:34-40, scalar_multiply_tensor_view.hpp:32-34. -/
def binaryError (log : F32 → F32) (truth prediction : F32) : F32 :=
  let logPrediction := logView log (clamp prediction epsilon upper)
  let logOneMinusPrediction := logView log (clamp (one - prediction) epsilon upper)
  minusOne * (truth * logPrediction + (one - truth) * logOneMinusPrediction)

/-- element_wise_divide_tensor_view.hpp:56-62; `denominator == 0.0f` holds for both zeros and no other float. -/
def divideView (numerator denominator : F32) : F32 :=
  numerator / (if F32.ge denominator 0 && F32.ge 0 denominator then epsilon else denominator)

/-- `compute_loss_derivative`: binary_cross_entropy.hpp:49-71. -/
def binaryDerivative (truth prediction : F32) : F32 :=
  minusOne * (divideView truth prediction - divideView (one - truth) (one - prediction))

/-- `compute_error`: categorical_cross_entropy_loss.hpp:28-40. -/
def categoricalError (log : F32 → F32) (truth prediction : F32) : F32 := (minusOne * truth) * logView log prediction

/-- `compute_loss_derivative`: categorical_cross_entropy_loss.hpp:51-58. -/
def categoricalDerivative (truth prediction : F32) : F32 := prediction - truth

/-- What an activation layer hands down for a batch of one record: activation_layer.hpp:37-38, 53-55 (the derivative at the input times the error). -/
def handedDown (m : Libm) (a : Act) (x error : F32) : F32 := a.slope m x * error

end Verif.FloatLoss
