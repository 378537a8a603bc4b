import Verif.Model.FloatActivation
import Verif.Model.Statistics

/-!
Softmax on 32-bit floats (the real-valued version is `Verif.Activation.softmax`). The maximum is taken in `float`, the sum in `double`, both over the whole
tensor; converting the maximum to `double` and back to `float` does not change it. `std::exp(float)` is a parameter, as in `Verif.Model.FloatActivation`.
-/
namespace Verif.FloatSoftmax
open Verif FloatActivation FloatBits

/-- base_tensors.hpp:266-279 `max`: `std::max(result, value)` is `(result < value) ? value : result`, starting with minus infinity. -/
def maximum (t : Tensor F32) : F32 := (Statistics.elements t).foldl (fun m v => if F32.lt m v then v else m) ⟨0xFF800000#32⟩

/-- A number of units of 2^-149 rounded to the 53 bits of a `double`, to nearest, ties to even. (A `double` holds much larger numbers and much smaller steps
than the sums of floats that occur, so there is no overflow and no underflow.) -/
def round53 (n : Nat) : Nat :=
  let s := Nat.log2 n - 52
  let q := n / 2 ^ s
  let r := n % 2 ^ s
  (if 2 ^ s < 2 * r ∨ (2 * r = 2 ^ s ∧ q % 2 = 1) then q + 1 else q) * 2 ^ s

/-- base_tensors.hpp:236-249 `sum`, converted to `float` (softmax_activation_function.hpp:24-25: the parameter of `ScalarDivideTensorView` is a `float`).
Only for elements that are not negative, as results of `exp` are: the sign is not looked at. -/
def sum (l : List F32) : F32 :=
  if l.any (fun v => isNaN v.bits) then F32.nan
  else if l.any (fun v => isInf v.bits) then ⟨0x7F800000#32⟩
  else F32.rounded false (l.foldl (fun acc v => round53 (acc + v.units)) 0) 1

/-- `activate`: softmax_activation_function.hpp:19-27, with scalar_subtract_tensor_view.hpp:34-40, exponential_tensor_view.hpp:19-22,
scalar_divide_tensor_view.hpp:33-38. -/
def softmax (m : Libm) (t : Tensor F32) : Tensor F32 :=
  let numerator := Views.map m.exp (Views.map (fun v => v - maximum t) t)
  let denominator := sum (Statistics.elements numerator)
  Views.map (fun v => v / denominator) numerator

end Verif.FloatSoftmax
