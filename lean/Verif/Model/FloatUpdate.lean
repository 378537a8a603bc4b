import Verif.Model.Float32
import Verif.Model.Materialize

/-!
Weight updates in 32-bit floats: the `sgd` optimizer (`/repo/src/ml/optimizers/mbgd_optimizer.hpp`) and the storing of the new weights with 32, 16 or 8 bits
in `apply` of the full layer and the bias layer.

The change is given: the mean of the errors that `backward` has queued (fully_connected_layer.hpp:141-151, bias_layer.hpp:71-78).
-/
namespace Verif

namespace FloatUpdate
open Verif Views

/-- mbgd_optimizer.hpp:53-62 `calculateWeightsChange` and 64-71 `calculateBiasChange`, with the learning rate for weights or for the bias
(scalar_multiply_tensor_view.hpp:32-34 multiplies the rate with the element). -/
def change (rate : F32) (weights changes : Tensor F32) : Option (Tensor F32) := subtract weights (map (fun g => rate * g) changes)

/-- fully_connected_layer.hpp:153-156, bias_layer.hpp:80-83: the new weights are stored with `bits` bits per element. -/
def update (bits : Nat) (rate : F32) (weights changes : Tensor F32) : Option (Tensor F32) :=
  (change rate weights changes).map fun t => map F32.mk (Materialize.materialize false (map F32.bits t) bits)

/-- Several updates, one after the other. -/
def updates (bits : Nat) (rate : F32) : Tensor F32 → List (Tensor F32) → Option (Tensor F32)
  | w, [] => some w
  | w, g :: rest => (update bits rate w g).bind fun w => updates bits rate w rest

end FloatUpdate
end Verif
