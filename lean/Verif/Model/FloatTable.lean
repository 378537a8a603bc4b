import Verif.Model.FloatDistance
import Verif.Model.FloatNetwork
import Verif.Model.FloatUpdate

/-!
Training a linear model in 32-bit floats: a network with one full layer without bias and without L2 regularization (happyml_dsl.hpp:419-511, `linear` activation),
the `mse` loss, the `sgd` optimizer and batches of one record.

Not modelled: larger batches, the reported losses, the end of the training (C92, C87).
-/
namespace Verif.FloatTable
open Verif Views FloatActivation FloatAdam

/-- A record: the row of given values and the row of expected values. -/
structure Record where
  given : Tensor F32
  expected : Tensor F32

/-- A prediction of the network with the weights `w`. -/
def predict (w given : Tensor F32) : Option (Tensor F32) := FloatNetwork.predict [.dense w, .activation .linear] given

/-- One record of a training, neural_network.hpp:464-493: the prediction, the loss derivative (mse_loss.hpp:24-30), `backward` of the activation
(activation_layer.hpp:30-56 with linear_activation_function.hpp:21-24) and of the full layer (fully_connected_layer.hpp:72-132; one record, so nothing is averaged),
and `apply` (fully_connected_layer.hpp:134-157, scalar_divide_tensor_view.hpp:33-38 with a batch of one). -/
def step (rate : F32) (w : Tensor F32) (r : Record) : Option (Tensor F32) :=
  (predict w r.given).bind fun p =>
  (subtract p r.expected).bind fun e =>
  (multiply (map (fun _ => one) p) (map (fun x => two * x) e)).bind fun d =>
  (matmul (transpose r.given) d).bind fun g =>
  FloatUpdate.update 32 rate w (map (fun x => x / one) g)

/-- The records of a training, in the order in which they come. -/
def train (rate : F32) : Tensor F32 → List Record → Option (Tensor F32)
  | w, [] => some w
  | w, r :: rest => (step rate w r).bind fun w => train rate w rest

end Verif.FloatTable
