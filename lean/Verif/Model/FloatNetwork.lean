import Verif.Model.Float32
import Verif.Model.Layers

/-!
Predictions in 32-bit floats: networks in which every node has one input and one output, with full layers, biases, flatten layers and the
activations that need no exponential function. The views are those of `Verif.Views`, with floats in place of real numbers.

Not modelled: the other activations, layers with 8 or 16 bits; `materializeTensor` copies all values (C124).
-/
namespace Verif.FloatNetwork
open Verif Views

/-- The activations with elementary arithmetic. -/
inductive Act
  | relu | leaky | linear
  deriving DecidableEq

/-- The lambdas of `activate`: relu_activation_function.hpp:17-19 (`std::max(a, b)` is `a < b ? b : a`), leaky_relu_activation_function.hpp:15-18
(`0.01f` is the float `0x3C23D70A`), linear_activation_function.hpp:16-19. -/
def Act.value : Act → F32 → F32
  | .relu, x => if F32.lt x 0 then 0 else x
  | .leaky, x => F32.flag (F32.lt x 0) * (⟨0x3C23D70A#32⟩ * x) + F32.flag (F32.ge x 0) * x
  | .linear, x => x

/-- The layers, with their parameters. -/
inductive Layer
  | dense (w : Tensor F32)
  | bias (b : Tensor F32)
  | activation (a : Act)
  | flatten

/-- `forward` in a prediction: fully_connected_layer.hpp:50-69, bias_layer.hpp:44-51, activation_layer.hpp:17-28, flatten_layer.hpp:13-26. -/
def Layer.forward : Layer → Tensor F32 → Option (Tensor F32)
  | .dense w, x => matmul x w
  | .bias b, x => add x b
  | .activation a, x => some (map a.value x)
  | .flatten, x => some (if x.rows = 1 then x else rowFlatten x)

/-- A prediction: neural_network_node.hpp:120-149 from the first node of a chain, neural_network.hpp:87-101. -/
def predict : List Layer → Tensor F32 → Option (Tensor F32)
  | [], x => some x
  | l :: rest, x => (l.forward x).bind (predict rest)

end Verif.FloatNetwork
