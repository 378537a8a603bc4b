import Verif.Model.FloatNetwork
import Verif.Model.Materialize

/-!
Networks whose parameters are stored with 32, 16 or 8 bits. After every step of the training a full layer and a bias keep
`materializeTensor(adjusted, bits)`, with `bits` of the layer; the other layers have no parameters.

Simplifications: networks in which every node has one input and one output; the layers are those of `Verif.Layers` (no convolution).
-/
namespace Verif.Precision
open Verif

/-- The layers, with parameters that are floats. -/
inductive Part
  | dense (w : Tensor F32)
  | bias (b : Tensor F32)
  | activation (k : Activation.Kind)
  | flatten

/-- tensor_utils.hpp:70-84 `materializeTensor` of a tensor that is a view. -/
def keep (bits : Nat) (t : Tensor F32) : Tensor F32 :=
  let s := Materialize.materialize false ⟨t.rows, t.cols, t.chans, fun r c k => (t.get r c k).bits⟩ bits
  ⟨s.rows, s.cols, s.chans, fun r c k => ⟨s.get r c k⟩⟩

/-- What a layer keeps: fully_connected_layer.hpp:156, bias_layer.hpp:83. -/
def Part.keep (bits : Nat) : Part → Part
  | .dense w => .dense (Precision.keep bits w)
  | .bias b => .bias (Precision.keep bits b)
  | p => p

/-- The layers whose predictions are modelled in floats. -/
def Part.ofLayer : FloatNetwork.Layer → Part
  | .dense w => .dense w
  | .bias b => .bias b
  | .activation .relu => .activation .relu
  | .activation .leaky => .activation .leaky
  | .activation .linear => .activation .linear
  | .flatten => .flatten

/-- `Part.keep` for those layers. -/
def keepLayer (bits : Nat) : FloatNetwork.Layer → FloatNetwork.Layer
  | .dense w => .dense (keep bits w)
  | .bias b => .bias (keep bits b)
  | l => l

end Verif.Precision
