import Verif.Model.Layers

/-!
The network of a linear model: one full layer with the linear activation, for inputs of one row.
-/
namespace Verif.Regression
open Verif Layers

/-- happyml_dsl.hpp:419-511, `buildLayer` for a single `full` layer with the `linear` activation, without normalization and norm clipping:
the fully connected layer, the bias layer if `use_bias`, the activation layer. `s` is the strength of the L2 regularization, if used. No flatten
layer is added as the input has one row. -/
def line (wid bid : Nat) (s : Option ℝ) (useBias : Bool) (w b : Tensor ℝ) : List Node :=
  ⟨.dense ⟨w, wid, s, [], []⟩, none⟩ ::
    if useBias then [⟨.bias ⟨b, bid, []⟩, none⟩, ⟨.activation .linear [], none⟩] else [⟨.activation .linear [], none⟩]

end Verif.Regression
