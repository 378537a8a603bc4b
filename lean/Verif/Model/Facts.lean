import Verif.Model.Wiring

/-!
What a network reports about itself: `print_model_facts` of /repo/src/ml/neural_network.hpp 366-370, for a network that a builder has built.
-/
namespace Verif.Facts
open Verif Verif.Dsl Verif.Wiring

/-- `size` of a tensor, base_tensors.hpp:188-190, in 64 bits. -/
def size {F : Type} (t : Tensor F) : Nat := wrap (t.rows * t.cols * t.chans)

/-- `get_parameter_count` of a layer: base_layer.hpp:46-48, fully_connected_layer.hpp:163-165, bias_layer.hpp:90-92, convolution_2d_valid_layer.hpp:184-190. -/
def parameters : Part → Nat
  | .full l => size l.weights
  | .bias b => size b.bias
  | .convolution l => (l.weights.map size).sum
  | _ => 0

/-- `is_trainable` of a layer: base_layer.hpp:42-44, fully_connected_layer.hpp:159-161, bias_layer.hpp:86-88, convolution_2d_valid_layer.hpp:180-182. -/
def trainable : Part → Bool
  | .full _ => true
  | .bias _ => true
  | .convolution _ => true
  | _ => false

/-- The layers of vertex `v`. -/
noncomputable def layers (d : Dsl) (p : Nat → Params) (v : Nat) : Option (List Part) := (vertexAt d v).bind fun x => parts (p v) x.1

/-- `get_total_parameters` and `get_total_trainable_layers`, neural_network.hpp:348-364, which `print_model_facts` (366-370) prints; `none`: there is no such network, as `build`
throws. Vertices stand for the chains of their layers (see `Model/Wiring.lean`): whoever visits the first layer of a chain visits all of it (neural_network_node.hpp:89-116). Sums
of `size_t` are reduced at the end instead of after every addition. -/
noncomputable def facts (d : Dsl) (p : Nat → Params) : Option (Nat × Nat) :=
  (wires d).bind fun w =>
    if w.seen.any fun v => (layers d p v).isNone then none
    else
      (Graph.total w.conns (fun v => (((layers d p v).getD []).map parameters).sum) (d.length + 1) (heads d)).bind fun n =>
        (Graph.total w.conns (fun v => ((layers d p v).getD []).countP trainable) (d.length + 1) (heads d)).map fun t => (wrap n.1, wrap t.1)

end Verif.Facts
