import Verif.Model.Layers
import Verif.Model.Views

/-!
Networks with several inputs that are joined by concatenation: every node has one output, a node has one input, or several if it is a
`ConcatenateWideLayer` (`/repo/src/ml/neural_network_node.hpp`, `/repo/src/ml/layers/concatenate_wide_layer.hpp`,
`/repo/src/ml/neural_network.hpp`). This is what `add_concatenated_input_layer` (happyml_dsl.hpp:739-754) and with it a task with several
given columns builds.

Simplifications: as in `Verif.Model.Layers`; one output node.
-/
namespace Verif.Layers
open Verif Views

mutual
/-- neural_network_node.hpp:302-310: a node and, through `connectionInputs`, all nodes that lead to it. -/
inductive Net where
  /-- What is given to the `i`-th head node; not a node by itself. -/
  | input (i : Nat)
  /-- A node with a single input. -/
  | layer (n : Node) (src : Net)
  /-- A node with a `ConcatenateWideLayer`: the declared numbers of columns (`input_shapes_`), the threshold, if `use_norm_clipping`,
  and the inputs in the order of `connectionInputs`. -/
  | join (widths : List Nat) (clip : Option ℝ) (parts : Parts)
/-- `connectionInputs` -/
inductive Parts where
  | nil
  | cons (t : Net) (rest : Parts)
end

mutual
/-- The number of head nodes. -/
def Net.heads : Net → Nat
  | .input _ => 1
  | .layer _ src => src.heads
  | .join _ _ parts => parts.heads
def Parts.heads : Parts → Nat
  | .nil => 0
  | .cons t rest => t.heads + rest.heads
end

mutual
/-- neural_network_node.hpp:120-168: `doForward` of the head nodes reaches a node when all its inputs are there (`forwardFromConnection`);
seen from the last node, its inputs are computed first. -/
noncomputable def Net.forward : Net → List (Tensor ℝ) → Bool → Option (Tensor ℝ × Net)
  | .input i, given, _ => given[i]?.map fun x => (x, .input i)
  | .layer n src, given, training =>
    (src.forward given training).bind fun s =>
    (n.layer.forward s.1 training).map fun r => (r.1, .layer { n with layer := r.2 } s.2)
  | .join widths clip parts, given, training =>
    (parts.forward given training).bind fun s =>
    (concatForward s.1).map fun y => (y, .join widths clip s.2)
noncomputable def Parts.forward : Parts → List (Tensor ℝ) → Bool → Option (List (Tensor ℝ) × Parts)
  | .nil, _, _ => some ([], .nil)
  | .cons t rest, given, training =>
    (t.forward given training).bind fun s =>
    (rest.forward given training).map fun r => (s.1 :: r.1, .cons s.2 r.2)
end

mutual
/-- neural_network_node.hpp:198-264 `backward`: the layer's errors, clipped if wanted, are sent to the inputs in order. The error of a head
node is not used. -/
noncomputable def Net.backward : Net → Tensor ℝ → Option Net
  | .input i, _ => some (.input i)
  | .layer n src, e =>
    (n.backward e).bind fun r =>
    (src.backward r.1).map fun s => .layer r.2 s
  | .join widths clip parts, e =>
    (concatBackward e widths).bind fun es =>
    (parts.backward (es.map (clipped clip))).map fun p => .join widths clip p
/-- neural_network_node.hpp:221-232: one error for each input, or an exception -/
noncomputable def Parts.backward : Parts → List (Tensor ℝ) → Option Parts
  | .nil, [] => some .nil
  | .cons t rest, e :: es =>
    (t.backward e).bind fun s =>
    (rest.backward es).map fun r => .cons s r
  | _, _ => none
end

mutual
/-- neural_network_node.hpp:186-194 `apply`: the node itself, then its inputs in order -/
noncomputable def Net.apply : Net → Optimizer.Opt ℝ → Option (Net × Optimizer.Opt ℝ)
  | .input i, o => some (.input i, o)
  | .layer n src, o =>
    (n.layer.apply o).bind fun r =>
    (src.apply r.2).map fun s => (.layer { n with layer := r.1 } s.1, s.2)
  | .join widths clip parts, o => (parts.apply o).map fun s => (.join widths clip s.1, s.2)
noncomputable def Parts.apply : Parts → Optimizer.Opt ℝ → Option (Parts × Optimizer.Opt ℝ)
  | .nil, o => some (.nil, o)
  | .cons t rest, o =>
    (t.apply o).bind fun s =>
    (rest.apply s.2).map fun r => (.cons s.1 r.1, r.2)
end

/-- neural_network.hpp:87-101 `predict`, which also reports the network afterwards -/
noncomputable def Net.predicting (t : Net) (given : List (Tensor ℝ)) (training : Bool) : Option (Tensor ℝ × Net) :=
  if given.length ≠ t.heads then none else t.forward given training

/-- neural_network.hpp:463-488: one record of a batch -/
noncomputable def Net.trainRecord (t : Net) (given : List (Tensor ℝ)) (derivative : Tensor ℝ → Option (Tensor ℝ)) : Option Net :=
  (t.predicting given true).bind fun r =>
  (derivative r.1).bind fun e =>
  r.2.backward e

/-- neural_network.hpp:463-493: the records of one batch, then `apply` -/
noncomputable def Net.trainBatch (t : Net) (o : Optimizer.Opt ℝ) (records : List (List (Tensor ℝ) × (Tensor ℝ → Option (Tensor ℝ)))) :
    Option (Net × Optimizer.Opt ℝ) :=
  (records.foldlM (fun t r => Net.trainRecord t r.1 r.2) t).bind fun t => t.apply o

end Verif.Layers
