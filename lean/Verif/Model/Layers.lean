import Verif.Model.Activation
import Verif.Model.Optimizer

/-!
The layers with parameters, the activation layer and the flatten layer (`/repo/src/ml/layers/*.hpp`), networks in which every node has
one input and one output (`/repo/src/ml/neural_network_node.hpp`), and the treatment of one batch by `train`
(`/repo/src/ml/neural_network.hpp`).

Simplifications: exact real arithmetic; `materializeTensor` keeps all values (32 bit tensors, C01 and C30 treat the narrower ones);
a call that throws has no result (`none`), so the state in which it leaves the layers is not modelled.
-/
namespace Verif.Layers
open Verif Views

/-- fully_connected_layer.hpp:167-177: the fields that change or matter for the values. `strength`: `regularization_strength`, if
`use_l2_regularization`. The queues are lists, oldest first. -/
structure Dense (F : Type) where
  weights : Tensor F
  id : Nat
  strength : Option F
  inputs : List (Tensor F)
  errors : List (Tensor F)

/-- bias_layer.hpp:94-101 -/
structure Bias (F : Type) where
  bias : Tensor F
  id : Nat
  errors : List (Tensor F)

section
variable {F : Type} [Field F]

/-- The loops that empty a queue into a sum: fully_connected_layer.hpp:78-86 and 142-148, bias_layer.hpp:72-77. `none`: the queue is
empty (the callers throw) or two shapes differ. -/
def drain : List (Tensor F) → Option (Tensor F)
  | [] => none
  | x :: rest => rest.foldlM (fun acc y => add acc y) x

/-- fully_connected_layer.hpp:74-89: the average of the queued inputs; a single one is taken as it is. -/
def averageInputs : List (Tensor F) → Option (Tensor F)
  | [x] => some x
  | q => (drain q).map fun s => map (fun v => v / (q.length : F)) s

/-- fully_connected_layer.hpp:137-151, bias_layer.hpp:68-78: the average of the queued errors. -/
def averageErrors (q : List (Tensor F)) : Option (Tensor F) := (drain q).map fun s => map (fun v => v / (q.length : F)) s

/-- fully_connected_layer.hpp:50-69 `forward` with a single input -/
def Dense.forward (d : Dense F) (x : Tensor F) (training : Bool) : Option (Tensor F × Dense F) :=
  (matmul x d.weights).map fun y => (y, if training then { d with inputs := d.inputs ++ [x] } else d)

/-- fully_connected_layer.hpp:104-128: the L2 term -/
def Dense.regularise (d : Dense F) (weightsError : Tensor F) : Option (Tensor F) :=
  match d.strength with
  | none => some weightsError
  | some s => add weightsError (map (fun v => v * s) d.weights)

/-- fully_connected_layer.hpp:72-132 `backward` -/
def Dense.backward (d : Dense F) (e : Tensor F) : Option (Tensor F × Dense F) :=
  (averageInputs d.inputs).bind fun x =>
  (matmul e (transpose d.weights)).bind fun inputError =>
  (matmul (transpose x) e).bind fun weightsError =>
  (d.regularise weightsError).map fun weightsError =>
  (inputError, { d with inputs := [], errors := d.errors ++ [weightsError] })

/-- fully_connected_layer.hpp:134-157 `apply` -/
def Dense.apply [LinearOrder F] (d : Dense F) (sqrt : F → F) (o : Optimizer.Opt F) : Option (Dense F × Optimizer.Opt F) :=
  (averageErrors d.errors).bind fun g =>
  (Optimizer.calculateWeightsChange o sqrt d.id d.weights g).map fun r => ({ d with weights := r.1, errors := [] }, r.2)

/-- bias_layer.hpp:44-51 `forward` with a single input -/
def Bias.forward (b : Bias F) (x : Tensor F) : Option (Tensor F) := add x b.bias

/-- bias_layer.hpp:54-63 `backward` -/
def Bias.backward (b : Bias F) (e : Tensor F) : Tensor F × Bias F := (e, { b with errors := b.errors ++ [e] })

/-- bias_layer.hpp:65-84 `apply` -/
def Bias.apply [LinearOrder F] (b : Bias F) (sqrt : F → F) (o : Optimizer.Opt F) : Option (Bias F × Optimizer.Opt F) :=
  (averageErrors b.errors).bind fun g =>
  (Optimizer.calculateBiasChange o sqrt b.id b.bias g).map fun r => ({ b with bias := r.1, errors := [] }, r.2)

/-- flatten_layer.hpp:13-26 `forward` with a single input; the layer keeps the rows and columns of its last input. -/
def flattenForward (x : Tensor F) : Tensor F := if x.rows = 1 then x else rowFlatten x

/-- flatten_layer.hpp:28-35 `backward` -/
def flattenBackward (rows cols : Nat) (e : Tensor F) : Option (Tensor F) :=
  if rows = e.rows ∧ cols = e.cols then some e else reshape e rows cols

end

/-- The layers of a network. `activation` keeps its queue of inputs, `flatten` the rows and columns of its last input. -/
inductive Layer where
  | dense (d : Dense ℝ)
  | bias (b : Bias ℝ)
  | activation (k : Activation.Kind) (inputs : List (Tensor ℝ))
  | flatten (rows cols : Nat)

/-- neural_network_node.hpp:302-310: the layer and the threshold, if `use_norm_clipping`. -/
structure Node where
  layer : Layer
  clip : Option ℝ

/-- `forward` of the layers; activation_layer.hpp:17-28 for activations. -/
noncomputable def Layer.forward (l : Layer) (x : Tensor ℝ) (training : Bool) : Option (Tensor ℝ × Layer) :=
  match l with
  | .dense d => (d.forward x training).map fun r => (r.1, .dense r.2)
  | .bias b => (b.forward x).map fun y => (y, .bias b)
  | .activation k q => some (Activation.activate k x, .activation k (if training then q ++ [x] else q))
  | .flatten _ _ => some (flattenForward x, .flatten x.rows x.cols)

/-- `backward` of the layers; activation_layer.hpp:30-56 for activations. -/
noncomputable def Layer.backward (l : Layer) (e : Tensor ℝ) : Option (Tensor ℝ × Layer) :=
  match l with
  | .dense d => (d.backward e).map fun r => (r.1, .dense r.2)
  | .bias b => some ((b.backward e).1, .bias (b.backward e).2)
  | .activation k q => (Activation.backward (Activation.derivative k) q e).map fun g => (g, .activation k [])
  | .flatten r c => (flattenBackward r c e).map fun g => (g, .flatten r c)

/-- `apply` of the layers; base_layer.hpp:30-32 for those without parameters. -/
noncomputable def Layer.apply (l : Layer) (o : Optimizer.Opt ℝ) : Option (Layer × Optimizer.Opt ℝ) :=
  match l with
  | .dense d => (d.apply Real.sqrt o).map fun r => (.dense r.1, r.2)
  | .bias b => (b.apply Real.sqrt o).map fun r => (.bias r.1, r.2)
  | l => some (l, o)

/-- neural_network_node.hpp:120-149 `doForward` from the first node of a chain -/
noncomputable def forwardAll : List Node → Tensor ℝ → Bool → Option (Tensor ℝ × List Node)
  | [], x, _ => some (x, [])
  | n :: rest, x, training =>
    (n.layer.forward x training).bind fun r =>
    (forwardAll rest r.1 training).map fun s => (s.1, { n with layer := r.2 } :: s.2)

/-- neural_network_node.hpp:208-210: clipping, if wanted -/
noncomputable def clipped (clip : Option ℝ) (t : Tensor ℝ) : Tensor ℝ :=
  match clip with
  | none => t
  | some threshold => Statistics.clip Real.sqrt threshold t

/-- neural_network_node.hpp:198-264 `backward` of one node: the layer's errors, clipped if wanted -/
noncomputable def Node.backward (n : Node) (e : Tensor ℝ) : Option (Tensor ℝ × Node) :=
  (n.layer.backward e).map fun r => (clipped n.clip r.1, { n with layer := r.2 })

/-- neural_network_node.hpp:198-264 `backward` from the last node of a chain -/
noncomputable def backwardAll : List Node → Tensor ℝ → Option (Tensor ℝ × List Node)
  | [], e => some (e, [])
  | n :: rest, e =>
    (backwardAll rest e).bind fun s =>
    (n.backward s.1).map fun r => (r.1, r.2 :: s.2)

/-- neural_network_node.hpp:186-194 `apply` from the last node of a chain -/
noncomputable def applyAll : List Node → Optimizer.Opt ℝ → Option (List Node × Optimizer.Opt ℝ)
  | [], o => some ([], o)
  | n :: rest, o =>
    (applyAll rest o).bind fun s =>
    (n.layer.apply s.2).map fun r => ({ n with layer := r.1 } :: s.1, r.2)

/-- neural_network.hpp:87-101 `predict` without training, for a chain; no layer but `flatten` changes. -/
noncomputable def predict (ns : List Node) (x : Tensor ℝ) : Option (Tensor ℝ) := (forwardAll ns x false).map (·.1)

/-- neural_network.hpp:463-488: one record of a batch. `derivative` is `compute_loss_derivative` with the record's truth, as a function of
the prediction. -/
noncomputable def trainRecord (ns : List Node) (x : Tensor ℝ) (derivative : Tensor ℝ → Option (Tensor ℝ)) : Option (List Node) :=
  (forwardAll ns x true).bind fun r =>
  (derivative r.1).bind fun e =>
  (backwardAll r.2 e).map (·.2)

/-- neural_network.hpp:463-493: the records of one batch, then `apply`. -/
noncomputable def trainBatch (ns : List Node) (o : Optimizer.Opt ℝ) (records : List (Tensor ℝ × (Tensor ℝ → Option (Tensor ℝ)))) :
    Option (List Node × Optimizer.Opt ℝ) :=
  (records.foldlM (fun ns r => trainRecord ns r.1 r.2) ns).bind fun ns => applyAll ns o

end Verif.Layers
