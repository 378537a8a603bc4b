import Verif.Model.Dsl
import Verif.Model.Graph
import Verif.Model.Convolution

/-!
# From the description of a network to connected layers (`src/ml/happyml_dsl.hpp`, `build` and `buildLayer`)

The layers that are built for one vertex form a chain (every one is added to the one before, `appendNode`, 562-570), so that a vertex stands for its chain here:
the connections are those between the last layer of one vertex and the first layer of another.

Simplifications: exact real arithmetic; weights and biases are parameters, as are the values that a normalization layer computes (`Model/NormLayers.lean` has
them; its view has the shape of its child) and the factor by which a dropout layer multiplies predictions; `materializeTensor` keeps all values. A dropout rate
outside of [0, 1], for which the constructor throws, is not modelled here.
-/

namespace Verif.Wiring
open Verif Verif.Dsl Verif.Enums Verif.Views Verif.Layers

/-! ### Connections -/

/-- The vertices built so far (oldest first), the connections in the order in which they were made, and the outputs of the network in their order. -/
structure Wires where
  seen : List Nat
  conns : Graph.Connections
  outs : List Nat

/-- A vertex of this kind ends in an activation layer and can be an output, 502-515. -/
def givesOutput (x : Vertex) : Bool := x.weighted && x.output

/-- `buildLayer`, 382-527, as far as connections and outputs are concerned. A vertex that has been built is not built again (384-387); its output is registered
(511-513) before its children are built; the connection to a child is made after that child, and everything below it, has been built (518-522). `fuel` bounds
the depth of the recursion; `none`: it ran out. -/
def wire (d : Dsl) : Nat → Nat → Wires → Option Wires
  | 0, _, _ => none
  | fuel + 1, v, s =>
    if v ∈ s.seen then some s
    else
      match vertexAt d v with
      | none => none
      | some (x, _) =>
        (children d v).foldlM (fun s c => (wire d fuel c s).map fun s => { s with conns := s.conns ++ [(v, c)] })
          ⟨s.seen ++ [v], s.conns, if givesOutput x then s.outs ++ [v] else s.outs⟩

/-- `build`, 113-115: the loop over the inputs. -/
def wires (d : Dsl) : Option Wires := (heads d).foldlM (fun s v => wire d (d.length + 1) v s) ⟨[], [], []⟩

/-! ### Layers -/

/-- The numbers in the layers of a vertex. -/
structure Params where
  weight : Nat → Nat → ℝ
  kernel : Nat → Nat → Nat → Nat → ℝ
  bias : Nat → Nat → Nat → ℝ
  normalized : Tensor ℝ → Nat → Nat → Nat → ℝ
  scale : ℝ

/-- The layers of a vertex. -/
inductive Part where
  | flatten
  | full (l : Dense ℝ)
  | concatenate
  | normalize (f : Tensor ℝ → Nat → Nat → Nat → ℝ)
  | dropout (scale : ℝ)
  | convolution (l : Conv ℝ)
  | bias (b : Bias ℝ)
  | activation (a : ActivationType)

/-- `size()` of a shape in `size_t`, e.g. 427-432. -/
def wrapped (s : Shape) : Nat := wrap (s.rows * s.cols * s.chans)

/-- 419-424, 455-460: a flatten layer before a full or dropout layer whose declared input has several rows. -/
def flattenFirst (i : Shape) : List Part := if 1 < i.rows then [.flatten] else []

/-- 419-479: the layers for the kind of the vertex. `none`: the constructor of the concatenation throws, or the declared input is missing. The weights of a
full layer are a matrix (fully_connected_layer.hpp:17-29), those of a convolution one kernel for every filter (convolution_2d_valid_layer.hpp:18-35). -/
def mainParts (p : Params) (x : Vertex) : Option (List Part) :=
  match x.kind with
  | .full => x.inShapes.head?.map fun i =>
      flattenFirst i ++ [.full ⟨⟨wrapped i, wrapped x.outShape, 1, fun r c _ => p.weight r c⟩, 0, none, [], []⟩]
  | .concatenate => (concatShape (x.inShapes.map fun s => (s.rows, s.cols, s.chans))).map fun _ => [.concatenate]
  | .flatten => some [.flatten]
  | .normalize => some [.normalize p.normalized]
  | .dropout => x.inShapes.head?.map fun i => flattenFirst i ++ [.dropout p.scale]
  | .convolution2dValid => x.inShapes.head?.map fun i =>
      [.convolution ⟨(List.range x.filters).map fun f => ⟨x.kernel, x.kernel, i.chans, p.kernel f⟩, i.rows, i.cols, i.chans, 0, none, [], []⟩]

/-- 419-515: all layers of a vertex, in order. -/
def parts (p : Params) (x : Vertex) : Option (List Part) :=
  (mainParts p x).map fun l =>
    l ++ (if x.bias then [.bias ⟨⟨x.outShape.rows, x.outShape.cols, x.outShape.chans, p.bias⟩, 0, []⟩] else []) ++
      (if x.norm then [.normalize p.normalized] else []) ++ (if x.weighted then [.activation x.act] else [])

/-- `createActivationFunction`, 529-560, and `activate` of the functions. -/
noncomputable def activated : ActivationType → Tensor ℝ → Tensor ℝ
  | .relu => Activation.activate .relu
  | .tanhDefault => Activation.activate .tanh
  | .sigmoid => Activation.activate .sigmoid
  | .leaky => Activation.activate .leaky
  | .softmax => Activation.softmax
  | .sigmoidApprox => Activation.activate .sigmoidApprox
  | .tanhApprox => Activation.activate .tanhApprox
  | .linear => Activation.activate .linear

/-- `forward` of the layers in a prediction; `none`: an exception. All but the concatenation take one input: flatten_layer.hpp:13-26,
fully_connected_layer.hpp:50-69, concatenate_wide_layer.hpp:43-57, normalization_layer.hpp:23-43, dropout_layer.hpp:23-39,
convolution_2d_valid_layer.hpp:55-101, bias_layer.hpp:44-51, activation_layer.hpp:17-28. (The dropout layer ignores further inputs; no vertex of that kind
has several.) -/
noncomputable def Part.forward : Part → List (Tensor ℝ) → Option (Tensor ℝ)
  | .flatten, [x] => some (flattenForward x)
  | .full l, [x] => (l.forward x false).map (·.1)
  | .concatenate, xs => concatForward xs
  | .normalize f, [x] => some ⟨x.rows, x.cols, x.chans, f x⟩
  | .dropout s, [x] => some (map (fun v => v * s) x)
  | .convolution l, [x] => (l.forward x false).map (·.1)
  | .bias b, [x] => b.forward x
  | .activation a, [x] => some (activated a x)
  | _, _ => none

/-- A chain of layers, neural_network_node.hpp:120-149 for nodes with one consumer. -/
noncomputable def chain : List Part → List (Tensor ℝ) → Option (Tensor ℝ)
  | [], _ => none
  | [a], ins => a.forward ins
  | a :: rest, ins => (a.forward ins).bind fun y => chain rest [y]

/-- What vertex `v` computes from the results of the vertices before it; `none`: an exception, also one that was thrown before. -/
noncomputable def vertexLayer (d : Dsl) (p : Nat → Params) (v : Nat) (ins : List (Option (Tensor ℝ))) : Option (Tensor ℝ) :=
  (vertexAt d v).bind fun x => (parts (p v) x.1).bind fun l => (ins.mapM id).bind fun ins => chain l ins

/-- `predict`, neural_network.hpp:87-101, of the network that is built from a description. The outer `none`: the number of inputs is wrong. In the list
of results, `none` is an output that was never computed (a null pointer is used), `some none` an exception. -/
noncomputable def predict (d : Dsl) (p : Nat → Params) (given : List (Tensor ℝ)) : Option (List (Option (Option (Tensor ℝ)))) :=
  (wires d).bind fun w =>
    (Graph.predict w.conns (vertexLayer d p) (d.length + 1) (heads d) w.outs (given.map some) ⟨fun _ => none, fun _ => none, []⟩).map (·.1)

/-- The error of a concatenation on its way back: concatenate_wide_layer.hpp:59-73 cuts it into parts by the declared inputs, neural_network_node.hpp:219-257
hands the first part to the layer of the first connection, and so on; line 220 throws if the numbers differ. -/
noncomputable def errorParts (w : Wires) (c : Nat) (x : Vertex) (e : Tensor ℝ) : Option (List (Nat × Tensor ℝ)) :=
  (concatBackward e (x.inShapes.map Shape.cols)).bind fun ps =>
    if ps.length ≠ (Graph.inputs w.conns c).length then none else some (((Graph.inputs w.conns c).map (Graph.src w.conns)).zip ps)

end Verif.Wiring
