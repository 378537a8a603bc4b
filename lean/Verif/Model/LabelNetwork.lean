import Verif.Model.Dsl
import Mathlib.Algebra.Order.Floor.Defs
import Mathlib.Data.Rat.Floor

/-!
# The network of a label task (`src/util/task_utils.hpp`, 16-64, 214-336, 444-456)

`build_neural_network_for_label` as the calls with which it describes the network. A layer that is added to another one gets the output shape of that layer as
its input shape (`this->outputShape` in happyml_dsl.hpp:281-344); here these shapes are written down in the calls (`firstShape`).

Simplifications: the arithmetic of `estimate_layer_output_size` is exact, without rounding to `double` and without the limit of `size_t`; learning rates, names
and progress messages are left out; all shapes have three elements, as those of a `BinaryDataSet` do (binary_dataset.hpp, `getGivenShapes`).
-/

namespace Verif.LabelNetwork
open Verif.Enums Verif.Dsl

/-- The arguments of `build_neural_network_for_label` that matter for the layers, 214-223: the shapes of the columns, whether the first given column is an image
(263), the loss, the activation, whether the goal is "memory", and the complexity. -/
structure LabelNet where
  given : List Shape
  expected : List Shape
  image : Bool
  loss : LossType
  act : ActivationType
  memory : Bool
  complexity : ℚ

/-- The values of all columns, 20-43, 51-62. -/
def total (l : List Shape) : Nat := (l.map fun s => s.rows * s.cols * s.chans).sum

/-- `estimate_layer_output_size` for given and expected shapes, task_utils.hpp:45-47. -/
def widthGiven (n : LabelNet) : Nat := min (total n.given) ⌊(total n.expected : ℚ) * (1 / 4 + n.complexity)⌋₊

/-- `estimate_layer_output_size` for expected shapes, 63. -/
def widthExpected (n : LabelNet) (complexity : ℚ) : Nat := ⌊(total n.expected : ℚ) * complexity⌋₊

/-- task_utils.hpp:275-283 and 299-310: the settings of a hidden layer. -/
def tuning (n : LabelNet) : List Setting :=
  [.l2 true, .clip true] ++ (if n.loss = .categoricalCrossEntropy then [.norm true] else []) ++ (if n.memory then [.bits 8, .materialized false] else [])

/-- `add_concatenated_input_layer`, happyml_dsl.hpp:739-754, for several inputs, as the first calls for a network. -/
def joinedInputs (l : List Shape) : List Op :=
  l.map (fun s => .input s ⟨1, wrap (s.rows * s.cols * s.chans), 1⟩ .flatten .linear false) ++ [.concat (List.range' 1 l.length)]

/-- The declared output shape of the concatenation, happyml_dsl.hpp:757-763. -/
def joinedShape (l : List Shape) : Shape := ⟨1, wrap (l.map fun s => wrap (s.rows * s.cols * s.chans)).sum, 1⟩

/-- task_utils.hpp:263: whether the network starts with a convolution. -/
def convolutional (n : LabelNet) : Bool := decide (n.given.length = 1) && n.image

/-- task_utils.hpp:256-274: the calls up to the first hidden layer. `none`: there is no given column (263: undefined
behaviour). -/
def firstOps (n : LabelNet) : Option (List Op) :=
  match n.given with
  | [] => none
  | [g] =>
    if n.image then some [.inputFilters g 1 3 .convolution2dValid n.act false, .set 1 (.bias true)]
    else some [.input g ⟨1, widthGiven n, 1⟩ .full n.act false, .set 1 (.bias true)]
  | l => some (joinedInputs l ++ [.layer (l.length + 1) (joinedShape l) ⟨1, widthGiven n, 1⟩ .full n.act false])

/-- The number of the first hidden layer. -/
def first (n : LabelNet) : Nat := if n.given.length ≤ 1 then 1 else n.given.length + 2

/-- Its output shape; for the convolution happyml_dsl.hpp:164-190. -/
def firstShape (n : LabelNet) : Shape :=
  match n.given with
  | [g] => if n.image then ⟨wrap (g.rows + 2 ^ 64 - 3 + 1), wrap (g.cols + 2 ^ 64 - 3 + 1), 1⟩ else ⟨1, widthGiven n, 1⟩
  | _ => ⟨1, widthGiven n, 1⟩

/-- task_utils.hpp:286-302: the width of the second hidden layer. -/
def secondWidth (n : LabelNet) : Nat := if convolutional n then widthGiven n else widthExpected n n.complexity

/-- task_utils.hpp:313-321: the calls for the additional layer before a softmax. -/
def extraOps (n : LabelNet) : List Op :=
  if n.loss = .categoricalCrossEntropy then
    [.layer (first n + 3) ⟨1, secondWidth n, 1⟩ ⟨1, widthExpected n 1, 1⟩ .full .sigmoid false]
  else []

/-- The layer to which the outputs are added, and its shape. -/
def lastHidden (n : LabelNet) : Nat := if n.loss = .categoricalCrossEntropy then first n + 4 else first n + 3
def lastShape (n : LabelNet) : Shape :=
  if n.loss = .categoricalCrossEntropy then ⟨1, widthExpected n 1, 1⟩ else ⟨1, secondWidth n, 1⟩

/-- task_utils.hpp:313-320. -/
def lastAct (n : LabelNet) : ActivationType := if n.loss = .categoricalCrossEntropy then .softmax else .sigmoid

/-- task_utils.hpp:322-333: the calls for the outputs. -/
def outputOps (n : LabelNet) : List Op :=
  n.expected.zipIdx.flatMap fun (s, i) => [.layer (lastHidden n) (lastShape n) s .full (lastAct n) true, .set (lastHidden n + 1 + i) (.bias true)]

/-- All calls, 249-333. -/
def labelOps (n : LabelNet) : Option (List Op) :=
  (firstOps n).map fun l =>
    l ++ (tuning n).map (.set (first n)) ++
      [.layer (first n) (firstShape n) (firstShape n) .dropout .linear false,
       .layer (first n + 1) (firstShape n) ⟨1, secondWidth n, 1⟩ .full n.act false, .set (first n + 2) (.bias true)] ++
      (tuning n).map (.set (first n + 2)) ++
      [.layer (first n + 2) ⟨1, secondWidth n, 1⟩ ⟨1, secondWidth n, 1⟩ .dropout .linear false] ++ extraOps n ++ outputOps n

/-- The goals that `create_label_task` tells apart. -/
inductive Goal
  | speed | memory | other
  deriving DecidableEq

/-- task_utils.hpp:444-456: the loss of a label task with at least one expected column. -/
def lossFor (goal : Goal) (expected : List Shape) : LossType :=
  if ¬ 1 < expected.length ∧ goal ≠ .speed then
    if expected = [⟨1, 1, 1⟩] then .binaryCrossEntropy else .categoricalCrossEntropy
  else .mse

/-- The description that `create_label_task` builds in one attempt (346, 437-456). -/
def labelNet (given expected : List Shape) (image : Bool) (goal : Goal) (complexity : ℚ) : LabelNet :=
  ⟨given, expected, image, lossFor goal expected, .leaky, decide (goal = .memory), complexity⟩

end Verif.LabelNetwork
