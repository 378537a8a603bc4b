import Verif.Model.LabelNetwork
import Verif.Model.Float32

/-!
# The networks of the hyperparameter search (`src/ml/hyperband/configuration_evaluator.hpp`, 110-210, 264-278)

`buildModel` as the calls with which it describes the network for one configuration. A layer that is added to another one gets the output shape of that layer as
its input shape (`this->outputShape` in happyml_dsl.hpp:281-344); here these shapes are written down in the calls.

Simplifications: learning rates, the loss function as such, the optimizer, names and folders are left out; all shapes have three elements, as those of a
`BinaryDataSet` do (binary_dataset.hpp, `getGivenShapes`); the thresholds 1e-8, 1e-7 and 0.2, which are `double` constants, are taken as the decimal numbers (no
`float` lies between these and the nearest `double`).
-/

namespace Verif.SearchNetwork
open Verif Verif.Enums Verif.Dsl Verif.LabelNetwork

/-- `Hyperparameters`, hyperband_space.hpp:16-31, as far as `buildModel` uses them for the layers. -/
structure Config where
  depth : Nat
  width : F32
  dropout : F32
  l2 : F32
  norm : Bool
  bias : Bool
  hiddenBias : Bool
  clip : Bool
  bits : Nat

/-- What the data set and the evaluator tell: the shapes of the columns, whether the first given column is an image (configuration_evaluator.hpp:155-157), and the loss. -/
structure Task where
  given : List Shape
  expected : List Shape
  image : Bool
  loss : LossType

/-- `(float) n` for a `size_t`. -/
def floatOf (n : Nat) : F32 := F32.rounded false (n * 2 ^ 149) 1

/-- `(size_t) f` for a float that is not negative; numbers that a `size_t` cannot hold are not cut off here. -/
def sizeOf (f : F32) : Nat := F32.units f / 2 ^ 149

/-- `(size_t) ((float) total * complexity_width)`, configuration_evaluator.hpp:136 and 150. -/
def scaled (c : Config) (total : Nat) : Nat := sizeOf (floatOf total * c.width)

/-- configuration_evaluator.hpp:136: the width of the hidden layers. -/
def wide (c : Config) (t : Task) : Nat := scaled c (total t.given)

/-- configuration_evaluator.hpp:137: the number of filters. -/
def filters (c : Config) : Nat := sizeOf c.width

/-- configuration_evaluator.hpp:150: the width of the layer before a softmax. -/
def wideExpected (c : Config) (t : Task) : Nat := scaled c (total t.expected)

/-- `f > 1e-8`, configuration_evaluator.hpp:174, and `f > 1e-7`, 269, for a number that is not negative. -/
def over (f : F32) (oneIn : Nat) : Bool := decide (2 ^ 149 < F32.units f * oneIn)

/-- `f >= 0.2`, configuration_evaluator.hpp:188. -/
def fifth (f : F32) : Bool := decide (2 ^ 149 ≤ F32.units f * 5)

/-- `0.2f` -/
def fifthF : F32 := ⟨0x3E4CCCCD#32⟩

/-- `apply_layer_settings`, configuration_evaluator.hpp:264-278. -/
def layerSettings (c : Config) (force32 : Bool) : List Setting :=
  (if force32 = false ∧ c.bits ≠ 32 then [.bits c.bits, .materialized false] else []) ++ [.bias c.hiddenBias] ++
    (if over c.l2 (10 ^ 7) then [.l2 true, .strength c.l2.bits] else [.l2 false]) ++ [.clip c.clip, .norm c.norm]

/-- configuration_evaluator.hpp:151-157: whether the network is convolutional. -/
def cnn (t : Task) : Bool := decide (t.given.length = 1) && t.image

/-- The output shape of a convolution, happyml_dsl.hpp:164-190. -/
def convolved (s : Shape) (filters : Nat) : Shape := ⟨wrap (s.rows + 2 ^ 64 - 3 + 1), wrap (s.cols + 2 ^ 64 - 3 + 1), filters⟩

/-- configuration_evaluator.hpp:153-172: the calls for the first hidden layer, with its number and its shape. -/
def firstLayer (c : Config) (t : Task) : List Op × Nat × Shape :=
  match t.given with
  | [g] =>
    if t.image then ([.inputFilters g (filters c) 3 .convolution2dValid .relu false], 1, convolved g (filters c))
    else ([.input g ⟨1, wide c t, 1⟩ .full .relu false], 1, ⟨1, wide c t, 1⟩)
  | l => (joinedInputs l ++ [.layer (l.length + 1) (joinedShape l) ⟨1, wide c t, 1⟩ .full .relu false], l.length + 2, ⟨1, wide c t, 1⟩)

/-- The shape of a further hidden layer, configuration_evaluator.hpp:180-186. -/
def nextShape (c : Config) (t : Task) (s : Shape) : Shape := if cnn t then convolved s (filters c) else ⟨1, wide c t, 1⟩

/-- The call for a further hidden layer, configuration_evaluator.hpp:180-186. -/
def nextLayer (c : Config) (t : Task) (last : Nat) (s : Shape) : Op :=
  if cnn t then .layerFilters last (filters c) 3 .convolution2dValid .relu false else .layer last s ⟨1, wide c t, 1⟩ .full .relu false

/-- configuration_evaluator.hpp:178-192: the loop over the hidden layers; `rate` is `diminishing_dropout_rate`. `addDropoutLayer` does not use the rate it is given
(happyml_dsl.hpp:336-344). Returns the calls, the number of the last layer and its shape. -/
def hiddenLayers (c : Config) (t : Task) : Nat → Nat → Shape → F32 → List Op × Nat × Shape
  | 0, last, s, _ => ([], last, s)
  | k + 1, last, s, rate =>
    let s' := nextShape c t s
    let here := nextLayer c t last s :: (layerSettings c false).map (.set (last + 1))
    if fifth rate then
      let (ops, l, z) := hiddenLayers c t k (last + 2) s' (rate * fifthF)
      (here ++ [.layer (last + 1) s' s' .dropout .linear false] ++ ops, l, z)
    else
      let (ops, l, z) := hiddenLayers c t k (last + 1) s' rate
      (here ++ ops, l, z)

/-- configuration_evaluator.hpp:195-198 and 200: the activation of the outputs. -/
def lastAct (t : Task) : ActivationType := if t.loss = .categoricalCrossEntropy then .softmax else .sigmoid

/-- configuration_evaluator.hpp:173-177: the dropout layer behind the first hidden layer, the number of the last layer and `diminishing_dropout_rate`. -/
def firstDropout (positive : Bool) (rate : F32) (n : Nat) (s : Shape) : List Op × Nat × F32 :=
  if positive then ([.layer n s s .dropout .linear false], n + 1, rate * fifthF) else ([], n, rate)

/-- configuration_evaluator.hpp:194-198: the layer before a softmax, the number of the last layer and its shape. -/
def extraLayer (c : Config) (t : Task) (n : Nat) (s : Shape) : List Op × Nat × Shape :=
  if t.loss = .categoricalCrossEntropy then ([.layer n s ⟨1, wideExpected c t, 1⟩ .full .sigmoid false], n + 1, ⟨1, wideExpected c t, 1⟩) else ([], n, s)

/-- configuration_evaluator.hpp:202-208: the outputs, added to layer `n` of shape `z`. -/
def outputLayers (c : Config) (t : Task) (n : Nat) (z : Shape) : List Op :=
  t.expected.zipIdx.flatMap fun (s, i) => [.layer n z s .full (lastAct t) true, .set (n + 1 + i) (.bias c.bias)]

/-- configuration_evaluator.hpp:110-208: all calls. -/
def searchOps (c : Config) (t : Task) : List Op :=
  let a := firstLayer c t
  let b := firstDropout (over c.dropout (10 ^ 8)) c.dropout a.2.1 a.2.2
  let h := hiddenLayers c t c.depth b.2.1 a.2.2 b.2.2
  let e := extraLayer c t h.2.1 h.2.2
  a.1 ++ (layerSettings c true).map (.set a.2.1) ++ b.1 ++ h.1 ++ e.1 ++ outputLayers c t e.2.1 e.2.2

/-! ### The values that are searched, hyperband_space.hpp:67-86 -/

def depths : List Nat := [3, 2, 1, 5, 7, 10, 20, 30]

def widths : List F32 :=
  [0x3F800000#32, 0x40000000#32, 0x40A00000#32, 0x41200000#32, 0x40E00000#32, 0x40400000#32, 0x3FD9999A#32, 0x3FC00000#32, 0x3FB33333#32, 0x3FA66666#32,
    0x3F99999A#32, 0x3F8CCCCD#32, 0x41A00000#32, 0x41F00000#32].map F32.mk

def dropouts : List F32 := [0x3F4CCCCD#32, 0x3F000000#32, 0x00000000#32, 0x3F333333#32, 0x3F19999A#32, 0x3ECCCCCD#32, 0x3E99999A#32].map F32.mk

def strengths : List F32 :=
  [0x3CA3D70A#32, 0x3C75C28F#32, 0x3C23D70A#32, 0x00000000#32, 0x3BA3D70A#32, 0x3A83126F#32, 0x38D1B717#32, 0x3D4CCCCD#32, 0x3D23D70A#32, 0x3D0F5C29#32,
    0x3CF5C28F#32, 0x3CCCCCCD#32, 0x3DCCCCCD#32, 0x3E4CCCCD#32].map F32.mk

/-- The configurations that `internal_random_config`, hyperband_random_search.hpp:76-91, can draw. -/
def InSpace (c : Config) : Prop := c.depth ∈ depths ∧ c.width ∈ widths ∧ c.dropout ∈ dropouts ∧ c.l2 ∈ strengths

end Verif.SearchNetwork
