import Verif.Model.SearchNetwork
import Verif.Model.Hyperband
import Verif.Model.Decimal
import Mathlib.Algebra.Field.Defs

/-!
Drawing a configuration for the search of networks: `Hyperparameters::as_string` and `HyperparameterSpace` (/repo/src/ml/hyperband/hyperband_space.hpp 33-49, 64-86) and
`HyperBandRandomSearch` (/repo/src/ml/hyperband/hyperband_random_search.hpp 12-100). In `Verif.Model.Hyperband` configurations are compared directly; here by their text, as in the
code. Simplification: the weights are exact numbers.
-/
namespace Verif.SearchDraw
open Verif
open Verif.TextCodec (Str)

/-- `Hyperparameters`, hyperband_space.hpp:16-29, without the results of the evaluation. -/
structure Params where
  learningRate : F32
  biasLearningRate : F32
  depth : Nat
  width : F32
  dropout : F32
  l2 : F32
  batchSize : Nat
  normalization : Bool
  bias : Bool
  hiddenBias : Bool
  clipping : Bool
  bits : Nat
  deriving DecidableEq

/-- `stream << std::fixed << std::setprecision(8) << x` for a finite float. -/
def fixed8 (x : F32) : Str :=
  let n := Decimal.nearest (FloatBits.magUnits (FloatBits.expo x.bits) (FloatBits.frac x.bits) * 10 ^ 8) (2 ^ 149)
  (if FloatBits.neg x.bits then [45] else []) ++ Decimal.dec (n / 10 ^ 8) ++ 46 :: Decimal.padded 8 (n % 10 ^ 8)

/-- `stream << b` -/
def digit (b : Bool) : Str := if b then [49] else [48]

/-- The bytes of a text literal. -/
def bytes (s : String) : Str := s.toList.map fun c => UInt8.ofNat c.toNat

/-- The names and values of hyperband_space.hpp:36-47, in order. -/
def fields (p : Params) : List (Str × Str) :=
  [(bytes "bits: ", Decimal.dec p.bits), (bytes "learning_rate: ", fixed8 p.learningRate), (bytes "bias_learning_rate: ", fixed8 p.biasLearningRate),
    (bytes "complexity_depth: ", Decimal.dec p.depth), (bytes "complexity_width: ", fixed8 p.width), (bytes "dropout_rate: ", fixed8 p.dropout),
    (bytes "l2_regularization_strength: ", fixed8 p.l2), (bytes "batch_size: ", Decimal.dec p.batchSize), (bytes "use_normalization_layers: ", digit p.normalization),
    (bytes "use_bias: ", digit p.bias), (bytes "use_hidden_bias: ", digit p.hiddenBias), (bytes "use_normal_clipping: ", digit p.clipping)]

/-- Names and values one after the other, with commas between. -/
def joined : List (Str × Str) → Str
  | [] => []
  | [f] => f.1 ++ f.2
  | f :: g :: fs => f.1 ++ f.2 ++ [44, 32] ++ joined (g :: fs)

/-- `as_string`, hyperband_space.hpp:33-49. -/
def asString (p : Params) : Str := joined (fields p)

/-! ### The space, hyperband_space.hpp:66-86 -/

def learningRates : List F32 := [0x3A83126F#32, 0x3A378034#32, 0x3A03126F#32, 0x399D4952#32, 0x38D1B717#32, 0x3892CCF7#32, 0x3851B717#32, 0x37FBA882#32, 0x3BA3D70A#32, 0x3C23D70A#32, 0x3B449BA6#32].map F32.mk

def biasLearningRates : List F32 := [0x38D1B717#32, 0x3892CCF7#32, 0x3851B717#32, 0x37FBA882#32, 0x3A83126F#32, 0x3A378034#32, 0x3A03126F#32, 0x399D4952#32, 0x3C23D70A#32, 0x3BA3D70A#32, 0x3B449BA6#32].map F32.mk

/-- What `internal_random_config` (hyperband_random_search.hpp:76-91) can return. -/
def InSpace (maxBatch : Int) (bits : Nat) (p : Params) : Prop :=
  p.learningRate ∈ learningRates ∧ p.biasLearningRate ∈ biasLearningRates ∧ p.depth ∈ SearchNetwork.depths ∧ p.width ∈ SearchNetwork.widths ∧ p.dropout ∈ SearchNetwork.dropouts ∧
    p.l2 ∈ SearchNetwork.strengths ∧ (p.batchSize : Int) ∈ Hyperband.batchSizes maxBatch ∧ p.bits = bits

/-! ### Drawing -/

/-- The loop of hyperband_random_search.hpp:24-32 with the texts of `usedConfigurations`; `draws` are the configurations that come out of the generator, `n` counts them,
`attempts` is `maxAttempts`. -/
def redraw (used : List Str) : Nat → Params → (Nat → Params) → Nat → Params × Nat
  | 0, c, _, n => (c, n)
  | attempts + 1, c, draws, n => if asString c ∈ used then redraw used attempts (draws n) draws (n + 1) else (c, n)

/-- `generateRandomConfiguration`, hyperband_random_search.hpp:19-35, called `k` times by `generateInitialConfigurations` (hyperband.hpp:61-71). -/
def generateAll (draws : Nat → Params) : Nat → List Str → Nat → List Params
  | 0, _, _ => []
  | k + 1, used, n =>
    let c := redraw used 1000 (draws n) draws (n + 1)
    c.1 :: generateAll draws k (used ++ [asString c.1]) c.2

/-- `buildWeightsVector`, hyperband_random_search.hpp:60-74. -/
def weights {F : Type} [Field F] (numValues : Nat) (favor : F) : List F :=
  let ws := (List.range numValues).map fun i => favor ^ i
  let sum := ws.foldl (fun s w => s + w) 0
  ws.map fun w => w / sum

end Verif.SearchDraw
