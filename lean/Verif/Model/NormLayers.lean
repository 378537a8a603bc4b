import Verif.Model.Statistics

/-!
The dropout and normalization layers: `/repo/src/ml/layers/dropout_layer.hpp`, `/repo/src/ml/layers/normalization_layer.hpp`,
`/repo/src/types/tensor_views/standardize_derivative_tensor_view.hpp`.

Simplifications: exact arithmetic in an ordered field, `sqrt` is a parameter. `none`: an exception, a null pointer that is used, or a result that
is not finite.
-/
namespace Verif.NormLayers
open Verif Views

variable {F : Type} [Field F] [LinearOrder F]

/-- dropout_layer.hpp:50-57. `mask`: `dropout_mask_`, a null pointer at first. -/
structure Dropout (F : Type) where
  rate : F
  mask : Option (Tensor F)
  seed : Nat

/-- dropout_layer.hpp:14-21, the constructor -/
def Dropout.create (rate : F) : Option (Dropout F) :=
  if rate < 0 ∨ 1 < rate then none else some ⟨rate, none, 0⟩

/-- A tensor of equal values, uniform_tensor.hpp, in the shape of another one. -/
def uniformLike (t : Tensor F) (v : F) : Tensor F := ⟨t.rows, t.cols, t.chans, fun _ _ _ => v⟩

/-- dropout_layer.hpp:23-39 `forward`. `random seed x` are the values of `TensorFromRandom` in the shape of `x`. The scale of the branch without
training, `1 / (1 - rate)` (line 19), is infinite for the rate 1. -/
def Dropout.forward (random : Nat → Tensor F → Tensor F) (l : Dropout F) (x : Tensor F) (training : Bool) : Option (Tensor F × Dropout F) :=
  if training then
    let seed := l.seed + 1
    let mask := maskedSelect (fun v => decide (v > l.rate)) (random seed x) (uniformLike x 1) (uniformLike x 0)
    (multiply x mask).map fun y => (y, { l with mask := some mask, seed := seed })
  else (Statistics.fdiv 1 (1 - l.rate)).bind fun scale => (multiply x (uniformLike x scale)).map fun y => (y, l)

/-- dropout_layer.hpp:41-44 `backward` -/
def Dropout.backward (l : Dropout F) (e : Tensor F) : Option (Tensor F) := l.mask.bind fun m => multiply e m

/-- A vertex of the network description, as far as dropout is concerned: happyml_dsl.hpp:155, 185, 213 (constructors), 644-646. -/
structure Vertex (F : Type) where
  dropoutRate : F

/-- happyml_dsl.hpp:336-344 `addDropoutLayer`; the argument is not used. -/
def addDropoutLayer (_rate : F) : Vertex F := ⟨0⟩

/-- happyml_dsl.hpp:455-462: the layer that is built for the vertex. -/
def Vertex.build (v : Vertex F) : Option (Dropout F) := Dropout.create v.dropoutRate

/-! ### Normalization -/

/-- normalization_layer.hpp:23-43 `forward`: the view over the input (standardize_tensor_view.hpp:14-42). -/
def standardized (sqrt : F → F) (x : Tensor F) : Option (Tensor F) :=
  let mean := (Statistics.viewConstants x).1
  let sd := sqrt (Statistics.viewConstants x).2
  if sd = 0 then none else some (map (fun v => (v - mean) / sd) x)

/-- standardize_derivative_tensor_view.hpp:19-43, one value. `n` is the number of elements. `none`: a division by zero. -/
def derivativeValue (mean sd n d v : F) : Option F :=
  if sd * n = 0 then none
  else
    let common := d / (sd * n)
    let dx1 := d / sd
    let dx2 := -common * (v - mean)
    let diff := v - mean
    let common := d * diff / (sd * sd * sd * n)
    let dx3 := -n * diff * common
    some (dx1 + dx2 + dx3)

/-- normalization_layer.hpp:45-60 `backward`, element by element: `input` of the derivative view is `lastInput`, which is the result of
`forward`, not its argument; mean and deviation are those of the argument. `x` is the argument of the last `forward` for training. -/
def normBackward (sqrt : F → F) (x e : Tensor F) (r c k : Nat) : Option F :=
  (standardized sqrt x).bind fun y =>
    derivativeValue (Statistics.viewConstants x).1 (sqrt (Statistics.viewConstants x).2) (x.size : F) (e.get r c k) (y.get r c k)

end Verif.NormLayers
