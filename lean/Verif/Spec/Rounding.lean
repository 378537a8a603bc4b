import Verif.Model.FloatNetwork

/-!
# What rounding may change: specification

`real` is the number that a float denotes. For a network of floats, `exact` is the network of real numbers with the same parameters, `size` bounds the numbers
that meet in each sum by adding up absolute values, `steps` counts the roundings on the way to one output, and `tiny` counts (with the weights they pass) the
products that may be rounded to a multiple of the smallest float.
-/
namespace Verif.Rounding
open Verif FloatBits

/-- The number that a finite float denotes. -/
noncomputable def real (a : F32) : ℝ := (value a.bits : ℝ) / 2 ^ 149

/-- Neither infinite nor NaN. -/
def Finite (a : F32) : Prop := isFinite a.bits = true

instance (a : F32) : Decidable (Finite a) := by unfold Finite; infer_instance

/-- Every element of a tensor satisfies a condition. -/
def Every {F : Type} (P : F → Prop) (t : Tensor F) : Prop := ∀ r c k, r < t.rows → c < t.cols → k < t.chans → P (t.get r c k)

open FloatNetwork

/-- The parameters of a layer are finite. -/
def FiniteLayer : Layer → Prop
  | .dense w => Every Finite w
  | .bias b => Every Finite b
  | _ => True

/-- The layer with the same parameters and exact arithmetic. -/
noncomputable def exact : Layer → Layers.Node
  | .dense w => ⟨.dense ⟨⟨w.rows, w.cols, w.chans, fun r c k => real (w.get r c k)⟩, 0, none, [], []⟩, none⟩
  | .bias b => ⟨.bias ⟨⟨b.rows, b.cols, b.chans, fun r c k => real (b.get r c k)⟩, 0, []⟩, none⟩
  | .activation .relu => ⟨.activation .relu [], none⟩
  | .activation .leaky => ⟨.activation .leaky [], none⟩
  | .activation .linear => ⟨.activation .linear [], none⟩
  | .flatten => ⟨.flatten 0 0, none⟩

/-- A tensor of floats as one of real numbers. -/
noncomputable def reals (t : Tensor F32) : Tensor ℝ := ⟨t.rows, t.cols, t.chans, fun r c k => real (t.get r c k)⟩

/-- How large the numbers after a layer can be, with all cancellation ignored, if those before it are bounded by `x`. -/
noncomputable def sizeAfter : Layer → Tensor ℝ → Tensor ℝ
  | .dense w, x => ⟨x.rows, w.cols, x.chans, fun r c k => ∑ i ∈ Finset.range x.cols, x.get r i k * |real (w.get i c k)|⟩
  | .bias b, x => ⟨x.rows, x.cols, x.chans, fun r c k => x.get r c k + |real (b.get r c k)|⟩
  | .activation _, x => x
  | .flatten, x => if x.rows = 1 then x else Views.rowFlatten x

/-- Products that may underflow, weighted by the weights that follow. -/
noncomputable def tinyAfter : Layer → Tensor ℝ → Tensor ℝ
  | .dense w, x => ⟨x.rows, w.cols, x.chans, fun r c k => ∑ i ∈ Finset.range x.cols, (x.get r i k * |real (w.get i c k)| + 1)⟩
  | .bias _, x => x
  | .activation .leaky, x => ⟨x.rows, x.cols, x.chans, fun r c k => x.get r c k + 1⟩
  | .activation _, x => x
  | .flatten, x => if x.rows = 1 then x else Views.rowFlatten x

/-- The roundings between an input and an output of a layer: one for every addition, one for the product, two for the leaky slope. -/
def stepsOf : Layer → Nat
  | .dense w => w.rows + 1
  | .bias _ => 1
  | .activation .leaky => 2
  | _ => 0

/-- The roundings on a way through the network. -/
def steps (net : List Layer) : Nat := (net.map stepsOf).sum

/-- After all layers. -/
noncomputable def size (net : List Layer) (x : Tensor ℝ) : Tensor ℝ := net.foldl (fun x l => sizeAfter l x) x
noncomputable def tiny (net : List Layer) (x : Tensor ℝ) : Tensor ℝ := net.foldl (fun x l => tinyAfter l x) x

/-- The absolute values of a tensor, and a tensor of zeros of the same shape. -/
noncomputable def sizes (t : Tensor F32) : Tensor ℝ := ⟨t.rows, t.cols, t.chans, fun r c k => |real (t.get r c k)|⟩
noncomputable def zeros (t : Tensor F32) : Tensor ℝ := ⟨t.rows, t.cols, t.chans, fun _ _ _ => 0⟩

/-- Nothing overflows: after every layer the sizes are at most 2^125, as are the weights of what may underflow. -/
def Moderate (net : List Layer) (x : Tensor F32) : Prop :=
  ∀ n, n ≤ net.length → Every (fun v => v ≤ 2 ^ 125) (size (net.take n) (sizes x)) ∧ Every (fun v => v ≤ 2 ^ 125) (tiny (net.take n) (zeros x))

end Verif.Rounding
