import Verif.Model.Layers

/-!
The convolution layer, `/repo/src/ml/layers/convolution_2d_valid_layer.hpp`.

Simplifications: exact arithmetic in a field; `materializeTensor` keeps all values. Elements of a tensor outside its shape are not read for
the shapes that the theorems assume; `forward` and `backward` themselves check nothing about the shape of their argument.
-/
namespace Verif.Layers
open Verif Views

/-- convolution_2d_valid_layer.hpp:196-207. One kernel for each filter; `depth` is `inputShape[2]`, `filters = outputShape[2]` is the
number of kernels. `strength`: `regularization_strength`, if `use_l2_regularization`. The queues are lists, oldest first. -/
structure Conv (F : Type) where
  weights : List (Tensor F)
  inRows : Nat
  inCols : Nat
  depth : Nat
  id : Nat
  strength : Option F
  inputs : List (Tensor F)
  changes : List (List (Tensor F))

variable {F : Type} [Field F]

/-- convolution_2d_valid_layer.hpp:70-88: the channel of one filter. `none`: there are no input channels (a null pointer is used). -/
def filterOut (depth filters : Nat) (x w : Tensor F) (f : Nat) : Option (Tensor F) :=
  (drain ((List.range depth).map fun k => validCorrelation (channelTo x k) (channelTo w k))).map fun s => sumToChannel s f filters

/-- convolution_2d_valid_layer.hpp:55-101 `forward` with a single input -/
def Conv.forward (l : Conv F) (x : Tensor F) (training : Bool) : Option (Tensor F × Conv F) :=
  ((l.weights.zipIdx.mapM fun w => filterOut l.depth l.weights.length x w.1 w.2).bind drain).map fun y =>
    (y, if training then { l with inputs := l.inputs ++ [x] } else l)

/-- convolution_2d_valid_layer.hpp:144-148: the term that the L2 option adds -/
def Conv.regularise (l : Conv F) (g : Tensor F) : Option (Tensor F) :=
  match l.strength with
  | none => some g
  | some s => add g (map (fun v => v * s) g)

/-- convolution_2d_valid_layer.hpp:130-133 and 140-152: the change of one filter for one record -/
def Conv.weightChange (l : Conv F) (x e w : Tensor F) (f : Nat) : Option (Tensor F) :=
  (List.range l.depth).foldlM (fun acc k =>
    (l.regularise (validCorrelation (channelTo x k) (channelTo e f))).bind fun g => add acc (sumToChannel g k l.depth)) (Optimizer.zeros w)

/-- convolution_2d_valid_layer.hpp:126 and 132-139: the error for the input, before the channels are summed -/
def Conv.inputError (l : Conv F) (e : Tensor F) : Option (Tensor F) :=
  l.weights.zipIdx.foldlM (fun acc w => (List.range l.depth).foldlM (fun acc k =>
    add acc (sumToChannel (fullConvolve (channelTo e w.2) (channelTo w.1 k)) k l.depth)) acc) ⟨l.inRows, l.inCols, l.depth, fun _ _ _ => 0⟩

/-- convolution_2d_valid_layer.hpp:103-161 `backward` -/
def Conv.backward (l : Conv F) (e : Tensor F) : Option (Tensor F × Conv F) :=
  (averageInputs l.inputs).bind fun x =>
  (l.inputError e).bind fun inputError =>
  (l.weights.zipIdx.mapM fun w => l.weightChange x e w.1 w.2).map fun change =>
  (sumChannels inputError, { l with inputs := [], changes := l.changes ++ [change] })

/-- convolution_2d_valid_layer.hpp:169-176: one record's changes of all filters -/
def applyFilters [LinearOrder F] (sqrt : F → F) (id : Nat) : List (Tensor F) → List (Tensor F) → Optimizer.Opt F →
    Option (List (Tensor F) × Optimizer.Opt F)
  | w :: ws, g :: gs, o =>
    (Optimizer.calculateWeightsChange o sqrt id w g).bind fun r =>
    (applyFilters sqrt id ws gs r.2).map fun s => (r.1 :: s.1, s.2)
  | ws, _, o => some (ws, o)

/-- convolution_2d_valid_layer.hpp:163-178 `apply` -/
def Conv.apply [LinearOrder F] (l : Conv F) (sqrt : F → F) (o : Optimizer.Opt F) : Option (Conv F × Optimizer.Opt F) :=
  (l.changes.foldlM (fun (s : List (Tensor F) × Optimizer.Opt F) change => applyFilters sqrt l.id s.1 change s.2) (l.weights, o)).map fun s =>
    ({ l with weights := s.1, changes := [] }, s.2)

end Verif.Layers
