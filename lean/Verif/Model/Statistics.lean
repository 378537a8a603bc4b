import Verif.Model.Views
import Mathlib.Algebra.Order.Field.Basic

/-
Statistics of tensors and data columns: `/repo/src/types/base_tensors.hpp`:221-495, `/repo/src/util/tensor_utils.hpp`:161-246,
the standardize / normalize views, the column normalization of `/repo/src/util/dataset_utils.hpp`:126-278 and gradient clipping
(`/repo/src/ml/neural_network_node.hpp`:170-184).

Simplifications: `float`/`double` arithmetic is replaced by exact arithmetic in an ordered field `F`; `sqrt` is a parameter.
Values are finite: a stored infinity or NaN is not covered. Where the code divides by zero the model answers `none` (a NaN or an infinity in the code), so that Lean's `x / 0 = 0` is never used.
-/
namespace Verif.Statistics
open Verif Views

variable {F : Type}

/-- The order in which the loops of base_tensors.hpp and tensor_utils.hpp visit the elements: channel, then row, then column. -/
def elements (t : Tensor F) : List F :=
  (List.range t.chans).flatMap fun k => (List.range t.rows).flatMap fun r => (List.range t.cols).map fun c => t.get r c k

section
variable [Field F] [LinearOrder F]

/-- base_tensors.hpp:236-249 `sum` -/
def sum (t : Tensor F) : F := (elements t).foldl (· + ·) 0
/-- base_tensors.hpp:221-234 `product` -/
def product (t : Tensor F) : F := (elements t).foldl (· * ·) 1
/-- base_tensors.hpp:251-264 `max_abs`; `std::max(a, b)` is `(a < b) ? b : a`. -/
def maxAbs (t : Tensor F) : F := (elements t).foldl (fun m v => if m < (if v < 0 then -v else v) then (if v < 0 then -v else v) else m) 0
/-- base_tensors.hpp:266-279 `max`, starting from `-INFINITY` (`none`). -/
def maxFrom (m : Option F) (v : F) : Option F := match m with | none => some v | some m => some (if m < v then v else m)
/-- base_tensors.hpp:281-294 `min`, starting from `INFINITY` (`none`). -/
def minFrom (m : Option F) (v : F) : Option F := match m with | none => some v | some m => some (if v < m then v else m)
/-- base_tensors.hpp:266-279 `max`; `none` is `-INFINITY` -/
def max (t : Tensor F) : Option F := (elements t).foldl maxFrom none
/-- base_tensors.hpp:281-294 `min`; `none` is `INFINITY` -/
def min (t : Tensor F) : Option F := (elements t).foldl minFrom none
/-- base_tensors.hpp:296-312 `range` -/
def range (t : Tensor F) : Option F × Option F := (elements t).foldl (fun (a, b) v => (minFrom a v, maxFrom b v)) (none, none)

/-- base_tensors.hpp:481-491: the running average; state is (average, index). -/
def meanStep (s : F × F) (v : F) : F × F := let index := s.2 + 1; (s.1 + (v - s.1) / index, index)
/-- base_tensors.hpp:467-495 `arithmeticMean` -/
def arithmeticMean (t : Tensor F) : F := ((elements t).foldl meanStep (0, 0)).1
/-- base_tensors.hpp:411-430: the square of `standardDeviation` -/
def deviationSquared (t : Tensor F) : F :=
  ((elements t).foldl (fun (s : F × F) v => let index := s.2 + 1
    (s.1 + ((v - arithmeticMean t) * (v - arithmeticMean t) - s.1) / index, index)) (0, 0)).1
/-- base_tensors.hpp:432-441 `variance_point`; elements are visited by offset. `none`: an empty tensor gives 0/0. -/
def variancePoint (t : Tensor F) (point : F) : Option F :=
  let s := (List.range t.size).foldl (fun s i => let diff := offsetGet t i - point; s + diff * diff) 0
  if t.size = 0 then none else some (s / (t.size : F))
/-- base_tensors.hpp:443-446 `variance` -/
def variance (t : Tensor F) : Option F := variancePoint t (arithmeticMean t)
/-- base_tensors.hpp:449-465 `euclidean_norm`; `none`: division by `max_abs` = 0, which makes the result a NaN. -/
def euclideanNorm (sqrt : F → F) (t : Tensor F) : Option F :=
  if elements t = [] then some (maxAbs t * sqrt 0)
  else if maxAbs t = 0 then none
  else some (maxAbs t * sqrt ((elements t).foldl (fun s v => let x := v / maxAbs t; s + x * x) 0))

/-- neural_network_node.hpp:170-184 `clip` for one error tensor; a NaN norm is not greater than the threshold. -/
def clip (sqrt : F → F) (threshold : F) (t : Tensor F) : Tensor F :=
  match euclideanNorm sqrt t with
  | none => t
  | some n => if threshold < n then map (fun v => v * (threshold / n)) t else t

/-! ### Running statistics (tensor_utils.hpp) -/

/-- tensor_utils.hpp:161-176 `StandardizationAndNormalizationValues` without the derived `standard_deviation`. -/
structure Running (F : Type) where
  mean : F
  m2 : F
  total : F
  min : F
  max : F

/-- tensor_utils.hpp:162-169; `lo`, `hi` are `numeric_limits<double>::lowest()` and `max()`. -/
def Running.init (lo hi : F) : Running F := ⟨0, 0, 0, hi, lo⟩

/-- tensor_utils.hpp:186-195: one value. -/
def Running.add (s : Running F) (v : F) : Running F :=
  let min := if v < s.min then v else s.min
  let max := if s.max < v then v else s.max
  let total := s.total + 1
  let delta := v - s.mean
  let mean := s.mean + delta / total
  let delta2 := v - mean
  ⟨mean, s.m2 + delta * delta2, total, min, max⟩

/-- tensor_utils.hpp:178-198: all values of one tensor. -/
def Running.update (s : Running F) (t : Tensor F) : Running F := (elements t).foldl Running.add s

/-- tensor_utils.hpp:199 `M2 / total_elements`; `none` when nothing has been seen (0/0). -/
def Running.variance (s : Running F) : Option F := if s.total = 0 then none else some (s.m2 / s.total)

/-- tensor_utils.hpp:203-233 `calcStandardizationValuesForEntireSet`: mean and squared deviation. -/
def standardizationForSet (ts : List (Tensor F)) : F × Option F :=
  let s := ts.foldl (fun s t => (elements t).foldl (fun (s : F × F × F) v =>
    let total := s.2.2 + 1
    let delta := v - s.1
    let mean := s.1 + delta / total
    (mean, s.2.1 + delta * (v - mean), total)) s) ((0, 0, 0) : F × F × F)
  (s.1, if s.2.2 = 0 then none else some (s.2.1 / s.2.2))

/-- tensor_utils.hpp:235-246 `calcNormalizationValuesForEntireSet`; `lo`, `hi` are `numeric_limits<float>::lowest()` and `max()`.
An empty tensor's minimum is +infinity and never replaces the current value. -/
def normalizationForSet (lo hi : F) (ts : List (Tensor F)) : F × F :=
  ts.foldl (fun (a, b) t =>
    ((match min t with | none => a | some m => if m < a then m else a), (match max t with | none => b | some m => if b < m then m else b))) (hi, lo)

/-! ### Views -/

/-- `x / y` where the code divides: `none` for a zero divisor (NaN or infinity). -/
def fdiv (x y : F) : Option F := if y = 0 then none else some (x / y)

/-- standardize_tensor_view.hpp:39-42 -/
def standardize (mean sd v : F) : Option F := fdiv (v - mean) sd
/-- normalize_tensor_view.hpp:28-31 -/
def normalize (lo hi v : F) : Option F := fdiv (v - lo) (hi - lo)
/-- denormalize_tensor_view.hpp:20-23 -/
def denormalize (lo hi v : F) : F := v * (hi - lo) + lo
/-- unstandardize_tensor_view.hpp:18-21 -/
def unstandardize (mean sd v : F) : F := v * sd + mean

/-- standardize_tensor_view.hpp:14-33: the constants the view computes for itself: mean and squared deviation (1 if zero).
`delta / total_elements` divides by the size of the whole tensor, not by the number of elements seen. -/
def viewConstants (t : Tensor F) : F × F :=
  let n := (t.size : F)
  let s := (List.range t.size).foldl (fun (s : F × F) i =>
    let v := offsetGet t i
    let delta := v - s.1
    let mean := s.1 + delta / n
    (mean, s.2 + delta * (v - mean))) (0, 0)
  let variance := s.2 / n
  (s.1, if variance = 0 then 1 else variance)

/-- standardize_tensor_view.hpp:14-42: the standardized value of `v` in the view of `t`. -/
def standardizeView (sqrt : F → F) (t : Tensor F) (v : F) : Option F :=
  standardize (viewConstants t).1 (sqrt (viewConstants t).2) v

/-! ### Dataset columns (dataset_utils.hpp) -/

/-- The numerical part of `BinaryColumnMetadata`. -/
structure Column (F : Type) where
  isStandardized : Bool
  mean : F
  sd : F
  isNormalized : Bool
  min : F
  max : F

/-- dataset_utils.hpp:223-247: metadata of a number column (purpose 'N') from the statistics of all its values. -/
def columnOf (sqrt : F → F) (s : Running F) : Option (Column F) :=
  s.variance.map fun v => ⟨decide (1 < sqrt v), s.mean, sqrt v, true, s.min, s.max⟩

/-- dataset_utils.hpp:126-140 `standardize_and_normalize`, one value. -/
def encode (m : Column F) (v : F) : Option F :=
  (if m.isStandardized then standardize m.mean m.sd v else some v).bind fun v => if m.isNormalized then normalize m.min m.max v else some v

/-- dataset_utils.hpp:142-154 `unstandardize_and_denormalize` and data_decoder.hpp:56-69 `RawDecoder::decode`, one value. -/
def decode (m : Column F) (v : F) : F :=
  let v := if m.isNormalized then denormalize m.min m.max v else v
  if m.isStandardized then unstandardize m.mean m.sd v else v

/-- dataset_utils.hpp:176-278 `normalize_and_standardize_dataset` for one number column: the metadata and the stored values.
`none` in a stored value is a NaN or infinity written to the file. An empty dataset gives no metadata (0/0). -/
def normalizeColumn (sqrt : F → F) (lo hi : F) (vs : List F) : Option (Column F × List (Option F)) :=
  (columnOf sqrt (vs.foldl Running.add (Running.init lo hi))).map fun m => (m, vs.map (encode m))

end

/-! ### Positions of extreme values -/

section
variable [LinearOrder F]

/-- `std::multiset::insert`: after all elements that do not compare greater (index_value.hpp:14-16 compares values only). -/
def multisetInsert (x : Nat × F) : List (Nat × F) → List (Nat × F)
  | [] => [x]
  | y :: ys => if x.2 < y.2 then x :: y :: ys else y :: multisetInsert x ys

/-- base_tensors.hpp:314-333 `topIndices`: (index, value) pairs, walking the multiset backwards. Values are not NaN. -/
def topIndices (t : Tensor F) (n channel row : Nat) : List (Nat × F) :=
  (((List.range t.cols).foldl (fun s c => multisetInsert (c, t.get row c channel) s) []).reverse).take n

/-- base_tensors.hpp:335-361 the loop of `maxIndexByCol` and `maxIndexByRow` over `n` values; `none` is `-INFINITY`. -/
def maxIndexLoop (n : Nat) (f : Nat → F) : Nat × Option F :=
  (List.range n).foldl (fun (s : Nat × Option F) i =>
    match s.2 with
    | none => (i, some (f i))
    | some m => if m < f i then (i, some (f i)) else s) (0, none)

/-- base_tensors.hpp:349-361 `maxIndexByRow`; also tensor_utils.hpp:53-55 `maxIndex` with channel and row 0. -/
def maxIndexByRow (t : Tensor F) (channel row : Nat) : Nat := (maxIndexLoop t.cols fun c => t.get row c channel).1
/-- base_tensors.hpp:335-347 `maxIndexByCol` -/
def maxIndexByCol (t : Tensor F) (channel col : Nat) : Nat := (maxIndexLoop t.rows fun r => t.get r col channel).1

/-- base_tensors.hpp:377-393 `maxIndices`; `none` is `-INFINITY`. -/
def maxIndices (t : Tensor F) (channel row : Nat) : List Nat :=
  ((List.range t.cols).foldl (fun (s : List Nat × Option F) c =>
    let v := t.get row c channel
    match s.2 with
    | none => ([c], some v)
    | some m => if m < v then ([c], some v) else if v = m then (s.1 ++ [c], some m) else s) ([], none)).1

/-- base_tensors.hpp:363-375 `minIndex`; `none` is `INFINITY`. -/
def minIndex (t : Tensor F) (channel row : Nat) : Nat :=
  ((List.range t.cols).foldl (fun (s : Nat × Option F) i =>
    match s.2 with
    | none => (i, some (t.get row i channel))
    | some m => if t.get row i channel < m then (i, some (t.get row i channel)) else s) (0, none)).1

end

end Verif.Statistics
