import Verif.Model.Statistics
import Verif.Model.Csv
import Mathlib.Data.List.Dedup

/-!
Model of the text encoders and of the encoder for values given in a script:
/repo/src/training_data/data_encoder.hpp 70-152 (`HappyMLVariantEncoder`), 162-188 (`TextToPixelEncoder`), 194-218
(`TextToScalarEncoder`), 221-283 (`TextToUniqueCategoryEncoder`), of `get_distinct_values`
(/repo/src/util/dataset_utils.hpp 46-64) and of the label decoder (/repo/src/training_data/data_decoder.hpp 111-134).

Numbers are an arbitrary field; the conversion of text to a number (`stringToFloat`) and of script values to numbers
(`as_float`) or text (`to_string`) are parameters. Nested vectors are tensors; `FullTensor` and `PixelTensor` read the number
of rows and columns from the first channel (full_tensor.hpp 101-117), so a tensor without channels or rows is undefined
behaviour.
-/
namespace Verif.Encoders
open Verif.TextCodec (Str)
open Verif.Csv (strip)
variable {F : Type}

/-- Outcome of a call: a value, an exception, or undefined behaviour (reading past the end of a vector). -/
inductive Out (A : Type) where
  | ok (a : A)
  | throws
  | undefined

/-- The element conversion of the triple loops: reads the first `n` entries in order. -/
def readValues {W : Type} (conv : W → Option F) : Nat → List W → Out (List F)
  | 0, _ => .ok []
  | _ + 1, [] => .undefined
  | n + 1, w :: ws => match conv w with
    | none => .throws
    | some x => match readValues conv n ws with
      | .ok xs => .ok (x :: xs)
      | .throws => .throws
      | .undefined => .undefined

/-- A tensor filled channel by channel, row by row, from a list of values. -/
def tensorOf [Zero F] (rows cols chans : Nat) (vals : List F) : Tensor F :=
  ⟨rows, cols, chans, fun r c k => vals.getD (k * (rows * cols) + r * cols + c) 0⟩

/-- The triple loop of the encoders followed by the tensor constructor. -/
def encodeValues {W : Type} [Zero F] (conv : W → Option F) (rows cols chans : Nat) (words : List W) : Out (Tensor F) :=
  match readValues conv (chans * (rows * cols)) words with
  | .throws => .throws
  | .undefined => .undefined
  | .ok vals => if rows = 0 ∨ chans = 0 then .undefined else .ok (tensorOf rows cols chans vals)

/-- `stringToFloat`, data_encoder.hpp 46-56: empty text counts as zero. `num` is `std::from_chars`. -/
def stringToFloat [Zero F] (num : Str → Option F) (text : Str) : Option F := if text = [] then some 0 else num text

/-- `TextToScalarEncoder::encode`, data_encoder.hpp 196-213. -/
def scalarEncode [Zero F] (num : Str → Option F) (words : List Str) (rows cols chans : Nat) (trim : Bool) : Out (Tensor F) :=
  encodeValues (fun w => stringToFloat num (if trim then strip w else w)) rows cols chans words

/-- `TextToPixelEncoder::encode`, data_encoder.hpp 164-187; `pixel` is what storing a value in a `PixelTensor` makes of it. -/
def pixelEncode [Field F] (num : Str → Option F) (pixel : F → F) (words : List Str) (rows cols chans : Nat) (trim : Bool) :
    Out (Tensor F) :=
  encodeValues (fun w => (stringToFloat num (if trim then strip w else w)).map fun v => pixel (v / 255)) rows cols chans words

/-- A `std::map` from labels to positions, filled in order, data_encoder.hpp 223-228: the last position counts. -/
def categoryOf (labels : List Str) (w : Str) : Option Nat :=
  ((labels.zipIdx).reverse.find? fun p => p.1 = w).map Prod.snd

/-- The number of entries of that map. -/
def categoryCount (labels : List Str) : Nat := labels.dedup.length

/-- `TextToUniqueCategoryEncoder::encode`, data_encoder.hpp 234-276. -/
def categoryEncode [Zero F] [One F] (labels : List Str) (words : List Str) (rows cols chans : Nat) (trim : Bool) : Out (Tensor F) :=
  if chans ≠ 1 then .throws
  else if words.length ≠ rows then .throws
  else if cols ≠ categoryCount labels then .throws
  else match words.mapM (fun w => categoryOf labels (if trim then strip w else w)) with
    | none => .throws
    | some idx =>
      if ∃ i ∈ idx, cols ≤ i then .throws
      else if rows = 0 then .undefined
      else .ok ⟨rows, cols, chans, fun r c _ => if idx[r]? = some c then 1 else 0⟩

/-- `get_distinct_values` with trimming, dataset_utils.hpp 46-64, for the records of a file. The order in which the
`unordered_set` is later enumerated is not specified: `labels` is any list of exactly these values without repetition. -/
def IsDistinctValues (records : List (List Str)) (column : Nat) (labels : List Str) : Prop :=
  labels.Nodup ∧ ∀ l, l ∈ labels ↔ ∃ r ∈ records, ∃ v, r[column]? = some v ∧ strip v = l

/-- `BestTextCategoryDecoder::decodeBest`, data_decoder.hpp 117-124. -/
def decodeBest [Field F] [LinearOrder F] (labels : List Str) (t : Tensor F) : Out Str :=
  match labels[Statistics.maxIndexByRow t 0 0]? with
  | none => .throws
  | some l => .ok l

/-- The part of `BinaryColumnMetadata` the encoder uses. -/
structure Meta (F : Type) where
  purpose : Char
  rows : Nat
  cols : Nat
  chans : Nat
  labels : List Str
  column : Statistics.Column F

/-- Standardizing and normalizing every element of a tensor with the constants of a column (data_encoder.hpp 107-114 and
`standardize_and_normalize`, dataset_utils.hpp 126-140); `none` is the result of a division by zero. -/
def scaled [Field F] [LinearOrder F] (m : Statistics.Column F) (t : Tensor F) : Tensor (Option F) :=
  ⟨t.rows, t.cols, t.chans, fun r c k => Statistics.encode m (t.get r c k)⟩

/-- A tensor of numbers as a tensor whose elements may be missing. -/
def plain (t : Tensor F) : Tensor (Option F) := ⟨t.rows, t.cols, t.chans, fun r c k => some (t.get r c k)⟩

def Out.map {A B : Type} (f : A → B) : Out A → Out B
  | .ok a => .ok (f a)
  | .throws => .throws
  | .undefined => .undefined

/-- What the dataset file of a task holds for the words of one column group: `create_binary_dataset_from_delimited_values`
(dataset_utils.hpp 315-325, 405-425, with trimming) followed by `normalize_and_standardize_dataset` (260-276). For labels
`m.cols` is the number of labels and `m.chans` is 1 (`calculate_output_shape`, data_encoder.hpp 278-280). -/
def datasetEncode [Field F] [LinearOrder F] (num : Str → Option F) (pixel : F → F) (m : Meta F) (words : List Str) :
    Out (Tensor (Option F)) :=
  if m.purpose = 'I' then (pixelEncode num pixel words m.rows m.cols m.chans true).map plain
  else if m.purpose = 'N' then (scalarEncode num words m.rows m.cols m.chans true).map (scaled m.column)
  else if m.purpose = 'L' then (categoryEncode m.labels words m.rows m.cols m.chans true).map plain
  else .throws

/-- `HappyMLVariantEncoder::encode`, data_encoder.hpp 78-147. The vectors are filled as `floats[channel][column][row]`, that
is, with columns in the place of rows. -/
def variantEncode [Field F] [LinearOrder F] {V : Type} (asFloat : V → Option F) (toText : V → Str) (pixel : F → F)
    (m : Meta F) (values : List V) : Out (Tensor (Option F)) :=
  if m.purpose = 'I' then (encodeValues (fun v => (asFloat v).map pixel) m.cols m.rows m.chans values).map plain
  else if m.purpose = 'N' then (encodeValues asFloat m.cols m.rows m.chans values).map (scaled m.column)
  else if m.purpose = 'L' then
    match values with
    | [] => .throws
    | v :: _ =>
      if toText v ∈ m.labels then
        if m.cols = 0 ∨ m.chans = 0 then .undefined
        else .ok (plain ⟨m.cols, m.rows, m.chans, fun r _ _ => if r = m.labels.idxOf (toText v) then 1 else 0⟩)
      else .throws
  else .throws

end Verif.Encoders
