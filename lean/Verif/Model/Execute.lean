import Verif.Model.Encoders
import Verif.Model.Accuracy

/-!
# Executing a task on a dataset, and testing it on one (`src/util/task_utils.hpp`, 166-209, 345-356, 425-428)

A dataset is what its file holds: the descriptions of its columns and the stored tensors of its rows (modelled byte by byte in `Verif.Model.BinaryDataset`). The
network is a function from the given tensors to the predicted tensors that may throw. An element `none` is the result of a division by zero (a NaN or an
infinity); where such an element would decide which label is shown, the outcome is not followed further (`undefined`). How images and rows of numbers are laid
out as lines of text is not part of this model (see `Verif.Model.Picture` and `Verif.Model.PrettyPrint`).
-/

namespace Verif.Execute
open Verif.Encoders (Out Meta)
open Verif.TextCodec (Str)

variable {F : Type}

/-- Continues after a call. -/
def andThen {A B : Type} (x : Out A) (f : A → Out B) : Out B :=
  match x with
  | .ok a => f a
  | .throws => .throws
  | .undefined => .undefined

/-- A loop that collects results. -/
def collect {A B : Type} (f : A → Out B) : List A → Out (List B)
  | [] => .ok []
  | a :: as => andThen (f a) fun b => (collect f as).map (b :: ·)

/-- A dataset file: the columns, and for every row the tensors that were stored. -/
structure Dataset (F : Type) where
  given : List (Meta F)
  expected : List (Meta F)
  rows : List (List (Tensor (Option F)) × List (Tensor (Option F)))

section
variable [Field F] [LinearOrder F]

/-- `renormalizeAndStandardize`, tensor_utils.hpp:248-269: undoes the scaling of one column and applies that of another. -/
def renorm (old new : Statistics.Column F) (t : Tensor (Option F)) : Tensor (Option F) :=
  ⟨t.rows, t.cols, t.chans, fun r c k => (t.get r c k).bind fun v => Statistics.encode new (Statistics.decode old v)⟩

/-- The loop over the columns of one side in `readRow`, file_reader.hpp:256-269 and 270-283: `given_offset` stays 0, so that every column is renormalized
for the first column of `target`. -/
def renormAll (target cols : List (Meta F)) (tensors : List (Tensor (Option F))) : List (Tensor (Option F)) :=
  match target with
  | [] => tensors
  | t :: _ => List.zipWith (fun (m : Meta F) x => renorm m.column t.column x) cols tensors

/-- The rows of a dataset that is opened with descriptions to renormalize for, file_reader.hpp:207-228 and training_dataset.hpp:73-96: throws for another number
of columns. They are delivered in the order of the file (132-144, without a shuffler). -/
def openWith (d : Dataset F) (given expected : List (Meta F)) : Out (List (List (Tensor (Option F)) × List (Tensor (Option F)))) :=
  if (given ≠ [] ∧ given.length ≠ d.given.length) ∨ (expected ≠ [] ∧ expected.length ≠ d.expected.length) then .throws
  else .ok (d.rows.map fun r => (renormAll given d.given r.1, renormAll expected d.expected r.2))

/-- What is shown of a tensor. -/
inductive Cell (F : Type) where
  | label (text : Str)
  | picture (t : Tensor (Option F))
  | numbers (t : Tensor (Option F))

/-- The elements of a tensor without `none`s in its first row. -/
def finite (t : Tensor (Option F)) : Tensor F := ⟨t.rows, t.cols, t.chans, fun r c k => (t.get r c k).getD 0⟩

/-- `BestTextCategoryDecoder::decodeBest`, data_decoder.hpp:117-124. -/
def bestLabel (labels : List Str) (t : Tensor (Option F)) : Out Str :=
  if ∃ c ∈ List.range t.cols, t.get 0 c 0 = none then .undefined else Encoders.decodeBest labels (finite t)

/-- `build_decoder(false, metadata)`, encoder_decoder_builder.hpp:16-40, followed by `record_to_strings`, pretty_print_row.hpp:75-95. -/
def showCell (m : Meta F) (t : Tensor (Option F)) : Out (Cell F) :=
  if m.purpose = 'L' then (bestLabel m.labels t).map .label
  else if m.purpose = 'N' then .ok (.numbers ⟨t.rows, t.cols, t.chans, fun r c k => (t.get r c k).map (Statistics.decode m.column)⟩)
  else if m.purpose = 'I' then .ok (.picture t)
  else .ok (.numbers t)

/-- `record_group_to_strings`, pretty_print_row.hpp:97-106: more tensors than decoders are undefined behaviour. -/
def showAll : List (Meta F) → List (Tensor (Option F)) → Out (List (Cell F))
  | _, [] => .ok []
  | [], _ :: _ => .undefined
  | m :: ms, t :: ts => andThen (showCell m t) fun c => (showAll ms ts).map (c :: ·)

/-- The body of the loop of `execute_task_with_dataset`, task_utils.hpp:193-197: the predictions and the given values that are shown for one row. -/
def executeRow (predict : List (Tensor (Option F)) → Out (List (Tensor (Option F)))) (d : Dataset F) (given : List (Tensor (Option F))) :
    Out (List (Cell F) × List (Cell F)) :=
  andThen (predict given) fun ps => andThen (showAll d.expected ps) fun e => (showAll d.given given).map (e, ·)

/-- `execute_task_with_dataset`, task_utils.hpp:166-209, for an existing task: the decoders and the renormalization use the columns of the dataset that it is
executed on, not those of the task. -/
def execute (predict : List (Tensor (Option F)) → Out (List (Tensor (Option F)))) (d : Dataset F) : Out (List (List (Cell F) × List (Cell F))) :=
  andThen (openWith d d.given d.expected) fun rows => collect (fun r => executeRow predict d r.1) rows

/-- The accuracy of a label task on a separate test dataset, task_utils.hpp:425-428 and 354-355, for label columns: the rows are renormalized for the columns of
the training data, and the predicted and the expected tensors are decoded with the labels of the training data (481). -/
def testAccuracy (predict : List (Tensor (Option F)) → Out (List (Tensor (Option F)))) (given expected : List (Meta F)) (test : Dataset F) : Out (Option ℚ) :=
  andThen (openWith test given expected) fun rows =>
    Accuracy.categorical predict (expected.map fun m => bestLabel m.labels) (-1) (rows.map fun r => ⟨r.1, r.2⟩)

end

end Verif.Execute
