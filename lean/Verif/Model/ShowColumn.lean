import Verif.Model.FloatColumn
import Verif.Model.PrintRow

/-!
# What is shown for a stored column of numbers

When a dataset is created, the numbers of a column are standardized and normalized and stored as floats (which the file keeps exactly, C25). When records are printed, the
decoder of the column (encoder_decoder_builder.hpp 26-32) undoes both, and the result is printed with three decimals.
-/
namespace Verif.ShowColumn
open Verif Verif.TextCodec Verif.FloatColumn

/-- What the file of the dataset contains for a record, dataset_utils.hpp 126-140. -/
def stored (m : Metadata) (t : Tensor F32) : Tensor F32 := ⟨t.rows, t.cols, t.chans, fun r c k => encode m (t.get r c k)⟩

/-- `record_to_strings` for a column of numbers, pretty_print_row.hpp 85-93, with the decoder of data_decoder.hpp 56-69. -/
def shown (m : Metadata) (record : Tensor F32) : List Str :=
  PrintRow.lines ⟨record.rows, record.cols, record.chans, fun r c k => (decode m (record.get r c k)).bits⟩

end Verif.ShowColumn
