import Verif.Model.Decimal
import Verif.Model.Tensor

/-!
# Printing one row of numbers (`BaseTensor::prettyPrintRow`, `src/types/base_tensors.hpp` 573-633)

Texts are lists of bytes, the elements of the tensor are the 32 bits of floats. The stream is a new `stringstream` (pretty_print_row.hpp 89-91), so that its fill is a
blank. `std::setw` holds for the next output only, also if that is an empty text.
-/

namespace Verif.PrintRow
open Verif.TextCodec Verif.FloatBits Verif.FloatArith Verif.Decimal

/-- The value of a finite float in thousandths, rounded. -/
def thousandths (x : BitVec 32) : Nat := nearest (magUnits (expo x) (frac x) * 1000) (2 ^ 149)

/-- `out << value` with `setprecision(3)` and `fixed`, base_tensors.hpp 576, 610, 612, 622, 624. -/
def fixed3 (x : BitVec 32) : Str :=
  (if neg x then [45] else []) ++
    if isNaN x then [110, 97, 110]
    else if isInf x then [105, 110, 102]
    else dec (thousandths x / 1000) ++ 46 :: padded 3 (thousandths x % 1000)

/-- Output with a width, filled from the left. -/
def setw (width : Nat) (s : Str) : Str := List.replicate (width - s.length) 32 ++ s

/-- The stream: the text so far and the width of the next output. -/
structure Stream where
  out : Str
  width : Nat

/-- One `<<` of a text or number. -/
def Stream.put (o : Stream) (s : Str) : Stream := ⟨o.out ++ setw o.width s, 0⟩

def sep : Str := [44, 32]

/-- The loop over the columns, one channel, base_tensors.hpp 608-615. The values are those from the current column on. -/
def columnLoop : Stream → Str → List (BitVec 32) → Stream
  | o, _, [] => o
  | o, delim, x :: xs => columnLoop (if delim = [] then o.put (fixed3 x) else (o.put delim).put (fixed3 x)) sep xs

/-- The loop over the channels of one column, base_tensors.hpp 620-627. -/
def channelLoop : Stream → Str → List (BitVec 32) → Stream
  | o, _, [] => o
  | o, delim, x :: xs => channelLoop (if delim = [] then o.put (fixed3 x) else (o.put delim).put (fixed3 x)) sep xs

/-- The loop over the columns, several channels, base_tensors.hpp 617-630. -/
def pixelLoop : Stream → Str → List (List (BitVec 32)) → Stream
  | o, _, [] => o
  | o, delim, p :: ps => pixelLoop ((channelLoop ((o.put delim).put [40]) [] p).put [41]) sep ps

/-- `prettyPrintRow` for a row of the tensor, base_tensors.hpp 573-580, 607-633. Simplification: rows behind the last one (581-606), which `record_to_strings`
(pretty_print_row.hpp 86-92) never asks for, are left out. -/
def prettyPrintRow (t : Tensor (BitVec 32)) (row : Nat) : Str :=
  if t.chans = 1 then (columnLoop ⟨[], 8⟩ [] ((List.range t.cols).map fun c => t.get row c 0)).out
  else (pixelLoop ⟨[], 8⟩ [] ((List.range t.cols).map fun c => (List.range t.chans).map fun k => t.get row c k)).out

/-- The lines of a record that is neither image nor text, `record_to_strings`, pretty_print_row.hpp 85-93, after decoding. -/
def lines (t : Tensor (BitVec 32)) : List Str := (List.range t.rows).map (prettyPrintRow t)

end Verif.PrintRow
