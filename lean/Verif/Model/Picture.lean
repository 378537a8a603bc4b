import Verif.Model.Encoders
import Mathlib.Algebra.Order.Floor.Semiring

/-!
# Showing images as text (`ImageDecoder::decodeImage`, `src/training_data/data_decoder.hpp`, 149-219)

Values are numbers of a field, so there are no infinities.
-/

namespace Verif.Picture
open Verif.Encoders (Out)

variable {F : Type} [Field F] [LinearOrder F]

/-- `ascii_chars`, data_decoder.hpp:161. -/
def chars : List (BitVec 8) := [32, 176, 177, 178, 219]

/-- The brightness of one pixel, data_decoder.hpp:173-177, 179-182, 186 and 188; two channels are not shown. -/
def gray (t : Tensor F) (row col : Nat) : F :=
  if 3 ≤ t.chans then 299 / 1000 * t.get row col 0 + 587 / 1000 * t.get row col 1 + 114 / 1000 * t.get row col 2
  else if t.chans = 1 then t.get row col 0
  else 0

/-- The value for two rows, or for the last row, data_decoder.hpp:172-194. -/
def cell (t : Tensor F) (row col : Nat) : F :=
  let g := if row + 1 < t.rows then (gray t row col + gray t (row + 1) col) / 2 else gray t row col
  let g := g / ((t.chans * (if row + 1 < t.rows then 2 else 1) : Nat) : F)
  if g < 0 then 0 else if 1 < g then 1 else g

/-- `not_normalized_gray_scale_values`, data_decoder.hpp:164-199. -/
def cells (t : Tensor F) : List (List F) :=
  (List.range ((t.rows + 1) / 2)).map fun h => (List.range t.cols).map fun c => cell t (2 * h) c

/-- `largest_value`, data_decoder.hpp:165, 195, 201-203. -/
def largest (t : Tensor F) : F :=
  let m := (cells t).flatten.foldl max 0
  if m = 0 then 1 else m

/-- The character for a value, data_decoder.hpp:209-213; `none`: behind the end of the vector. -/
def shade [FloorSemiring F] (m g : F) : Option (BitVec 8) := chars[⌊g / m * 4⌋₊]?

/-- `decodeImage`, data_decoder.hpp:155-218. -/
def decodeImage [FloorSemiring F] (t : Tensor F) : Out (List (List (BitVec 8))) :=
  match (cells t).mapM fun row => row.mapM (shade (largest t)) with
  | none => .undefined
  | some lines => .ok lines

end Verif.Picture
