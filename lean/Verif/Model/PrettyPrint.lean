/-!
# Printing rows (`src/util/pretty_print_row.hpp`)

The stream is the list of bytes written so far; a byte is a `Char` here and `std::setw` counts bytes.
The default fill (a space) and adjustment (right) are assumed, as no caller changes them.
`none` stands for an exception or an access outside a vector.  A decoder together with the branch of
`record_to_strings` (lines 75-94) that it selects is a function from a record to the lines of its cell;
the three branches themselves are not modelled here.
-/

namespace Verif.PrettyPrint

/-- The bytes of a line or of a cell. -/
abbrev Text := List Char

/-- `stream << std::setw(width) << value` with the default fill and adjustment; never shortens. -/
def setw (width : Nat) (value : Text) : Text :=
  List.replicate (width - value.length) ' ' ++ value

/-- The loop of `pretty_print_header`, src/util/pretty_print_row.hpp:19-26: `i` is `column_index`. -/
def headerLoop (widths : List Nat) : Nat → List Text → Text → Text → Option Text
  | _, [], _, stream => some stream
  | i, name :: rest, delim, stream =>
    let stream := if delim.isEmpty then stream else stream ++ delim
    match widths[i]? with
    | none => none
    | some w => headerLoop widths (i + 1) rest ['|'] (stream ++ setw w name)

/-- `pretty_print_header`, src/util/pretty_print_row.hpp:17-28. -/
def header (stream : Text) (names : List Text) (widths : List Nat) : Option Text :=
  (headerLoop widths 0 names [] stream).map (· ++ ['\n'])

/-- The loop over the lines of one cell in `calculate_pretty_print_column_widths`,
src/util/pretty_print_row.hpp:38-40. -/
def cellWidth : Nat → List Text → Nat
  | m, [] => m
  | m, v :: rest => cellWidth (max m v.length) rest

/-- The loop of `calculate_pretty_print_column_widths`, src/util/pretty_print_row.hpp:36-42. -/
def widthsLoop : List Text → List (List Text) → List Nat
  | name :: names, cell :: cells => cellWidth name.length cell :: widthsLoop names cells
  | _, _ => []

/-- `calculate_pretty_print_column_widths`, src/util/pretty_print_row.hpp:30-44. -/
def widthsOf (names : List Text) (cells : List (List Text)) : Option (List Nat) :=
  if names.length ≠ cells.length then none else some (widthsLoop names cells)

/-- `max_height` of `pretty_print_row`, src/util/pretty_print_row.hpp:49-52. -/
def maxHeight : Nat → List (List Text) → Nat
  | m, [] => m
  | m, c :: cs => maxHeight (max m c.length) cs

/-- The loop over the columns of one line in `pretty_print_row`, src/util/pretty_print_row.hpp:57-69. -/
def lineLoop (widths : List Nat) (h : Nat) : Nat → List (List Text) → Text → Text → Option Text
  | _, [], _, stream => some stream
  | i, cell :: rest, delim, stream =>
    match widths[i]? with
    | none => none
    | some w =>
      let value := if h < cell.length then cell.getD h [] else []
      let stream := if delim.isEmpty then stream else stream ++ delim
      lineLoop widths h (i + 1) rest ['|'] (stream ++ setw w value)

/-- The loop over the lines of a record in `pretty_print_row`, src/util/pretty_print_row.hpp:53-72;
`fuel` is `max_height - current_height`. -/
def rowLoop (widths : List Nat) (cells : List (List Text)) : Nat → Nat → Text → Option Text
  | 0, _, stream => some stream
  | fuel + 1, h, stream =>
    match lineLoop widths h 0 cells [] stream with
    | none => none
    | some stream => rowLoop widths cells fuel (h + 1) (stream ++ ['\n'])

/-- `pretty_print_row`, src/util/pretty_print_row.hpp:46-73. -/
def row (stream : Text) (cells : List (List Text)) (widths : List Nat) : Option Text :=
  rowLoop widths cells (maxHeight 0 cells) 0 stream

/-- `record_group_to_strings`, src/util/pretty_print_row.hpp:97-106: the decoder of record `i` is
`decoders[i]`. -/
def groupStrings {R : Type} (decoders : List (R → List Text)) : Nat → List R → Option (List (List Text))
  | _, [] => some []
  | i, r :: rest =>
    match decoders[i]?, groupStrings decoders (i + 1) rest with
    | some d, some out => some (d r :: out)
    | _, _ => none

/-- `pretty_print_merge_records`, src/util/pretty_print_row.hpp:108-122: expected values first. -/
def mergeRecords {R : Type} (expectedDecoders : List (R → List Text)) (expected : List R)
    (givenDecoders : List (R → List Text)) (given : List R) : Option (List (List Text)) :=
  match groupStrings expectedDecoders 0 expected, groupStrings givenDecoders 0 given with
  | some e, some g => some (e ++ g)
  | _, _ => none

/-- `pretty_print_merge_headers`, src/util/pretty_print_row.hpp:124-134: expected names first. -/
def mergeHeaders (expected given : List Text) : List Text := expected ++ given

/-- What `pretty_print` takes from the reader: the names and decoders of the columns and the rows, each a
pair of the given and the expected records (`readRow`; modelled in `Verif.Model.BinaryDataset`). -/
structure Reader (R : Type) where
  givenNames : List Text
  expectedNames : List Text
  givenDecoders : List (R → List Text)
  expectedDecoders : List (R → List Text)
  rows : List (List R × List R)

/-- `max_result_rows`, src/util/pretty_print_row.hpp:137-138: a negative limit other than -1 is converted
to a huge unsigned number. -/
def maxRows (rowCount : Nat) (limit : Int) : Nat :=
  if limit = -1 then rowCount else min rowCount (limit % 2 ^ 64).toNat

/-- The loop of `pretty_print`, src/util/pretty_print_row.hpp:144-157; `fuel` is
`max_result_rows - row_index`. -/
def printLoop {R : Type} (rd : Reader R) : Nat → Nat → List Nat → Text → Option Text
  | 0, _, _, stream => some stream
  | fuel + 1, i, widths, stream =>
    match rd.rows[i]? with
    | none => none
    | some (given, expected) =>
      match mergeRecords rd.expectedDecoders expected rd.givenDecoders given with
      | none => none
      | some cells =>
        if widths.isEmpty then
          match widthsOf (mergeHeaders rd.expectedNames rd.givenNames) cells with
          | none => none
          | some widths =>
            match header stream (mergeHeaders rd.expectedNames rd.givenNames) widths with
            | none => none
            | some stream =>
              match row stream cells widths with
              | none => none
              | some stream => printLoop rd fuel (i + 1) widths stream
        else
          match row stream cells widths with
          | none => none
          | some stream => printLoop rd fuel (i + 1) widths stream

/-- `pretty_print`, src/util/pretty_print_row.hpp:136-159. -/
def prettyPrint {R : Type} (stream : Text) (rd : Reader R) (limit : Int) : Option Text :=
  printLoop rd (maxRows rd.rows.length limit) 0 [] stream

end Verif.PrettyPrint
