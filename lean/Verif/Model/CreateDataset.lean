import Verif.Model.Columns
import Verif.Model.FileSorter
import Verif.Model.Execute
import Verif.Model.BinaryDataset
import Mathlib.Data.List.Lex

/-!
# Creating a dataset (`src/lang/statements/create_dataset_statement.hpp`, 34-206, with `src/util/dataset_utils.hpp`)

The statement that reads a file, moves the given columns to the front, sorts the lines, encodes every record, drops repeated records and scales the numbers. The
parts are modelled in `Columns`, `Csv`, `FileSorter`, `Encoders`, `BinaryDataset` (the cache of recent rows) and `Statistics`; this file puts them together.

A disk is a function from paths to the contents of files. Numbers are those of a field (no rounding), so that a dataset is what `Execute.Dataset` describes: the
bytes of its file are modelled in `BinaryDataset`, where C24 and C25 show that reading gives back what was written. The names of columns are left out.
Failures of the file system, apart from a missing source, are not modelled.
-/

namespace Verif.CreateDataset
open Verif.Encoders (Out Meta)
open Verif.TextCodec (Str NL)
open Verif.Parser (ColGroup)
open Verif.Execute (andThen collect Dataset)

/-- `std::string::operator<`: bytes are compared as unsigned numbers, text_file_sorter.hpp:90-92 and 139-150. -/
instance byteOrder : LinearOrder Str := LinearOrder.lift' (fun s : Str => s.map UInt8.toNat)
  (List.map_injective_iff.2 fun _ _ h => UInt8.toNat.inj h)

/-- The parts of the environment that are left open. -/
structure Env (F : Type) where
  /-- `std::from_chars`, data_encoder.hpp:46-56 -/
  num : Str → Option F
  /-- `isFloat`, data_encoder.hpp:64-68 -/
  isNum : Str → Bool
  /-- what storing a value in a `PixelTensor` makes of it -/
  pixel : F → F
  /-- `std::sqrt` -/
  sqrt : F → F
  /-- the least and the largest `double` -/
  lo : F
  hi : F
  /-- `compute_given_hash`, file_writer.hpp:250-259 -/
  hash : List (Tensor F) → BitVec 64

/-- Reading all records of a file, as in training_dataset.hpp:339-343, with `DelimitedTextFileReader` for commas; `none` is the exception for an unclosed quote.
There is at least one line for every record. -/
def readCsv (skipHeader : Bool) (text : Str) : Option (List (List Str)) :=
  let lines := Lines.getLines NL text
  Csv.readAll 44 lines.length (LineReader.drain [] lines.length (LineReader.openReader [] skipHeader [some lines]))

/-- Everything from the source text to the text of the sorted file: `update_column_positions` (training_dataset.hpp:334-364) and `FileSorter::sort` with its
defaults (create_dataset_statement.hpp:160-171). `ok none`: no records. A record without one of the columns is undefined behaviour; if a quote is also left open
further down in the file, the model only knows the exception. -/
def Prepares {F : Type} (env : Env F) (given expected : List ColGroup) (hasHeader : Bool) (text : Str) (res : Out (Option Str)) : Prop :=
  match readCsv hasHeader text with
  | none => res = .throws
  | some records =>
    match records.mapM (Columns.newRecord given expected) with
    | none => res = .undefined
    | some [] => res = .ok none
    | some new =>
      ∃ lines, FileSorter.Sorts List.isEmpty [] false 10000 true (Lines.getLines NL (Lines.putLines NL (new.map (Csv.writeRecord env.isNum 44)))) lines ∧
        res = .ok (some (Lines.putLines NL lines))

/-- dataset_utils.hpp:350-361: the purpose of a column. -/
def purposeOf (g : ColGroup) : Char :=
  if g.dataType = "image".toList then 'I' else if g.dataType = "text".toList then 'T' else if g.dataType = "number".toList then 'N' else 'L'

/-- Labels for each group, dataset_utils.hpp:313-325 and 365-375: the distinct values of the first column of a label group. -/
def LabelsOf (recs : List (List Str)) (g : ColGroup) (labels : List Str) : Prop :=
  if g.dataType = "label".toList then Encoders.IsDistinctValues recs g.start labels else labels = []

section
variable {F : Type} [Field F] [LinearOrder F]

/-- A column that is not scaled, dataset_utils.hpp:366-371. -/
def unscaled : Statistics.Column F := ⟨false, 0, 0, false, 0, 0⟩

/-- dataset_utils.hpp:335-342 (`calculate_output_shape`) and 363-375: the description of a column of the raw dataset. -/
def rawMeta (g : ColGroup) (labels : List Str) : Meta F :=
  if purposeOf g = 'L' then ⟨'L', g.rows, Encoders.categoryCount labels, 1, labels, unscaled⟩
  else ⟨purposeOf g, g.rows, g.cols, g.channels, [], unscaled⟩

/-- The encoders, dataset_utils.hpp:313-325, 418-422. -/
def rawEncode (env : Env F) (m : Meta F) (words : List Str) : Out (Tensor F) :=
  if m.purpose = 'I' then Encoders.pixelEncode env.num env.pixel words m.rows m.cols m.chans true
  else if m.purpose = 'N' then Encoders.scalarEncode env.num words m.rows m.cols m.chans true
  else if m.purpose = 'L' then Encoders.categoryEncode m.labels words m.rows m.cols m.chans true
  else .throws

/-- One column of one record, dataset_utils.hpp:399-422. -/
def encodeColumn (env : Env F) (gm : ColGroup × Meta F) (record : List Str) : Out (Tensor F) :=
  if record.length ≤ gm.1.start then .throws
  else if record.length < gm.1.start + gm.1.count then .throws
  else rawEncode env gm.2 ((record.drop gm.1.start).take gm.1.count)

/-- One record, dataset_utils.hpp:392-429: the given columns come first. -/
def encodeRecord (env : Env F) (given expected : List (ColGroup × Meta F)) (record : List Str) : Out (List (Tensor F) × List (Tensor F)) :=
  andThen (collect (fun gm => encodeColumn env gm record) given) fun g => (collect (fun gm => encodeColumn env gm record) expected).map (g, ·)

/-- What reading a tensor back from a dataset file makes of it, file_reader.hpp:503-517. Labels are zeros and ones, which stay as they are. -/
def reload (env : Env F) (m : Meta F) (t : Tensor F) : Tensor F := if m.purpose = 'I' then ⟨t.rows, t.cols, t.chans, fun r c k => env.pixel (t.get r c k)⟩ else t

/-- The constants for a column, dataset_utils.hpp:206-247: only numbers are scaled. Simplification: the constants of other columns, which are never used, stay zero.
Without rows the initial values remain (tensor_utils.hpp:162-169). -/
def scaleOf (env : Env F) (m : Meta F) (column : List (Tensor F)) : Statistics.Column F :=
  if m.purpose = 'N' then
    (Statistics.columnOf env.sqrt (column.foldl Statistics.Running.update (Statistics.Running.init env.lo env.hi))).getD ⟨false, 0, 0, true, env.hi, env.lo⟩
  else unscaled

/-- The columns of rows. -/
def columnAt (rows : List (List (Tensor F))) (i : Nat) : List (Tensor F) := rows.filterMap (·[i]?)

/-- The descriptions of the final dataset, dataset_utils.hpp:181-248 for one side. -/
def finalMetas (env : Env F) (ms : List (Meta F)) (rows : List (List (Tensor F))) : List (Meta F) :=
  ms.zipIdx.map fun (m, i) => { m with column := scaleOf env m (columnAt rows i) }

/-- One row of the final dataset as it is read, dataset_utils.hpp:254-272 for one side. -/
def finalRow (env : Env F) (ms : List (Meta F)) (row : List (Tensor F)) : List (Tensor (Option F)) :=
  List.zipWith (fun (m : Meta F) t => if m.purpose = 'I' then Encoders.plain (reload env m t) else Encoders.scaled m.column t) ms row

/-- `normalize_and_standardize_dataset`, dataset_utils.hpp:176-278, from the rows read from the raw dataset to the rows read from the final one. -/
def finish (env : Env F) (given expected : List (Meta F)) (rows : List (List (Tensor F) × List (Tensor F))) : Dataset F :=
  let given := finalMetas env given (rows.map Prod.fst)
  let expected := finalMetas env expected (rows.map Prod.snd)
  ⟨given, expected, rows.map fun r => (finalRow env given r.1, finalRow env expected r.2)⟩

/-- `create_binary_dataset_from_delimited_values`, dataset_utils.hpp:295-436, and `normalize_and_standardize_dataset`: text columns are not implemented. -/
def Converts (env : Env F) (given expected : List ColGroup) (sorted : Str) (res : Out (Dataset F)) : Prop :=
  match readCsv false sorted with
  | none => res = .throws
  | some recs =>
    if ∃ g ∈ given ++ expected, purposeOf g = 'T' then res = .throws
    else ∃ gl el, List.Forall₂ (LabelsOf recs) given gl ∧ List.Forall₂ (LabelsOf recs) expected el ∧
      let gm := List.zipWith rawMeta given gl
      let em := List.zipWith rawMeta expected el
      res = andThen (collect (encodeRecord env (given.zip gm) (expected.zip em)) recs) fun rows =>
        match BinaryDataset.dedupRows 100000 (fun r => env.hash r.1) LruCache.init rows with
        | none => .undefined
        | some stored => .ok (finish env gm em (stored.map fun r => (List.zipWith (reload env) gm r.1, List.zipWith (reload env) em r.2)))

/-- The known kinds of columns, create_dataset_statement.hpp:60-79. -/
def KnownKind (g : ColGroup) : Prop :=
  (g.dataType = "label".toList ∨ g.dataType = "number".toList ∨ g.dataType = "text".toList ∨ g.dataType = "image".toList) ∧
    (g.use = "expected".toList ∨ g.use = "given".toList)

instance (g : ColGroup) : Decidable (KnownKind g) := by unfold KnownKind; infer_instance

/-- Columns that are refused before they are sorted, create_dataset_statement.hpp:49-79. -/
def Rejected (groups : List ColGroup) : Prop := groups = [] ∨ ∃ g ∈ groups, ¬ KnownKind g

instance (groups : List ColGroup) : Decidable (Rejected groups) := by unfold Rejected; infer_instance

/-- create_dataset_statement.hpp:125-205 for sorted groups and the text of a csv file: `ok none` is a statement that fails with a message. -/
def Creates (env : Env F) (groups : List ColGroup) (hasHeader : Bool) (text : Str) (res : Out (Option (Dataset F))) : Prop :=
  let given := Columns.givenGroups groups
  let expected := Columns.expectedGroups groups
  if given = [] then res = .ok none
  else ∃ prepared, Prepares env given expected hasHeader text prepared ∧
    match prepared with
    | .throws => res = .throws
    | .undefined => res = .undefined
    | .ok none => res = .ok none
    | .ok (some sortedText) =>
      ∃ d, Converts env (Columns.placeFrom 0 given) (Columns.placeFrom ((given.map (·.count)).sum) expected) sortedText d ∧ res = d.map some

/-- `find_last_of('.')` and the parts around it, create_dataset_statement.hpp:100-103: what is before and behind the last period. -/
def splitAtPeriod (s : Str) : Option (Str × Str) :=
  match s.reverse.span (· ≠ 46) with
  | (ext, 46 :: rest) => some (rest.reverse, ext.reverse)
  | _ => none

/-- `file://`, create_dataset_statement.hpp:44 -/
def scheme : Str := [102, 105, 108, 101, 58, 47, 47]

/-- `.csv`, create_dataset_statement.hpp:104 -/
def csv : Str := [46, 99, 115, 118]

/-- The contents of a disk after a file was written. -/
def write (disk : Str → Option Str) (path text : Str) : Str → Option Str := fun p => if p = path then some text else disk p

/-- `CreateDatasetStatement::execute`, create_dataset_statement.hpp:34-206, for a new dataset, with the source on a disk: the converters for tsv and txt files are
given the whole location (108, 113), csv files are found without `file://` (102-104, 121). A location without a period has no known extension. The converters open
the csv file for writing, which empties it, before they know whether there is anything to convert (dataset_utils.hpp:76-80, 90-95). What they write is left open:
`converted`. The second result is the disk, without the dataset itself and without the files next to the source that are removed again (173, 190). -/
def Executes (env : Env F) (converted : Str → Str → Str) (disk : Str → Option Str) (location : Str) (groups : List ColGroup) (hasHeader : Bool)
    (res : Out (Option (Dataset F))) (disk' : Str → Option Str) : Prop :=
  if ¬ scheme <+: location then res = .ok none ∧ disk' = disk
  else if Rejected groups then res = .ok none ∧ disk' = disk
  else ∃ sorted, Columns.SortedFrom groups sorted ∧
    if Columns.hasOverlap sorted = true then res = .ok none ∧ disk' = disk
    else match splitAtPeriod (location.drop scheme.length) with
      | none => res = .ok none ∧ disk' = disk
      | some (base, ext) =>
        if ext = [116, 120, 116] ∨ ext = [116, 115, 118] then
          match disk location with
          | none => res = .ok none ∧ disk' = write disk (base ++ csv) []
          | some text => Creates env sorted (hasHeader && ext ≠ [116, 120, 116]) (converted ext text) res ∧ disk' = write disk (base ++ csv) (converted ext text)
        else if ext = [99, 115, 118] then
          match disk (base ++ csv) with
          | none => res = .ok none ∧ disk' = disk
          | some text => Creates env sorted hasHeader text res ∧ disk' = disk
        else res = .ok none ∧ disk' = disk

end

end Verif.CreateDataset
