import Verif.Model.Encoders
import Verif.Model.LineReader

/-!
Loading a delimited text file into memory: `loadDelimitedValuesDataset` (/repo/src/util/dataset_utils.hpp 449-487), on the models of the readers (`LineReader`, `Csv`)
and encoders (`Encoders`).
-/
namespace Verif.LoadDelimited
open Verif.TextCodec (Str)
open Verif.Encoders (Out)
variable {F : Type}

/-- Parameters of the encoders: `std::from_chars`, and what storing a value in a `PixelTensor` makes of it. -/
structure Library (F : Type) where
  num : Str → Option F
  pixel : F → F

/-- The subclasses of `DataEncoder` in use: data_encoder.hpp:162-283. -/
inductive Encoder where
  | scalar
  | pixel
  | category (labels : List Str)

/-- `vector<size_t>` of rows, columns and channels. -/
structure Shape where
  rows : Nat
  cols : Nat
  chans : Nat

/-- The virtual method `encode`: data_encoder.hpp:164-187, 196-213, 234-276. -/
def Encoder.encode [Field F] (lib : Library F) (e : Encoder) (words : List Str) (s : Shape) (trim : Bool) : Out (Tensor F) :=
  match e with
  | .scalar => Encoders.scalarEncode lib.num words s.rows s.cols s.chans trim
  | .pixel => Encoders.pixelEncode lib.num lib.pixel words s.rows s.cols s.chans trim
  | .category labels => Encoders.categoryEncode labels words s.rows s.cols s.chans trim

/-- The arguments except the path: dataset_utils.hpp:449-456. -/
structure Setup where
  delimiter : UInt8
  header : Bool
  trim : Bool
  expectedFirst : Bool
  expectedColumns : Nat
  givenColumns : Nat
  expectedShape : Shape
  givenShape : Shape
  expectedEncoder : Encoder
  givenEncoder : Encoder

/-- training_pair.hpp: what `addTrainingData` stores (training_dataset.hpp:193-198). -/
structure Pair (F : Type) where
  given : Tensor F
  expected : Tensor F

/-- Two calls in a row. -/
def both {A B C : Type} (a : Out A) (b : Out B) (f : A → B → C) : Out C :=
  match a with
  | .throws => .throws
  | .undefined => .undefined
  | .ok x => match b with
    | .throws => .throws
    | .undefined => .undefined
    | .ok y => .ok (f x y)

/-- dataset_utils.hpp:464-483, one record. Advancing the iterator past the end is undefined. -/
def loadRecord [Field F] (lib : Library F) (s : Setup) (record : List Str) : Out (Pair F) :=
  let middle := if s.expectedFirst then s.expectedColumns else s.givenColumns
  if record.length < middle then .undefined
  else if s.expectedFirst then
    both (s.expectedEncoder.encode lib (record.take middle) s.expectedShape s.trim) (s.givenEncoder.encode lib (record.drop middle) s.givenShape s.trim)
      fun first second => ⟨second, first⟩
  else
    both (s.givenEncoder.encode lib (record.take middle) s.givenShape s.trim) (s.expectedEncoder.encode lib (record.drop middle) s.expectedShape s.trim)
      fun first second => ⟨first, second⟩

/-- The loop of dataset_utils.hpp:462-484, on the lines that the line reader delivers; every record takes at least one line. -/
def loadLines [Field F] (lib : Library F) (s : Setup) : Nat → List Str → Out (List (Pair F))
  | 0, _ => .ok []
  | _ + 1, [] => .ok []
  | fuel + 1, l :: ls => match Csv.nextRecord s.delimiter (l :: ls) with
    | none => .throws
    | some (record, rest) => both (loadRecord lib s record) (loadLines lib s fuel rest) List.cons

/-- The number of lines of some files. -/
def lineCount (files : List (Option (List Str))) : Nat := (files.map fun f => (f.getD []).length).sum

/-- `loadDelimitedValuesDataset`, dataset_utils.hpp:449-487. The files at the path are given as their lines (`none`: the file cannot be opened), the result are the `pairs` of
the dataset. -/
def load [Field F] (lib : Library F) (s : Setup) (files : List (Option (List Str))) : Out (List (Pair F)) :=
  loadLines lib s (lineCount files) (LineReader.drain [] (lineCount files) (LineReader.openReader [] s.header files))

end Verif.LoadDelimited
