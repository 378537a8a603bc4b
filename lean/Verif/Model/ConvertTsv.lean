import Verif.Model.Csv

/-!
Converting a tab-separated file to a csv file: `convert_tsv_to_csv`, /repo/src/util/dataset_utils.hpp 75-88.
-/
namespace Verif.ConvertTsv
open Verif.TextCodec (Str NL)
open Verif.Csv

def TAB : UInt8 := 9
def COMMA : UInt8 := 44

/-- What the call did: its answer (`none`: an exception) and the bytes of the csv file afterwards. -/
structure Result where
  answer : Option Bool
  csv : Str
  deriving DecidableEq

/-- The loop of dataset_utils.hpp:81-83 over the lines that the line reader delivers: the lines written, and whether it ended without an exception. Every record takes at least
one line. -/
def copy (num : Str → Bool) : Nat → List Str → List Str × Bool
  | 0, _ => ([], true)
  | _ + 1, [] => ([], true)
  | fuel + 1, l :: ls => match nextRecord TAB (l :: ls) with
    | none => ([], false)
    | some (record, rest) => (writeRecord num COMMA record :: (copy num fuel rest).1, (copy num fuel rest).2)

/-- `convert_tsv_to_csv`, dataset_utils.hpp:75-88, if the csv file can be opened, which empties it (file_writer.hpp:27-29). `source` are the lines of the tsv file, `none` if it
cannot be opened. The reader is open (`cur`) as long as its stream is: it reads the first line when it is made, and closes the stream if there is none (file_reader.hpp:65-96). -/
def convert (num : Str → Bool) (source : Option (List Str)) : Result :=
  let reader := LineReader.openReader [] false [source]
  if reader.cur = none then ⟨some false, []⟩
  else
    let fuel := (source.getD []).length
    let written := copy num fuel (LineReader.drain [] fuel reader)
    ⟨if written.2 then some true else none, Lines.putLines NL written.1⟩

end Verif.ConvertTsv
