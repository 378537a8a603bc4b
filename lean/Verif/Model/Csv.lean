import Verif.Model.TextCodec
import Verif.Model.ReplaceAll
import Verif.Model.LineReader

/-!
Model of the delimited text writer and reader: /repo/src/util/file_writer.hpp 57-101 (`DelimitedTextFileWriter`) and
/repo/src/util/file_reader.hpp 120-200 (`DelimitedTextFileReader`), with `strip` and `isFloat` from
/repo/src/training_data/data_encoder.hpp 28-38, 64-68.
-/
namespace Verif.Csv
open Verif.TextCodec Verif.ReplaceAll

/-- The double quote character. -/
def Q : UInt8 := 34

/-- `std::isspace` in the C locale. -/
def isSpace (c : UInt8) : Bool := c = 32 || (9 ≤ c && c ≤ 13)

/-- `strip`, data_encoder.hpp 28-38. -/
def strip (s : Str) : Str := ((s.dropWhile isSpace).reverse.dropWhile isSpace).reverse

/-- ASCII digits. -/
def isDigit (c : UInt8) : Bool := 48 ≤ c && c ≤ 57

/-- `isFloat`, data_encoder.hpp 64-68: `std::from_chars` accepts when some prefix of the text is a number (an optional minus sign, then a digit, or a
point and a digit, or `inf`/`nan` in any case). Simplification: numbers out of the range of `float` are rejected by `from_chars` but accepted here; the
theorems below hold for an arbitrary predicate in place of this one. -/
def isFloat (s : Str) : Bool :=
  let t := match s with | 45 :: t => t | t => t
  match t with
  | [] => false
  | c :: rest => isDigit c || (c = 46 && (match rest with | d :: _ => isDigit d | [] => false)) ||
      (match rest with
       | d :: e :: _ => ((c = 105 || c = 73) && (d = 110 || d = 78) && (e = 102 || e = 70)) ||
                        ((c = 110 || c = 78) && (d = 97 || d = 65) && (e = 110 || e = 78))
       | _ => false)

/-- Lines 77 of file_writer.hpp and 187-188 of file_reader.hpp: first and last character are quotes (true also for a single quote character). -/
def quoted (s : Str) : Bool := s.head? = some Q && s.getLast? = some Q

/-- `substr(1, length - 2)`, file_writer.hpp 78, file_reader.hpp 189 (for length 1 the count wraps around and the result is empty). -/
def unquote (s : Str) : Str := (s.drop 1).dropLast

/-- The encoding of one non-numeric column, file_writer.hpp 79-81, 84-86. -/
def wrap (d : UInt8) (s : Str) : Str := Q :: encode d (replaceAll s [Q] [Q, Q]) ++ [Q]

/-- One column of `writeRecord`, file_writer.hpp 74-88. -/
def writeField (num : Str → Bool) (d : UInt8) (column : Str) : Str :=
  let s := strip column
  if s = [] then s
  else if quoted s then wrap d (unquote s)
  else if num s then s
  else wrap d s

/-- `writeRecord` without the line end, file_writer.hpp 70-93. -/
def writeRecord (num : Str → Bool) (d : UInt8) : List Str → Str
  | [] => []
  | [f] => writeField num d f
  | f :: fs => writeField num d f ++ d :: writeRecord num d fs

/-- `DelimitedTextFileReader::decode`, file_reader.hpp 184-194. -/
def decodeField (d : UInt8) (word : Str) : Str :=
  let s := strip word
  let s := if quoted s then unquote s else s
  TextCodec.decode d (replaceAll s [Q, Q] [Q])

/-- The variables of `nextRecord`, file_reader.hpp 145-147. -/
structure Scan where
  result : List Str
  word : Str
  inQuotes : Bool
deriving DecidableEq

/-- The character loop over one line, file_reader.hpp 151-171. -/
def scanLine (d : UInt8) : Str → Scan → Scan
  | [], st => st
  | c :: cs, st =>
    if c = d ∧ st.inQuotes = false then scanLine d cs ⟨st.result ++ [decodeField d st.word], [], false⟩
    else if c = Q then
      if st.inQuotes = false then scanLine d cs { st with inQuotes := true }
      else match cs with
        | [] => scanLine d [] { st with inQuotes := false }
        | c' :: cs' => if c' = Q then scanLine d cs' { st with word := st.word ++ [c] } else scanLine d (c' :: cs') { st with inQuotes := false }
    else scanLine d cs { st with word := st.word ++ [c] }
termination_by cs => cs.length

/-- The loop over lines, file_reader.hpp 149-177, on the lines not yet read; the second component is what remains unread. -/
def scanLines (d : UInt8) : List Str → Scan → Scan × List Str
  | [], st => (st, [])
  | l :: ls, st =>
    let st' := scanLine d l st
    if st'.inQuotes = false then (st', ls) else scanLines d ls { st' with word := st'.word ++ [NL] }

/-- `nextRecord`, file_reader.hpp 144-182; `none` is the exception "unclosed quote". -/
def nextRecord (d : UInt8) (lines : List Str) : Option (List Str × List Str) :=
  let r := scanLines d lines ⟨[], [], false⟩
  if r.1.inQuotes then none else some (r.1.result ++ [decodeField d r.1.word], r.2)

/-- A caller's loop `while (hasNext()) records.push_back(nextRecord())`. -/
def readAll (d : UInt8) : Nat → List Str → Option (List (List Str))
  | 0, _ => some []
  | _ + 1, [] => some []
  | fuel + 1, l :: ls => (nextRecord d (l :: ls)).bind (fun r => (readAll d fuel r.2).map (r.1 :: ·))

end Verif.Csv
