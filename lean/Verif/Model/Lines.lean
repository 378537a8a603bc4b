/-!
Model of reading a text stream line by line with `std::getline` until it fails, as used by
/repo/src/util/data_util.hpp 170-194 (`load_file_to_lines`), /repo/src/util/file_reader.hpp 24-118 (`TextLinePathReader`) and
/repo/src/util/text_file_sorter.hpp. Generic in the character type.
-/
namespace Verif.Lines

/-- The lines `std::getline` delivers: the pieces between newlines; what follows the last newline is delivered only if not empty. -/
def getLines {α : Type} [DecidableEq α] (nl : α) : List α → List (List α)
  | [] => []
  | c :: cs =>
    if c = nl then [] :: getLines nl cs
    else match getLines nl cs with
      | [] => [[c]]
      | l :: ls => (c :: l) :: ls

/-- Writing each line followed by `endl`, /repo/src/util/file_writer.hpp 41-46 (`TextLineFileWriter::writeLine`). -/
def putLines {α : Type} (nl : α) (ls : List (List α)) : List α := ls.flatMap (· ++ [nl])

end Verif.Lines
