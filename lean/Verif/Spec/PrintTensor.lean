import Verif.Spec.PrintRow

/-!
Reading the text of a tensor: its lines, and which of them belongs to a row.
-/
namespace Verif.PrintTensor
open Verif.TextCodec

/-- The lines of a text, each ended by a newline (10). -/
def splitLines : Str → List Str
  | [] => []
  | c :: s =>
    if c = 10 then [] :: splitLines s
    else match splitLines s with
      | [] => [[c]]
      | l :: ls => (c :: l) :: ls

/-- The line of row `r` of channel `k`: the first line is empty, and with several channels each has a line before and a line behind its rows. -/
def lineOf (rows chans r k : Nat) : Nat := if chans = 1 then 1 + r else 1 + k * (rows + 2) + 1 + r

end Verif.PrintTensor
