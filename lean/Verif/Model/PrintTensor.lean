import Verif.Model.PrintRow

/-!
# The text of a tensor (`BaseTensor::print`, `src/types/base_tensors.hpp` 635-669)

`fmt` stands for the output of one number with the chosen precision and `fixed`: `Decimal.asStringFloat` for 15 decimals, `PrintRow.fixed3` for three.
-/
namespace Verif.PrintTensor
open Verif.TextCodec Verif.PrintRow

/-- The loop over the columns, base_tensors.hpp 653-656. -/
def columnLoop (fmt : BitVec 32 → Str) : Str → Str → List (BitVec 32) → Str
  | out, _, [] => out
  | out, delim, x :: xs => columnLoop fmt (out ++ delim ++ fmt x) [44, 32] xs

/-- The loop over the rows, base_tensors.hpp 646-662. `several` is `rows > 1`. -/
def rowLoop (fmt : BitVec 32 → Str) (several : Bool) : Str → List (List (BitVec 32)) → Str
  | out, [] => out
  | out, row :: rest =>
    rowLoop fmt several (columnLoop fmt (out ++ if several then [124] else [91]) [] row ++ if several then [124, 10] else [93, 10]) rest

/-- The loop over the channels, base_tensors.hpp 642-666. -/
def channelLoop (fmt : BitVec 32 → Str) (many several : Bool) : Str → List (List (List (BitVec 32))) → Str
  | out, [] => out
  | out, rows :: rest =>
    channelLoop fmt many several (rowLoop fmt several (out ++ if many then [91, 10] else []) rows ++ if many then [93, 10] else []) rest

/-- `print(ostream &, int)`, base_tensors.hpp 638-668. -/
def print (fmt : BitVec 32 → Str) (t : Tensor (BitVec 32)) : Str :=
  channelLoop fmt (1 < t.chans) (1 < t.rows) [10]
    ((List.range t.chans).map fun k => (List.range t.rows).map fun r => (List.range t.cols).map fun c => t.get r c k)

/-- `print()`, base_tensors.hpp 635-637: three decimals. -/
def printShort (t : Tensor (BitVec 32)) : Str := print fixed3 t

/-- `RawDecoder::decodeBest`, data_decoder.hpp 71-75: 15 decimals, the default of base_tensors.hpp 639. -/
def decodeBest (t : Tensor (BitVec 32)) : Str := print Decimal.asStringFloat t

end Verif.PrintTensor
