import Verif.Model.Bpe
import Verif.Model.Tokenizer
import Mathlib.Data.Rat.Defs

/-!
Training a tokenizer on files and measuring its compression, /repo/src/ml/byte_pair_encoder.hpp.

Simplifications: files that cannot be opened and progress output are left out; `double` is an exact fraction (the lengths are far below 2^53).
-/
namespace Verif.Bpe

/-- `buildVocab` on files, byte_pair_encoder.hpp:601-649, called by 127-139 for one file and by 170-187 for each file of a folder: the text is read in pieces of
256 KiB and cut into tokens (data_util.hpp:57-89), the counts of all files go to the same map. The call-back counts the pairs of a token when the token is complete;
nothing changes the code table meanwhile. -/
def filesVocab (m : Model) (files : List Str8) : Option Vocab := buildVocab m (files.flatMap (Tokenizer.fileTokens 262144 (by decide)))

/-- `train_on_file`, byte_pair_encoder.hpp:127-151 (one file), and `train_on_folder`, 155-203: the code map starts empty (141, 193), the code counter and the encoder
that is used for counting are those of the object. -/
def trainOnFiles (o : Oracle) (fuel : Nat) (m : Model) (files : List Str8) : Option Model := (filesVocab m files).bind (trainOnVocab o fuel m)

/-- `validate_compression_rate`, byte_pair_encoder.hpp:501-518. -/
def compressionRate (m : Model) (texts : List Str8) (total : Nat) : Rat :=
  let total := if total < 1 then (texts.map List.length).sum else total
  if total < 1 then 0 else ((texts.map fun t => (encode m t).length).sum : Rat) / total

end Verif.Bpe
