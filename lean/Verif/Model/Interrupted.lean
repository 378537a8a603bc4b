import Verif.Model.ModelFiles
import Verif.Model.BinaryDataset

/-!
# Saving that is cut short (`src/ml/neural_network.hpp` 213-263, `src/util/data_util.hpp` 36-54, `src/types/base_tensors.hpp` 132-169, `src/util/file_writer.hpp` 27-46)

Here the tensor files of a disk are their bytes. Two things can go wrong. The program may be stopped in the middle of a call: `SavingAs` and `SavingKnowledge` are the disks
that are found then. Or the disk may not take all bytes: `saveAsOn` and `saveKnowledgeOn` are the calls with a disk that takes `room q` bytes for the file `q`.
Simplifications: what a call has done is on the disk at once and in the order of the program (no cache of the operating system); a file that is cut short is a prefix of
the complete one; making and removing folders does not fail for lack of room. The other simplifications are those of `Verif.Model.ModelFiles`.
-/

namespace Verif.Interrupted
open Verif.TextCodec Verif.ModelFiles

/-- The contents of a tensor file. -/
abbrev Raw := List BinaryDataset.Byte

/-! ### The program is stopped -/

/-- During `filesystem::remove_all`: some of what is to be removed is gone already. -/
def Removing (k : Disk Raw) (p : Path) (k' : Disk Raw) : Prop := ∀ q, k' q = k q ∨ p <:+ q ∧ k' q = none

/-- During `filesystem::create_directories`: some of the folders, the outer ones first, have been made. -/
def Creating (k : Disk Raw) (p : Path) (k' : Disk Raw) : Prop := ∃ r, r <:+ p ∧ createDirectories r k = some k'

/-- While a text file is written, file_writer.hpp:29-46: it is not opened yet, or some of the text is in it. -/
def WritingText (k : Disk Raw) (p : Path) (s : Str) (k' : Disk Raw) : Prop :=
  k' = k ∨ canWrite k p = true ∧ ∃ n, k' = put k p (.file (.text (s.take n)))

/-- While a tensor is written, base_tensors.hpp:132-160. -/
def WritingTensor (k : Disk Raw) (p : Path) (b : Raw) (k' : Disk Raw) : Prop :=
  k' = k ∨ canWrite k p = true ∧ ∃ n, k' = put k p (.file (.tensor (b.take n)))

/-- While it is decided where to save and the folder is made, neural_network.hpp:214-232, data_util.hpp:37-52. -/
def Preparing (k : Disk Raw) (p : Path) (overwrite : Bool) (ms : Nat) (k' : Disk Raw) : Prop :=
  if isDir k p then
    if overwrite then Removing k p k' ∨ Creating (removeAll k p) p k' else Creating k (stamped p ms) k'
  else Creating k p k'

/-- While the tensors of all layers are written into a folder, neural_network.hpp:259-262. -/
def WritingAll (q : Path) : List (Str × Raw) → Disk Raw → Disk Raw → Prop
  | [], k, k' => k' = k
  | f :: fs, k, k' => WritingTensor k (f.1 :: q) f.2 k' ∨ WritingAll q fs (writeTensor k (f.1 :: q) f.2) k'

/-- The disks that can be found when the program is stopped during `saveKnowledge`, neural_network.hpp:257-263. -/
def SavingKnowledge (k : Disk Raw) (p : Path) (label : Str) (overwrite : Bool) (ms : Nat) (files : List (Str × Raw)) (k' : Disk Raw) : Prop :=
  Preparing k (label :: p) overwrite ms k' ∨ ∃ q k1, folder k (label :: p) overwrite ms = some (q, k1) ∧ WritingAll q files k1 k'

/-- The disks that can be found when the program is stopped during `saveAs`, neural_network.hpp:213-242. -/
def SavingAs (k : Disk Raw) (p : Path) (overwrite : Bool) (ms ms' : Nat) (config : Str) (files : List (Str × Raw)) (k' : Disk Raw) : Prop :=
  Preparing k p overwrite ms k' ∨ ∃ q k1, folder k p overwrite ms = some (q, k1) ∧ (WritingText k1 (configName :: q) config k' ∨
    ∃ k2, writeText k1 (configName :: q) config = some k2 ∧ SavingKnowledge k2 p defaultLabel overwrite ms' files k')

/-! ### The disk does not take everything -/

/-- Writing lines of text, file_writer.hpp:41-46: only a file that is not open is reported; `stream_ << line` sets a flag that nobody reads. -/
def writeTextOn (room : Path → Nat) (k : Disk Raw) (p : Path) (s : Str) : Option (Disk Raw) :=
  if canWrite k p then some (put k p (.file (.text (s.take (room p))))) else none

/-- `BaseTensor::save(fileName)`, base_tensors.hpp:156-169, and its result. The handler in 163-168 is never reached, because exceptions are not enabled on the stream. -/
def saveTensor (room : Path → Nat) (k : Disk Raw) (p : Path) (b : Raw) : Disk Raw × Bool :=
  (if canWrite k p then put k p (.file (.tensor (b.take (room p)))) else k, true)

/-- `saveKnowledge`, neural_network.hpp:257-263. The layers do not look at the result of `save` (fully_connected_layer.hpp:39-42, bias_layer.hpp:33-36,
convolution_2d_valid_layer.hpp:37-43). -/
def saveKnowledgeOn (room : Path → Nat) (k : Disk Raw) (p : Path) (label : Str) (overwrite : Bool) (ms : Nat) (files : List (Str × Raw)) : Option (Disk Raw) :=
  (folder k (label :: p) overwrite ms).map fun (q, k) => files.foldl (fun k f => (saveTensor room k (f.1 :: q) f.2).1) k

/-- `saveAs`, neural_network.hpp:213-242. -/
def saveAsOn (room : Path → Nat) (k : Disk Raw) (p : Path) (overwrite : Bool) (ms ms' : Nat) (config : Str) (files : List (Str × Raw)) : Option (Disk Raw) :=
  (folder k p overwrite ms).bind fun (q, k) =>
    (writeTextOn room k (configName :: q) config).bind fun k => saveKnowledgeOn room k p defaultLabel overwrite ms' files

end Verif.Interrupted
