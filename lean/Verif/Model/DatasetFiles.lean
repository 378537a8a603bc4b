import Verif.Model.CreateDataset
import Verif.Lemmas.Decimal

/-!
# The files that creating a dataset writes and removes (`src/lang/statements/create_dataset_statement.hpp` 34-206)

`Verif.Model.CreateDataset` says what is in the dataset; here the statement is the list of what it does to files, so that it can be stopped between and during any
two of them. A disk is a function from paths to contents; `w` tells which paths can be opened for writing. What the steps compute (`Work`) is left open. For `csv`
files, and for statements whose columns are accepted (49-83). Simplifications: folders are not modelled, different paths are different files, files that exist can
be read and removed, and a chunk file that was there and cannot be written counts as sorted.
-/
namespace Verif.DatasetFiles
open Verif.TextCodec (Str NL)
open Verif.Decimal (dec)
open Verif.CreateDataset (byteOrder)

/-- The bytes of a literal. -/
def text (s : String) : Str := s.toList.map fun c => UInt8.ofNat c.toNat

abbrev Disk := Str → Option Str

/-- What the program does to a file: `ofstream` with everything that is written into it, or `filesystem::remove`. -/
inductive Act
  | write (p s : Str)
  | remove (p : Str)
  deriving DecidableEq

/-- The file of an act. -/
def Act.path : Act → Str
  | .write p _ => p
  | .remove p => p

/-- A disk with a file. -/
def put (k : Disk) (p : Str) (x : Option Str) : Disk := fun q => if q = p then x else k q

/-- A stream that cannot be opened takes what is written without a word. -/
def perform (w : Str → Bool) (k : Disk) : Act → Disk
  | .write p s => if w p then put k p (some s) else k
  | .remove p => put k p none

def play (w : Str → Bool) (k : Disk) (acts : List Act) : Disk := acts.foldl (perform w) k

/-- The disks that can be found when the program is stopped during these acts: some are done, and of the next file some bytes are written. -/
def Stopped (w : Str → Bool) (k : Disk) (acts : List Act) (k' : Disk) : Prop :=
  ∃ done rest, acts = done ++ rest ∧ (k' = play w k done ∨ ∃ p s r n, rest = .write p s :: r ∧ w p = true ∧ k' = put (play w k done) p (some (s.take n)))

/-- How rewriting the columns ends (training_dataset.hpp:334-362). -/
inductive Organized
  | done
  | empty
  | throws
  deriving DecidableEq

/-- What the steps compute from the contents of files: the file with the given columns in front (training_dataset.hpp:334-362), the raw dataset and whether making it
throws no exception (dataset_utils.hpp:295-446), the final dataset (dataset_utils.hpp:176-278). -/
structure Work where
  organize : Str → Str × Organized
  raw : Str → Str × Bool
  final : Str → Str

/-- How the statement ends; `existing` and `created` are reported as success. -/
inductive Result
  | existing
  | created
  | failed
  | throws
  deriving DecidableEq

/-- `std::filesystem::path(file).parent_path()`, text_file_sorter.hpp:29: what is before the last slash (for a file in the root folder C++ gives `/`). -/
def parent (p : Str) : Str := ((p.reverse.dropWhile (· ≠ 47)).drop 1).reverse

/-- text_file_sorter.hpp:55, 71 and 101 -/
def chunkPath (folder : Str) (i : Nat) : Str := folder ++ text "/chunk_" ++ dec i ++ text ".txt"

/-- The order of lines is the one by bytes, as for `std::string` (not core Lean's own instance for lists, which Mathlib replaces). -/
instance (priority := high) : LE Str := Preorder.toLE
instance (priority := high) : LT Str := Preorder.toLT

/-- The lines of sorted chunks in order without repetition: what the loop of text_file_sorter.hpp:137-151 writes (`merged_unique`). -/
def merged (chunks : List (List Str)) : List Str := chunks.flatten.dedup.insertionSort (· ≤ ·)

/-- The chunks that are opened for merging: up to the first that is not there, text_file_sorter.hpp:100-115. -/
def openChunks (k : Disk) (folder : Str) : List Nat → List (List Str)
  | [] => []
  | i :: is => match k (chunkPath folder i) with | none => [] | some s => Lines.getLines NL s :: openChunks k folder is

/-- `FileSorter::sort(file, result, false)`, text_file_sorter.hpp:28-87. -/
def sortActs (w : Str → Bool) (k : Disk) (file result : Str) : List Act :=
  let cs := FileSorter.chunks List.isEmpty 10000 (Lines.getLines NL ((k file).getD []))
  let writes := cs.zipIdx.map fun c => .write (chunkPath (parent file) c.2) (Lines.putLines NL c.1)
  writes ++ .write result (Lines.putLines NL (merged (openChunks (play w k writes) (parent file) (List.range cs.length)))) ::
    (List.range cs.length).map fun i => .remove (chunkPath (parent file) i)

def csvOf (base : Str) : Str := base ++ text ".csv"
def organizedOf (base : Str) : Str := base ++ text ".given-expected.csv"
def sortedOf (base : Str) : Str := base ++ text ".sorted.csv"
/-- execution_context.hpp:14 and 36-38 -/
def datasetOf (name : Str) : Str := text "../happyml_repo/datasets/" ++ name
def finalOf (name : Str) : Str := datasetOf name ++ text "/dataset.bin"
def rawOf (name : Str) : Str := datasetOf name ++ text "/raw.bin"

/-- create_dataset_statement.hpp:34-206: the acts and the result. The parts: 37-42 an existing dataset; 121-124 no source; 159-163 the columns; 168-176 sorting;
183-193 the raw dataset (it throws if the file cannot be opened, dataset_utils.hpp:386-389); 199-205 the dataset, whose stream nobody checks. -/
def statement (work : Work) (w : Str → Bool) (k : Disk) (name base : Str) : Result × List Act :=
  if (k (finalOf name)).isSome then (.existing, [])
  else match k (csvOf base) with
  | none => (.failed, [])
  | some source =>
    let o := work.organize source
    let a1 := [Act.write (organizedOf base) o.1]
    if w (organizedOf base) = false then (if o.2 = .empty then .failed else .throws, a1)
    else match o.2 with
    | .throws => (.throws, a1)
    | .empty => (.failed, a1)
    | .done =>
      let k1 := play w k a1
      let a2 := a1 ++ sortActs w k1 (organizedOf base) (sortedOf base) ++ [.remove (organizedOf base)]
      let k2 := play w k a2
      let r := work.raw ((k2 (sortedOf base)).getD [])
      let a3 := a2 ++ [.write (rawOf name) r.1]
      if w (rawOf name) = false ∨ r.2 = false then (.throws, a3)
      else
        let k3 := play w k a3
        if (k3 (sortedOf base)).isNone then (.failed, a3)
        else
          let k4 := play w k (a3 ++ [.remove (sortedOf base)])
          (.created, a3 ++ [.remove (sortedOf base), .write (finalOf name) (work.final ((k4 (rawOf name)).getD [])), .remove (rawOf name)])

/-- The disk after the statement. -/
def after (work : Work) (w : Str → Bool) (k : Disk) (name base : Str) : Disk := play w k (statement work w k name base).2

end Verif.DatasetFiles
