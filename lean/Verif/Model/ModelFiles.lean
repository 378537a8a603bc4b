import Verif.Model.Dsl
import Verif.Model.Csv
import Verif.Model.Lines

/-!
# Saving and loading models (`src/ml/neural_network.hpp` 203-286, `src/util/data_util.hpp` 36-54, `src/ml/happyml_dsl.hpp` 938-1010)

A path is the list of its components, the innermost first, so that `label :: p` is `p + "/" + label`. Simplifications: there are no symbolic links and paths are
already canonical (`filesystem::canonical` gives the same path); names and labels are single components; nothing else changes the disk meanwhile; the disk does not
become full. The weights of a layer are values of some type `T`; that a tensor survives its own file is C28.
-/

namespace Verif.ModelFiles
open Verif.TextCodec Verif.Decimal Verif.Dsl

/-- A path, innermost component first. -/
abbrev Path := List Str

/-- What a file contains. -/
inductive Content (T : Type)
  | text (s : Str)
  | tensor (t : T)
  deriving DecidableEq

/-- What is at a path. -/
inductive Entry (T : Type)
  | dir
  | file (c : Content T)
  deriving DecidableEq

/-- The file system. -/
abbrev Disk (T : Type) := Path → Option (Entry T)

variable {T : Type}

/-- `filesystem::is_directory` -/
def isDir (k : Disk T) (p : Path) : Bool := match k p with | some .dir => true | _ => false

/-- The disk with one entry changed. -/
def put (k : Disk T) (p : Path) (e : Entry T) : Disk T := fun q => if q = p then some e else k q

/-- `filesystem::remove_all`: the path and everything below it. -/
def removeAll (k : Disk T) (p : Path) : Disk T := fun q => if p <:+ q then none else k q

/-- `filesystem::create_directories`: `none` is the exception if a component is a file. -/
def createDirectories : Path → Disk T → Option (Disk T)
  | [], k => some k
  | n :: r, k => (createDirectories r k).bind fun k =>
    match k (n :: r) with
    | some .dir => some k
    | some (.file _) => none
    | none => some (put k (n :: r) .dir)

/-- Whether an `ofstream` for a path can be opened. -/
def canWrite (k : Disk T) : Path → Bool
  | [] => false
  | n :: r => isDir k r && !isDir k (n :: r)

/-- A `DelimitedTextFileWriter` that writes at least one record: `writeLine` throws if the file could not be opened, file_writer.hpp:41-46. -/
def writeText (k : Disk T) (p : Path) (s : Str) : Option (Disk T) := if canWrite k p then some (put k p (.file (.text s))) else none

/-- `BaseTensor::save`, base_tensors.hpp:156-169: a stream that could not be opened does not throw (exceptions are not enabled on it); nothing is written. -/
def writeTensor (k : Disk T) (p : Path) (t : T) : Disk T := if canWrite k p then put k p (.file (.tensor t)) else k

/-- `FullTensor(path)`: `none` if there is no such tensor (the dimensions are then read from a stream that is not open, so that they are not initialised). -/
def readTensor (k : Disk T) (p : Path) : Option T := match k p with | some (.file (.tensor t)) => some t | _ => none

/-- `path += "_" + ms`, neural_network.hpp:224-226, data_util.hpp:43-45; `ms` is the clock. -/
def stamped (p : Path) (ms : Nat) : Path :=
  match p with
  | [] => [95 :: dec ms]
  | n :: r => (n ++ 95 :: dec ms) :: r

/-- Where to save, neural_network.hpp:213-232 and, with the same logic, data_util.hpp:36-52: an existing folder is replaced or another one is used. -/
def folder (k : Disk T) (p : Path) (overwrite : Bool) (ms : Nat) : Option (Path × Disk T) :=
  if isDir k p then
    if overwrite then (createDirectories p (removeAll k p)).map fun k => (p, k)
    else (createDirectories (stamped p ms) k).map fun k => (stamped p ms, k)
  else (createDirectories p k).map fun k => (p, k)

/-- `saveKnowledge`, neural_network.hpp:257-263: the tensors of all layers, in order. -/
def saveKnowledge (k : Disk T) (p : Path) (label : Str) (overwrite : Bool) (ms : Nat) (files : List (Str × T)) : Option (Disk T) :=
  (folder k (label :: p) overwrite ms).map fun (q, k) => files.foldl (fun k f => writeTensor k (f.1 :: q) f.2) k

/-- `removeKnowledge`, neural_network.hpp:270-273. -/
def removeKnowledge (k : Disk T) (p : Path) (label : Str) : Disk T := removeAll k (label :: p)

def configName : Str := text "model.config"
def defaultLabel : Str := text "default"

/-- `saveAs`, neural_network.hpp:213-242. `ms` and `ms'` are the two times at which the clock is read. -/
def saveAs (k : Disk T) (p : Path) (overwrite : Bool) (ms ms' : Nat) (config : Str) (files : List (Str × T)) : Option (Disk T) :=
  (folder k p overwrite ms).bind fun (q, k) =>
    (writeText k (configName :: q) config).bind fun k => saveKnowledge k p defaultLabel overwrite ms' files

/-! ### Networks -/

/-- The weights of a vertex: the matrix of a full layer, one filter of a convolution, or a bias. -/
inductive Part
  | full
  | filter (i : Nat)
  | bias
  deriving DecidableEq, Repr

/-- The weights a vertex has, happyml_dsl.hpp:419-490 and convolution_2d_valid_layer.hpp:37-53. -/
def parts (x : Vertex) : List Part :=
  (match x.kind with
    | .full => [.full]
    | .convolution2dValid => (List.range x.filters).map .filter
    | _ => []) ++ if x.bias then [.bias] else []

/-- The name of the file for some weights: the label of the node (happyml_dsl.hpp:425, 465, 482) with what its layer appends (fully_connected_layer.hpp:39-47,
convolution_2d_valid_layer.hpp:40, 49, bias_layer.hpp:34, 39). -/
def fileName (s : Nat × Part) : Str :=
  dec s.1 ++ match s.2 with
    | .full => text "_full.tensor"
    | .filter i => text "_c2dv_" ++ dec i ++ text ".tensor"
    | .bias => text "_bias.tensor"

/-- The order in which nodes save their weights, neural_network_node.hpp:68-76: the node, then everything behind each of its connections. A node behind several
connections comes several times. That every node is visited is C102. -/
def visit (d : Dsl) : Nat → Nat → Option (List Nat)
  | 0, _ => none
  | fuel + 1, v => ((children d v).mapM (visit d fuel)).map fun l => v :: l.flatten

/-- The weights of all vertices in the order of saving, neural_network.hpp:259-262. -/
def slots (d : Dsl) : Option (List (Nat × Part)) :=
  ((heads d).mapM (visit d (d.length + 1))).map fun l =>
    l.flatten.flatMap fun v => (((vertexAt d v).map fun x => parts x.1).getD []).map fun q => (v, q)

/-- A network: settings, layers and weights. -/
structure Net (T : Type) where
  settings : Settings
  dsl : Dsl
  weights : Nat × Part → T

/-- The text of the configuration file, neural_network.hpp:234-239; the delimiter is a colon. `num` is the library's test for numbers, as in C15. -/
def configText (num : Str → Bool) (rows : List (List Str)) : Str := Lines.putLines NL (rows.map (Csv.writeRecord num 58))

/-- `saveAs` of a network. -/
def saveNet (num : Str → Bool) (k : Disk T) (p : Path) (overwrite : Bool) (ms ms' : Nat) (net : Net T) : Option (Disk T) :=
  (metadata net.settings net.dsl).bind fun rows => (slots net.dsl).bind fun l =>
    saveAs k p overwrite ms ms' (configText num rows) (l.map fun s => (fileName s, net.weights s))

/-- The records of a configuration file. -/
def configRecords (s : Str) : Option (List (List Str)) :=
  Csv.readAll 58 s.length (LineReader.drain [] s.length (LineReader.openReader [] false [some (Lines.getLines NL s)]))

/-- `loadKnowledge`, neural_network.hpp:280-286: the weights of all layers of a network. -/
def loadKnowledge (k : Disk T) (p : Path) (label : Str) (d : Dsl) : Option (List ((Nat × Part) × T)) :=
  (slots d).bind fun l => l.mapM fun s => (readTensor k (fileName s :: label :: p)).map fun t => (s, t)

/-- `loadNeuralNetworkForTraining`, happyml_dsl.hpp:938-1010: settings, layers and weights. `none`: an exception or undefined behaviour. -/
def loadNet (k : Disk T) (p : Path) : Option (Settings × Dsl × List ((Nat × Part) × T)) :=
  match k (configName :: p) with
  | some (.file (.text s)) =>
    (configRecords s).bind fun rows => (load rows).bind fun (st, d) => (loadKnowledge k p defaultLabel d).map fun w => (st, d, w)
  | _ => none

end Verif.ModelFiles
