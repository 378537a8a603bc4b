import Verif.Model.Tensor
import Verif.Model.Bytes
import Verif.Model.FloatArith
import Verif.Model.QuarterFloat
import Verif.Model.LruCache

/-
Model of tensor save/load (`/repo/src/types/base_tensors.hpp`:132-154, `tensor_impls/full_tensor.hpp`, `pixel_tensor.hpp`,
`quarter_tensor.hpp`) and of the binary dataset files (`/repo/src/util/file_writer.hpp`:118-260,
`/repo/src/util/file_reader.hpp`:202-518).

A file is its list of bytes. A read that needs more bytes than are left is `none` (the C++ leaves the destination
indeterminate). Floats are bit patterns. I/O errors are not modelled.
-/
namespace Verif.BinaryDataset
open Verif Bytes

abbrev Byte := BitVec 8
/-- A read from the current stream position: the value and the remaining bytes. -/
abbrev Read (α : Type) := List Byte → Option (α × List Byte)

/-- `stream.read(p, n)` -/
def readBytes (n : Nat) : Read (List Byte) := fun bs =>
  if n ≤ bs.length then some (bs.take n, bs.drop n) else none

/-- Read 8 bytes and swap (file_reader.hpp:467-475, full_tensor.hpp:173-178). -/
def readU64 : Read (BitVec 64) := fun bs =>
  (readBytes 8 bs).bind fun (l, rest) => (read64 l).map (·, rest)

/-- Read 4 bytes and swap (full_tensor.hpp:190-192, file_reader.hpp:447-461). -/
def readU32 : Read (BitVec 32) := fun bs =>
  (readBytes 4 bs).bind fun (l, rest) => (read32 l).map (·, rest)

/-- Read 8 bytes without swapping (file_reader.hpp:420-421 `number_of_given`, 429-430). -/
def readRaw64 : Read (BitVec 64) := fun bs =>
  (readBytes 8 bs).bind fun (l, rest) => (ofMem64 l).map (·, rest)

/-- One byte. -/
def readByte : Read Byte
  | [] => none
  | b :: rest => some (b, rest)

/-- A `bool` read from its byte (file_reader.hpp:446, 455); a byte other than 0 and 1 is undefined behaviour. -/
def readBool : Read Bool
  | [] => none
  | b :: rest => if b = 0#8 then some (false, rest) else if b = 1#8 then some (true, rest) else none

/-- Run a read `n` times, collecting the results: the counted loops of the readers. -/
def readMany {α : Type} (p : Read α) : Nat → Read (List α)
  | 0, bs => some ([], bs)
  | n + 1, bs => (p bs).bind fun (a, rest) => (readMany p n rest).map fun (as, rest') => (a :: as, rest')

/-! ### Tensors on disk -/

/-- base_tensors.hpp:145-153: the body of `save`: channel, row, column order, each float swapped and dumped. -/
def saveBody (t : Tensor (BitVec 32)) : List Byte :=
  (List.range t.chans).flatMap fun k => (List.range t.rows).flatMap fun r => (List.range t.cols).flatMap fun c =>
    write32 (t.get r c k)

/-- base_tensors.hpp:132-144: `save(stream, true)`, the three dimensions and the body. The dimensions are `size_t`. -/
def save (t : Tensor (BitVec 32)) : List Byte :=
  write64 (BitVec.ofNat 64 t.chans) ++ write64 (BitVec.ofNat 64 t.rows) ++ write64 (BitVec.ofNat 64 t.cols) ++ saveBody t

/-- The nested vectors `data[channel][row][column]` of a stored tensor (full_tensor.hpp:166). -/
abbrev Data := List (List (List (BitVec 32)))

/-- full_tensor.hpp:139-155: shape is taken from the first channel and the first row; full_tensor.hpp:157-159 `getValue` by `.at`
(the default is never reached for in-range indices of rectangular data). -/
def Data.tensor (d : Data) : Tensor (BitVec 32) where
  chans := d.length
  rows := match d with | [] => 0 | ch :: _ => ch.length
  cols := match d with | [] => 0 | ch :: _ => (match ch with | [] => 0 | row :: _ => row.length)
  get r c k := ((((d[k]?).getD [])[r]?).getD [])[c]?.getD 0#32

/-- full_tensor.hpp:183-198 (identical in half_, quarter_ and pixel_tensor.hpp) `assignBodyFromStream`; `conv` is what the
element goes through when stored by `setVal` and read by `getValue`. -/
def loadBody (conv : BitVec 32 → BitVec 32) (rows cols chans : Nat) : Read Data :=
  readMany (readMany (readMany (fun bs => (readU32 bs).map fun (v, rest) => (conv v, rest)) cols) rows) chans

/-- full_tensor.hpp:168-181 `assignFromStream` -/
def load (conv : BitVec 32 → BitVec 32) : Read Data := fun bs =>
  (readU64 bs).bind fun (chans, bs) =>
  (readU64 bs).bind fun (rows, bs) =>
  (readU64 bs).bind fun (cols, bs) =>
  loadBody conv rows.toNat cols.toNat chans.toNat bs

/-- pixel_tensor.hpp:159-161 `setVal` -/
def pixelStore (v : BitVec 32) : BitVec 8 :=
  BitVec.ofNat 8 (FloatArith.truncNat (FloatArith.mul255 (FloatArith.fmax 0#32 (FloatArith.fmin v FloatArith.one))))
/-- pixel_tensor.hpp:116-118 `getValue` -/
def pixelLoad (k : BitVec 8) : BitVec 32 := FloatArith.div255 k.toNat
/-- A float stored in and read from a PixelTensor. -/
def pixelConv (v : BitVec 32) : BitVec 32 := pixelLoad (pixelStore v)
/-- A float stored in and read from a QuarterTensor of bias 4 (quarter_tensor.hpp:99-101,152-154; file_reader.hpp:512). -/
def quarterConv (v : BitVec 32) : BitVec 32 := QuarterFloat.quarterToFloat (QuarterFloat.floatToQuarter v 4) 4

/-! ### Column metadata -/

/-- column_metadata.hpp `BinaryColumnMetadata` -/
structure Meta where
  purpose : Byte
  isStandardized : Bool
  mean : BitVec 32
  sd : BitVec 32
  isNormalized : Bool
  min : BitVec 32
  max : BitVec 32
  sourceColumns : BitVec 64
  rows : BitVec 64
  cols : BitVec 64
  chans : BitVec 64
  labels : List (List Byte)
  name : List Byte
deriving DecidableEq, Repr

/-- file_writer.hpp:235-240 and 242-247: length then characters. -/
def writeString (s : List Byte) : List Byte := write64 (BitVec.ofNat 64 s.length) ++ s

def writeBool (b : Bool) : List Byte := [if b then 1#8 else 0#8]

/-- file_writer.hpp:205-248 `writeColumnMetadata` -/
def writeMeta (m : Meta) : List Byte :=
  [m.purpose] ++ (writeBool m.isStandardized ++ (write32 m.mean ++ (write32 m.sd ++ (writeBool m.isNormalized ++
    (write32 m.min ++ (write32 m.max ++ (write64 m.sourceColumns ++ (write64 m.rows ++ (write64 m.cols ++ (write64 m.chans ++
    (write64 (BitVec.ofNat 64 m.labels.length) ++ (m.labels.flatMap writeString ++ writeString m.name))))))))))))

/-- file_writer.hpp:189-203 `writeHeader`; `none` is the exception when there is no given column. The two counts are dumped
without swapping (file_writer.hpp:194, 199). -/
def writeHeader (given expected : List Meta) : Option (List Byte) :=
  if given.length = 0 then none
  else some (mem64 (BitVec.ofNat 64 given.length) ++ (given.flatMap writeMeta ++
    (mem64 (BitVec.ofNat 64 expected.length) ++ expected.flatMap writeMeta)))

/-- file_reader.hpp:481-488 (and 491-498): length then characters. A length of 2^63 or more is negative as a `streamsize`; such a
read fails here too, because no file is that long. -/
def readString : Read (List Byte) := fun bs => (readU64 bs).bind fun (n, bs) => readBytes n.toNat bs

/-- file_reader.hpp:442-501 `readColumnMetadata` -/
def readMeta : Read Meta := fun bs =>
  (readByte bs).bind fun (purpose, bs) =>
  (readBool bs).bind fun (isStandardized, bs) =>
  (readU32 bs).bind fun (mean, bs) =>
  (readU32 bs).bind fun (sd, bs) =>
  (readBool bs).bind fun (isNormalized, bs) =>
  (readU32 bs).bind fun (min, bs) =>
  (readU32 bs).bind fun (max, bs) =>
  (readU64 bs).bind fun (sourceColumns, bs) =>
  (readU64 bs).bind fun (rows, bs) =>
  (readU64 bs).bind fun (cols, bs) =>
  (readU64 bs).bind fun (chans, bs) =>
  (readU64 bs).bind fun (nLabels, bs) =>
  (readMany readString nLabels.toNat bs).bind fun (labels, bs) =>
  (readString bs).bind fun (name, bs) =>
  some ({ purpose, isStandardized, mean, sd, isNormalized, min, max, sourceColumns, rows, cols, chans, labels, name }, bs)

/-- file_reader.hpp:426 and 435: `row_size_ += rows * columns * channels * sizeof(float)`, in `size_t`. -/
def metaSize (m : Meta) : BitVec 64 := m.rows * m.cols * m.chans * 4#64

/-- An open reader (file_reader.hpp:406-415). The renormalization metadata is passed to `readRow`. -/
structure Reader where
  file : List Byte
  given : List Meta
  expected : List Meta
  headerSize : Nat
  rowSize : BitVec 64
  numberOfRows : Nat

/-- file_reader.hpp:418-440 `readHeader`, called by the constructor. `none`: a short read, or a row size of 0 (division by zero). -/
def openReader (file : List Byte) : Option Reader :=
  (readRaw64 file).bind fun (ng, bs) =>
  (readMany readMeta ng.toNat bs).bind fun (given, bs) =>
  (readRaw64 bs).bind fun (ne, bs) =>
  (readMany readMeta ne.toNat bs).bind fun (expected, bs) =>
  let rowSize := (given ++ expected).foldl (fun acc m => acc + metaSize m) 0#64
  if rowSize = 0#64 then none
  else
    let headerSize := file.length - bs.length
    some ⟨file, given, expected, headerSize, rowSize, (file.length - headerSize) / rowSize.toNat⟩

/-- file_reader.hpp:503-517 `loadTensor`: purpose 'I' (73) is a PixelTensor, 'L' (76) a QuarterTensor with bias 4. -/
def conv (purpose : Byte) : BitVec 32 → BitVec 32 :=
  if purpose = 73#8 then pixelConv else if purpose = 76#8 then quarterConv else id

/-- file_reader.hpp:503-517 `loadTensor` -/
def loadColumn (m : Meta) : Read Data := loadBody (conv m.purpose) m.rows.toNat m.cols.toNat m.chans.toNat

/-- The two column loops of file_reader.hpp:258-282: the tensor of each column in turn. -/
def loadColumns : List Meta → Read (List Data)
  | [], bs => some ([], bs)
  | m :: ms, bs => (loadColumn m bs).bind fun (d, bs) => (loadColumns ms bs).map fun (ds, bs) => (d :: ds, bs)

/-- file_reader.hpp:247-284 `readRow` of a reader without renormalization. `none`: index out of bounds (exception) or short read.
The offset is computed in `streamoff` (64-bit signed), exact for files below 2^63 bytes. -/
def readRow (r : Reader) (index : Nat) : Option (List Data × List Data) :=
  if r.numberOfRows ≤ index then none
  else
    (loadColumns r.given (r.file.drop (r.headerSize + index * r.rowSize.toNat))).bind fun (g, bs) =>
    (loadColumns r.expected bs).map fun (e, _) => (g, e)

/-! ### Renormalization while reading -/

/-- file_reader.hpp:257-282: which entry of the renormalization metadata is used for each column: `given_offset` is set to 0 at
line 257 and never changed, and the expected columns also use it. `renorm` is `renormalizeAndStandardize` (tensor_utils.hpp:248-269),
left abstract here. -/
def renormColumns {T : Type} (renorm : T → Meta → Meta → T) (target : List Meta) (cols : List (Meta × T)) : List T :=
  match target with
  | [] => cols.map (·.2)
  | t0 :: _ => cols.map fun (m, d) => renorm d m t0

/-! ### Writing rows -/

/-- A row: its given and expected tensors. -/
abbrev Row := List (Tensor (BitVec 32)) × List (Tensor (BitVec 32))

/-- file_writer.hpp:173-180: the bytes of one row. -/
def rowBytes (r : Row) : List Byte := r.1.flatMap saveBody ++ r.2.flatMap saveBody

/-- file_writer.hpp:129-142, 159-181: bytes of a whole file written without de-duplication (`lru_cache_size` 0). -/
def writeFile (given expected : List Meta) (rows : List Row) : Option (List Byte) :=
  (writeHeader given expected).map (· ++ rows.flatMap rowBytes)

/-- file_writer.hpp:163-181 `writeRow` with de-duplication: `hash` is `compute_given_hash` (250-259). Returns the new cache and whether
the row was stored; `none` is undefined behaviour inside the cache. -/
def dedupRow {R : Type} (capacity : Nat) (hash : R → BitVec 64) (s : LruCache.State (BitVec 64)) (r : R) :
    Option (LruCache.State (BitVec 64) × Bool) :=
  if LruCache.contains s (hash r) then some (s, false)
  else (LruCache.insert capacity s (hash r)).map (·, true)

/-- The rows stored by a sequence of `writeRow` calls, in order. -/
def dedupRows {R : Type} (capacity : Nat) (hash : R → BitVec 64) (s : LruCache.State (BitVec 64)) : List R → Option (List R)
  | [] => some []
  | r :: rs => (dedupRow capacity hash s r).bind fun (s', stored) =>
      (dedupRows capacity hash s' rs).map fun out => if stored then r :: out else out

/-- What `print` puts into the stream, as tokens; rendering tokens as text loses nothing. -/
inductive Tok
  | newline | open_ | close | bar | comma
  /-- a finite value with 15 decimals: its sign and the digits as an integer -/
  | num (neg : Bool) (digits : Nat)
  | inf (neg : Bool)
  | nan (neg : Bool)
deriving DecidableEq

/-- `out << setprecision(15) << fixed << value`: the value in units of 10^-15, rounded to nearest, ties to even. -/
def fixed15 (x : BitVec 32) : Tok :=
  if FloatBits.isNaN x then .nan (FloatBits.neg x)
  else if FloatBits.isInf x then .inf (FloatBits.neg x)
  else
    let n := FloatBits.magUnits (FloatBits.expo x) (FloatBits.frac x) * 10 ^ 15
    let q := n / 2 ^ 149
    let r := n % 2 ^ 149
    .num (FloatBits.neg x) (if 2 ^ 149 < 2 * r ∨ (2 * r = 2 ^ 149 ∧ q % 2 = 1) then q + 1 else q)

/-- base_tensors.hpp:639-668 `print(out, 15)` -/
def printTensor (t : Tensor (BitVec 32)) : List Tok :=
  [.newline] ++ (List.range t.chans).flatMap fun k =>
    (if 1 < t.chans then [Tok.open_, .newline] else []) ++
    ((List.range t.rows).flatMap fun r =>
      (if 1 < t.rows then [Tok.bar] else [.open_]) ++
      ((List.range t.cols).flatMap fun c => (if c = 0 then [] else [Tok.comma]) ++ [fixed15 (t.get r c k)]) ++
      (if 1 < t.rows then [Tok.bar, .newline] else [.close, .newline])) ++
    (if 1 < t.chans then [Tok.close, .newline] else [])

/-- file_writer.hpp:250-259 `compute_given_hash`; `h` is `std::hash<string>` of the printed tensor (arbitrary). -/
def givenHash {T : Type} (h : T → BitVec 64) (given : List T) : BitVec 64 :=
  given.foldl (fun result t => result ^^^ (h t + 0x9e3779b9#64 + (result <<< 6) + (result >>> 2))) 0#64

end Verif.BinaryDataset
