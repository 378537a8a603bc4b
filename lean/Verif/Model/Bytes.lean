/-
Model of `/repo/src/util/portable_bytes.hpp`.

The model is for a little-endian host (`SWAP_BYTES == 1`, lines 31-37), which is the only configuration the
project targets (Windows / x86). Values are `BitVec`, shifts and masks are the C++ ones on unsigned types.
-/
namespace Verif.Bytes

/-- portable_bytes.hpp:90-100, `uint64_t portableBytes(uint64_t)`. -/
def portable64 (bytes : BitVec 64) : BitVec 64 :=
  let a := (bytes &&& 0x00000000000000ff#64) <<< 56
  let b := (bytes &&& 0x000000000000ff00#64) <<< 40
  let c := (bytes &&& 0x0000000000ff0000#64) <<< 24
  let d := (bytes &&& 0x00000000ff000000#64) <<< 8
  let e := (bytes &&& 0x000000ff00000000#64) >>> 8
  let f := (bytes &&& 0x0000ff0000000000#64) >>> 24
  let g := (bytes &&& 0x00ff000000000000#64) >>> 40
  let h := (bytes &&& 0xff00000000000000#64) >>> 56
  a ||| b ||| c ||| d ||| e ||| f ||| g ||| h

/-- portable_bytes.hpp:102-108, `uint32_t portableBytes(uint32_t)`. -/
def portable32 (bytes : BitVec 32) : BitVec 32 :=
  let a := (bytes &&& 0x000000ff#32) <<< 24
  let b := (bytes &&& 0x0000ff00#32) <<< 8
  let c := (bytes &&& 0x00ff0000#32) >>> 8
  let d := (bytes &&& 0xff000000#32) >>> 24
  a ||| b ||| c ||| d

/-- portable_bytes.hpp:110-112, `uint16_t portableBytes(uint16_t)`. The C++ promotes to `int`; the result is
truncated to 16 bits again, which is what the 16-bit shift does. -/
def portable16 (bytes : BitVec 16) : BitVec 16 :=
  (bytes <<< 8) ||| (bytes >>> 8)

/-- The object representation of an unsigned 64-bit value on a little-endian host: what
`stream.write(reinterpret_cast<char*>(&v), 8)` puts in the file (e.g. base_tensors.hpp:137-139). -/
def mem64 (x : BitVec 64) : List (BitVec 8) :=
  [x.extractLsb' 0 8, x.extractLsb' 8 8, x.extractLsb' 16 8, x.extractLsb' 24 8,
   x.extractLsb' 32 8, x.extractLsb' 40 8, x.extractLsb' 48 8, x.extractLsb' 56 8]

/-- As `mem64` for 32-bit values. -/
def mem32 (x : BitVec 32) : List (BitVec 8) :=
  [x.extractLsb' 0 8, x.extractLsb' 8 8, x.extractLsb' 16 8, x.extractLsb' 24 8]

/-- As `mem64` for 16-bit values. -/
def mem16 (x : BitVec 16) : List (BitVec 8) :=
  [x.extractLsb' 0 8, x.extractLsb' 8 8]

/-- Inverse of `mem64`: what `stream.read(reinterpret_cast<char*>(&v), 8)` leaves in `v`; `none` when fewer or
more than 8 bytes are available (a short read; the C++ leaves `v` indeterminate). -/
def ofMem64 : List (BitVec 8) → Option (BitVec 64)
  | [a, b, c, d, e, f, g, h] => some (h ++ g ++ f ++ e ++ d ++ c ++ b ++ a)
  | _ => none

/-- Inverse of `mem32`. -/
def ofMem32 : List (BitVec 8) → Option (BitVec 32)
  | [a, b, c, d] => some (d ++ c ++ b ++ a)
  | _ => none

/-- Inverse of `mem16`. -/
def ofMem16 : List (BitVec 8) → Option (BitVec 16)
  | [a, b] => some (b ++ a)
  | _ => none

/-- What the writers put into a file for a 64-bit value: swap, then dump memory
(file_writer.hpp:216-219, base_tensors.hpp:136-139). -/
def write64 (x : BitVec 64) : List (BitVec 8) := mem64 (portable64 x)
/-- 32-bit counterpart (base_tensors.hpp:146-148). -/
def write32 (x : BitVec 32) : List (BitVec 8) := mem32 (portable32 x)
/-- 16-bit counterpart (byte_pair_encoder.hpp:533-540). -/
def write16 (x : BitVec 16) : List (BitVec 8) := mem16 (portable16 x)

/-- What the readers do with 8 bytes: load memory, then swap (file_reader.hpp, full_tensor.hpp:170-173). -/
def read64 (l : List (BitVec 8)) : Option (BitVec 64) := (ofMem64 l).map portable64
/-- 32-bit counterpart (`portableFloat`, portable_bytes.hpp:131-134). -/
def read32 (l : List (BitVec 8)) : Option (BitVec 32) := (ofMem32 l).map portable32
/-- 16-bit counterpart. -/
def read16 (l : List (BitVec 8)) : Option (BitVec 16) := (ofMem16 l).map portable16

end Verif.Bytes
