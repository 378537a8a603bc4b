import Verif.Model.TextCodec
import Verif.Model.Csv
import Verif.Model.FloatArith

/-!
# Numbers as text (`src/util/portable_bytes.hpp` 50-86 and the C++ library's `stoul`, `stoull`, `stof`)

Texts are lists of bytes, floats are their 32 bits.
-/

namespace Verif.Decimal
open Verif.TextCodec Verif.FloatBits Verif.FloatArith

/-- The decimal digits of a number, most significant first: what `stringstream << i` prints, portable_bytes.hpp:62-72. -/
def dec (n : Nat) : Str :=
  if n < 10 then [UInt8.ofNat (48 + n)] else dec (n / 10) ++ [UInt8.ofNat (48 + n % 10)]

/-- `k` digits of a number with leading zeros. -/
def padded : Nat → Nat → Str
  | 0, _ => []
  | k + 1, n => padded k (n / 10) ++ [UInt8.ofNat (48 + n % 10)]

/-- `asString(bool)`, portable_bytes.hpp:80-82. -/
def asStringBool (b : Bool) : Str := if b then [116, 114, 117, 101] else [102, 97, 108, 115, 101]

/-- `asBool`, portable_bytes.hpp:84-86. -/
def asBool (s : Str) : Bool := s = [116, 114, 117, 101]

/-- Nearest integer to `a / b`, ties to even: how the C library prints a fixed number of decimals. -/
def nearest (a b : Nat) : Nat :=
  if b < 2 * (a % b) ∨ (2 * (a % b) = b ∧ a / b % 2 = 1) then a / b + 1 else a / b

/-- The value of a finite float in units of 10⁻¹⁵, rounded. -/
def scaled (x : BitVec 32) : Nat := nearest (magUnits (expo x) (frac x) * 10 ^ 15) (2 ^ 149)

/-- `asString(double)` of a `float`, portable_bytes.hpp:74-78: `std::fixed` with 15 decimals. -/
def asStringFloat (x : BitVec 32) : Str :=
  (if neg x then [45] else []) ++
    if isNaN x then [110, 97, 110]
    else if isInf x then [105, 110, 102]
    else dec (scaled x / 10 ^ 15) ++ 46 :: padded 15 (scaled x % 10 ^ 15)

/-- The number a text of digits denotes. -/
def digitsValue (s : Str) : Nat := s.foldl (fun n c => 10 * n + (c.toNat - 48)) 0

/-- `stoul`/`stoull` (64 bit): the digits at the start; `none` if there are none or the number is out of range (an exception).
Simplification: leading white space and signs, which no text written by `asString` of an unsigned number has, are not accepted. -/
def stoull (s : Str) : Option Nat :=
  let ds := s.takeWhile Csv.isDigit
  if ds = [] then none else if digitsValue ds < 2 ^ 64 then some (digitsValue ds) else none

/-- The magnitude that `strtof` reads from digits with an optional fraction: correctly rounded. Out of range is an exception of `stof`.
Simplification: exponents, hexadecimal numbers and leading white space, which `asString` never writes, are not read; numbers below the normal
range, for which `strtof` may report an error, cannot be written with 15 decimals unless they are zero. -/
def magnitude (s : Str) : Option Nat :=
  let whole := s.takeWhile Csv.isDigit
  let rest := s.dropWhile Csv.isDigit
  let part := match rest with | 46 :: t => t.takeWhile Csv.isDigit | _ => []
  if whole = [] ∧ part = [] then none
  else
    let r := roundUnits (digitsValue (whole ++ part) * 2 ^ 149) (10 ^ part.length)
    if r = 0x7F800000 then none else some r

/-- `stof` behind the sign. -/
def stofBody (sign : Nat) (body : Str) : Option (BitVec 32) :=
  if body.take 3 = [110, 97, 110] then some (BitVec.ofNat 32 (sign + 0x7FC00000))
  else if body.take 3 = [105, 110, 102] then some (BitVec.ofNat 32 (sign + 0x7F800000))
  else (magnitude body).map fun m => BitVec.ofNat 32 (sign + m)

/-- `stof`; `none` is an exception. -/
def stof : Str → Option (BitVec 32)
  | [] => none
  | c :: t => if c = 45 then stofBody (2 ^ 31) t else stofBody 0 (c :: t)

end Verif.Decimal
