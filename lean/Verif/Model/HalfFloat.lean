import Verif.Model.FloatBits

/-
Model of `/repo/src/types/half_float.hpp`. A C++ `float` is its bit pattern `BitVec 32`; `half` is `BitVec 16`.
-/
namespace Verif.HalfFloat
open Verif.FloatBits

/-- quarter_float.hpp:12 `FLOAT_NEG_NAN` -/
def FLOAT_NEG_NAN : BitVec 32 := 0xFFC00000#32
/-- quarter_float.hpp:15 `FLOAT_NEG_INF` -/
def FLOAT_NEG_INF : BitVec 32 := 0xFF800000#32
/-- half_float.hpp:11-14 -/
def HALF_POS_NAN : BitVec 16 := 0x7F81#16
def HALF_NEG_NAN : BitVec 16 := 0xFF81#16
def HALF_POS_INF : BitVec 16 := 0x7F80#16
def HALF_NEG_INF : BitVec 16 := 0xFF80#16

/-- half_float.hpp:27-41 `floatToHalf` -/
def floatToHalf (original : BitVec 32) : BitVec 16 :=
  if isNaN original then
    if original = FLOAT_NEG_NAN then HALF_NEG_NAN else HALF_POS_NAN
  else if isInf original then
    if original = FLOAT_NEG_INF then HALF_NEG_INF else HALF_POS_INF
  else (original >>> 16).setWidth 16

/-- half_float.hpp:43-47 `halfToFloat`. `h << 16` promotes to `int` and is converted to `uint32_t`. -/
def halfToFloat (h : BitVec 16) : BitVec 32 := (h.setWidth 32) <<< 16

end Verif.HalfFloat
