import Verif.Model.FloatBits

/-
Model of `/repo/src/types/quarter_float.hpp`. A C++ `float` is its bit pattern `BitVec 32`; `quarter` is `BitVec 8`;
`uint32_t` arithmetic is `BitVec 32` arithmetic (wrapping); `int` is `Int` (no overflow occurs for the biases considered).
-/
namespace Verif.QuarterFloat

/-- quarter_float.hpp:12-18 -/
def FLOAT_NEG_NAN : BitVec 32 := 0xFFC00000#32
def FLOAT_POS_NAN : BitVec 32 := 0x7FC00000#32
def FLOAT_INF : BitVec 32 := 0x7F800000#32
def FLOAT_NEG_INF : BitVec 32 := 0xFF800000#32
def QUARTER_NAN : BitVec 8 := 0xFF#8
def QUARTER_POS_INFINITY : BitVec 8 := 0x78#8
def QUARTER_NEG_INFINITY : BitVec 8 := 0xF8#8
/-- quarter_float.hpp:20-21 -/
def QUARTER_MAX : BitVec 8 := 0x77#8
def QUARTER_MIN : BitVec 8 := 0xF7#8

/-- C++ conversion of a `bool` used in `uint32_t` arithmetic. -/
def b2u (b : Bool) : BitVec 32 := if b then 1#32 else 0#32

/-- quarter_float.hpp:82 and :118: bias 0 is treated as bias 1. -/
def effBias (quarter_bias : Int) : Int := if quarter_bias = 0 then 1 else quarter_bias

/-- quarter_float.hpp:78-112 `floatToQuarter` -/
def floatToQuarter (encoded_value : BitVec 32) (quarter_bias : Int) : BitVec 8 :=
  let bias := effBias quarter_bias
  let sign := encoded_value >>> 31
  let raw_exponent := (encoded_value &&& 0x7F800000#32) >>> 23
  let raw_mantissa := (encoded_value &&& 0x00700000#32) >>> 20
  let extra_mantissa := (encoded_value &&& 0x000FFFFF#32) >>> 19
  let rounded_mantissa := raw_mantissa + b2u (raw_mantissa.ult 7#32 && (0#32).ult extra_mantissa) * 1#32
  let float_bias_adjustment := BitVec.ofInt 32 (127 - bias)
  let quarter_max_exponent := float_bias_adjustment + 15#32
  let clamp_top := quarter_max_exponent.ule raw_exponent
  let clamp_bottom := raw_exponent.ult float_bias_adjustment
  let clamped := clamp_top || clamp_bottom
  let adjusted_exponent : Int := raw_exponent.toInt - float_bias_adjustment.toInt
  let exponent := b2u (!clamped) * BitVec.ofInt 32 adjusted_exponent + b2u clamp_top * 0xE#32
  let clamped_exponent := b2u (exponent.ult 0xF#32) * exponent + b2u (exponent == 0xF#32) * 0xE#32
  let clamped_mantissa := b2u (!clamped) * rounded_mantissa + b2u clamp_top * 0x7#32
  let prepped_bits := (sign <<< 7) ||| (clamped_exponent <<< 3) ||| (clamped_mantissa &&& 0x7#32)
  let special_case_tiny :=
    encoded_value != 0#32 && (prepped_bits == 0#32 && decide (adjusted_exponent ≥ -12 + bias))
  let result_bits := b2u special_case_tiny * 0x80#32 + b2u (!special_case_tiny) * prepped_bits
  (b2u (encoded_value == FLOAT_NEG_NAN || encoded_value == FLOAT_POS_NAN) * 0xFF#32 +
    b2u (encoded_value == FLOAT_INF) * 0x78#32 +
    b2u (encoded_value == FLOAT_NEG_INF) * 0xF8#32 +
    b2u ((encoded_value != FLOAT_NEG_NAN && encoded_value != FLOAT_POS_NAN) && encoded_value != FLOAT_INF &&
        encoded_value != FLOAT_NEG_INF) * result_bits).setWidth 8

/-- quarter_float.hpp:115-136 `quarterToFloat` -/
def quarterToFloat (q : BitVec 8) (quarter_bias : Int) : BitVec 32 :=
  let bias := effBias quarter_bias
  let q32 := q.setWidth 32
  let special_case_tiny := q == 0x80#8
  let sign := b2u (!special_case_tiny) * (q32 >>> 7)
  let raw_exponent := b2u (!special_case_tiny) * ((q32 &&& 0x78#32) >>> 3) + b2u special_case_tiny * 0x1FF#32
  let mantissa := b2u (!special_case_tiny) * (q32 &&& 0x7#32) + b2u special_case_tiny * 1#32
  let mantissa_shift := b2u (!special_case_tiny) * 20#32 + b2u special_case_tiny * 1#32
  let float_bias_adjustment := BitVec.ofInt 32 (127 - bias)
  let exponent := b2u ((0#32).ult raw_exponent || (0#32).ult mantissa) * (raw_exponent + float_bias_adjustment)
  let result := (sign <<< 31) ||| (exponent <<< 23) ||| (mantissa <<< mantissa_shift.toNat)
  b2u (q == QUARTER_NAN) * FLOAT_NEG_NAN +
    b2u (q == QUARTER_POS_INFINITY) * FLOAT_INF +
    b2u (q == QUARTER_NEG_INFINITY) * FLOAT_NEG_INF +
    b2u (q != QUARTER_NAN && q != QUARTER_POS_INFINITY && q != QUARTER_NEG_INFINITY) * result

end Verif.QuarterFloat
