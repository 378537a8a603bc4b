import Verif.Model.QuarterFloat
import Verif.Model.Float32

/-!
Model of the arithmetic on 8-bit floats in `/repo/src/types/quarter_float.hpp`: both codes are read as 32-bit floats, the operation is done on
these, and the result is stored as a code. Simplification: a NaN that a 32-bit operation returns is the positive canonical one (the processor
may return the negative canonical one; `floatToQuarter` maps both to `QUARTER_NAN`).
-/
namespace Verif.QuarterArith
open QuarterFloat

/-- quarter_float.hpp:138-143 `quarterMultiply` -/
def quarterMultiply (a : BitVec 8) (a_bias : Int) (b : BitVec 8) (b_bias result_bias : Int) : BitVec 8 :=
  let af : F32 := ⟨quarterToFloat a a_bias⟩
  let bf : F32 := ⟨quarterToFloat b b_bias⟩
  let result_float := af * bf
  floatToQuarter result_float.bits result_bias

/-- quarter_float.hpp:145-150 `quarterDivide` -/
def quarterDivide (a : BitVec 8) (a_bias : Int) (b : BitVec 8) (b_bias result_bias : Int) : BitVec 8 :=
  let af : F32 := ⟨quarterToFloat a a_bias⟩
  let bf : F32 := ⟨quarterToFloat b b_bias⟩
  let result_float := af / bf
  floatToQuarter result_float.bits result_bias

/-- quarter_float.hpp:152-157 `quarterAdd` -/
def quarterAdd (a : BitVec 8) (a_bias : Int) (b : BitVec 8) (b_bias result_bias : Int) : BitVec 8 :=
  let af : F32 := ⟨quarterToFloat a a_bias⟩
  let bf : F32 := ⟨quarterToFloat b b_bias⟩
  let result_float := af + bf
  floatToQuarter result_float.bits result_bias

/-- quarter_float.hpp:159-164 `quarterSubtract` -/
def quarterSubtract (a : BitVec 8) (a_bias : Int) (b : BitVec 8) (b_bias result_bias : Int) : BitVec 8 :=
  let af : F32 := ⟨quarterToFloat a a_bias⟩
  let bf : F32 := ⟨quarterToFloat b b_bias⟩
  let result_float := af - bf
  floatToQuarter result_float.bits result_bias

/-- quarter_float.hpp:166-170 `calculateBiasRange` -/
def calculateBiasRange (bias : Int) : F32 :=
  let min_for_bias : F32 := ⟨quarterToFloat QUARTER_MIN bias⟩
  let max_for_bias : F32 := ⟨quarterToFloat QUARTER_MAX bias⟩
  F32.abs (max_for_bias - min_for_bias)

end Verif.QuarterArith
