import Verif.Model.QuarterFloat
import Verif.Model.FloatArith

/-
Model of `/repo/src/util/tensor_utils.hpp`:57-68 (`estimateBias`), on float bit patterns.
-/
namespace Verif.EstimateBias
open Verif.FloatBits Verif.FloatArith Verif.QuarterFloat

/-- Unary minus on floats: the sign bit flips. -/
def fneg (x : BitVec 32) : BitVec 32 := x ^^^ 0x80000000#32

/-- tensor_utils.hpp:60-62: the test for one proposed bias. -/
def fits (adj_min adj_max : BitVec 32) (bias : Int) : Bool :=
  let bias_max := quarterToFloat QUARTER_MAX bias
  let bias_min := fneg bias_max
  flt bias_min adj_min && flt adj_max bias_max

/-- tensor_utils.hpp:59-66: the loop, `n` iterations left, next proposal `p`. -/
def search (estimate_min : Int) (adj_min adj_max : BitVec 32) : Nat → Int → Int
  | 0, _ => estimate_min
  | n + 1, p => if fits adj_min adj_max p then p else search estimate_min adj_min adj_max n (p - 1)

/-- tensor_utils.hpp:57-68 `estimateBias` -/
def estimateBias (estimate_min estimate_max : Int) (adj_min adj_max : BitVec 32) : Int :=
  search estimate_min adj_min adj_max (estimate_max + 1 - estimate_min).toNat estimate_max

end Verif.EstimateBias
