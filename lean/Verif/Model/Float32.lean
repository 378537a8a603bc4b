import Verif.Model.FloatArith
import Verif.Model.Views

/-!
32-bit floats with the arithmetic of IEEE 754: addition, subtraction, multiplication and division rounded to nearest, ties to even. This is what C++ `float` arithmetic is on the
usual platforms (each operation rounded to 32 bits; no fused multiply-add). Specification of the machine, not happyml code.

Simplification: there is only one NaN (the sign and the payload of a NaN are not specified by the standard, and happyml does not look at them).
-/
namespace Verif
open FloatBits FloatArith

/-- A C++ `float`. -/
structure F32 where
  bits : BitVec 32
  deriving DecidableEq

namespace F32

/-- The NaN that operations return. -/
def nan : F32 := ⟨0x7FC00000#32⟩

/-- Magnitude of a finite float, in units of 2^-149. -/
def units (a : F32) : Nat := magUnits (expo a.bits) (frac a.bits)

/-- The float nearest to `num/den` units with the given sign. -/
def rounded (negative : Bool) (num den : Nat) : F32 := ⟨BitVec.ofNat 32 (roundUnits num den + if negative then 2 ^ 31 else 0)⟩

/-- `a + b` -/
def add (a b : F32) : F32 :=
  if isNaN a.bits || isNaN b.bits then nan
  else if isInf a.bits then (if isInf b.bits && neg a.bits != neg b.bits then nan else a)
  else if isInf b.bits then b
  else if value a.bits + value b.bits = 0 then ⟨if neg a.bits && neg b.bits then 0x80000000#32 else 0#32⟩
  else rounded (decide (value a.bits + value b.bits < 0)) (value a.bits + value b.bits).natAbs 1

/-- `a * b` -/
def mul (a b : F32) : F32 :=
  if isNaN a.bits || isNaN b.bits then nan
  else if isInf a.bits || isInf b.bits then
    if value a.bits = 0 ∨ value b.bits = 0 then nan else ⟨if neg a.bits != neg b.bits then 0xFF800000#32 else 0x7F800000#32⟩
  else rounded (neg a.bits != neg b.bits) (units a * units b) (2 ^ 149)

/-- `-a` -/
def negate (a : F32) : F32 := ⟨a.bits ^^^ 0x80000000#32⟩

/-- `std::abs(a)` -/
def abs (a : F32) : F32 := ⟨a.bits &&& 0x7FFFFFFF#32⟩

/-- `a - b` -/
def sub (a b : F32) : F32 := add a (negate b)

/-- `a / b` -/
def div (a b : F32) : F32 :=
  if isNaN a.bits || isNaN b.bits then nan
  else if isInf a.bits then (if isInf b.bits then nan else ⟨if neg a.bits != neg b.bits then 0xFF800000#32 else 0x7F800000#32⟩)
  else if isInf b.bits then ⟨if neg a.bits != neg b.bits then 0x80000000#32 else 0#32⟩
  else if units b = 0 then (if units a = 0 then nan else ⟨if neg a.bits != neg b.bits then 0xFF800000#32 else 0x7F800000#32⟩)
  else rounded (neg a.bits != neg b.bits) (units a * 2 ^ 149) (units b)

/-- `0.0f` -/
instance : Zero F32 := ⟨⟨0#32⟩⟩
instance : Add F32 := ⟨add⟩
instance : Mul F32 := ⟨mul⟩
instance : Sub F32 := ⟨sub⟩
instance : Div F32 := ⟨div⟩

/-- `a < b` -/
def lt (a b : F32) : Bool := flt a.bits b.bits

/-- `a >= b` -/
def ge (a b : F32) : Bool := !isNaN a.bits && !isNaN b.bits && decide (value b.bits ≤ value a.bits)

/-- `(float) condition` -/
def flag (c : Bool) : F32 := if c then ⟨one⟩ else 0

end F32
end Verif
