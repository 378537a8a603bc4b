/-
IEEE-754 binary32 values as bit patterns. This file is specification: it says what number a 32-bit pattern
denotes, independent of any happyml code. Magnitudes are counted in units of 2^-149 (the smallest denormal),
so every finite float is an integer.
-/
namespace Verif.FloatBits

/-- The magnitude field (bits 0..30). -/
def mag (x : BitVec 32) : Nat := x.toNat % 2 ^ 31
/-- The sign bit. -/
def neg (x : BitVec 32) : Bool := 2 ^ 31 ≤ x.toNat
/-- The biased exponent field (bits 23..30). -/
def expo (x : BitVec 32) : Nat := x.toNat / 2 ^ 23 % 256
/-- The fraction field (bits 0..22). -/
def frac (x : BitVec 32) : Nat := x.toNat % 2 ^ 23

/-- `std::isnan`. -/
def isNaN (x : BitVec 32) : Bool := expo x == 255 && frac x != 0
/-- `std::isinf`. -/
def isInf (x : BitVec 32) : Bool := expo x == 255 && frac x == 0
/-- Neither infinite nor NaN. -/
def isFinite (x : BitVec 32) : Bool := expo x != 255

/-- Magnitude denoted by a finite pattern, in units of 2^-149. -/
def magUnits (e f : Nat) : Nat := if e = 0 then f else (2 ^ 23 + f) * 2 ^ (e - 1)

/-- The number denoted by a finite pattern, in units of 2^-149. -/
def value (x : BitVec 32) : Int :=
  if neg x then - (magUnits (expo x) (frac x) : Int) else (magUnits (expo x) (frac x) : Int)

end Verif.FloatBits
