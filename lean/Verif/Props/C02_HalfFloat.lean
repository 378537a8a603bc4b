import Verif.Lemmas.HalfFloat

/-!
C02. Converting a 32-bit float to the 16-bit format and back keeps the sign; ±infinity stay themselves; NaN stays
NaN; every other value becomes the representable value with the largest magnitude not exceeding it; the conversion
is monotone; and values already representable in 16 bits are returned bit for bit.

`FloatBits.value` (the integer number of units 2^-149 denoted by a finite pattern), `isNaN`, `isInf`, `neg` are the
IEEE-754 reading of a bit pattern and do not refer to happyml.
-/
namespace Verif.HalfFloat
open Verif.FloatBits

/-- Store as 16 bit, read back. -/
abbrev roundTrip (x : BitVec 32) : BitVec 32 := halfToFloat (floatToHalf x)

/-- NaN stays NaN, and only NaN becomes NaN. -/
theorem C02_nan (x : BitVec 32) : isNaN (roundTrip x) = isNaN x := by
  have hx := x.isLt
  by_cases h : isNaN x = true
  · rw [h]
    unfold roundTrip floatToHalf
    rw [if_pos h]
    split <;> decide
  · by_cases h2 : isInf x = true
    · rw [Bool.eq_false_iff.mpr h]
      unfold roundTrip floatToHalf
      rw [if_neg h, if_pos h2]
      split <;> decide
    · have hf : isFinite x = true := by
        rw [isFinite_iff]; rw [isNaN_iff] at h; rw [isInf_iff] at h2; omega
      have := floatToHalf_finite x hf
      rw [Bool.eq_iff_iff, isNaN_iff, isNaN_iff]
      rw [isFinite_iff] at hf
      unfold mag at *
      rw [toNat_halfToFloat, this]
      omega

/-- Infinities are kept bit for bit. -/
theorem C02_inf (x : BitVec 32) (h : isInf x = true) : roundTrip x = x := by
  have hx := x.isLt
  have hn : ¬ isNaN x = true := by rw [isNaN_iff]; rw [isInf_iff] at h; omega
  rw [isInf_iff] at h
  have h' := (isInf_iff x).mpr h
  unfold roundTrip floatToHalf
  rw [if_neg hn, if_pos h']
  unfold mag at h
  by_cases hs : x = FLOAT_NEG_INF
  · rw [if_pos hs, hs]; decide
  · rw [if_neg hs]
    have : x.toNat ≠ 0xFF800000 := by
      intro hc; apply hs; apply BitVec.eq_of_toNat_eq; rw [hc]; decide
    apply BitVec.eq_of_toNat_eq
    have h2 : x.toNat = 0x7F800000 := by omega
    rw [h2]; decide

/-- Finite values stay finite. -/
theorem C02_finite (x : BitVec 32) (h : isFinite x = true) : isFinite (roundTrip x) = true := by
  have hx := x.isLt
  have := floatToHalf_finite x h
  rw [isFinite_iff] at *
  unfold mag at *
  rw [toNat_halfToFloat, this]
  omega

/-- The sign is kept for everything that is not NaN. -/
theorem C02_sign (x : BitVec 32) (h : isNaN x = false) : neg (roundTrip x) = neg x := by
  have hx := x.isLt
  by_cases h2 : isInf x = true
  · rw [C02_inf x h2]
  · have hf : isFinite x = true := by
      have h' : ¬ isNaN x = true := by simp [h]
      rw [isFinite_iff]; rw [isNaN_iff] at h'; rw [isInf_iff] at h2; omega
    have := floatToHalf_finite x hf
    unfold neg
    rw [toNat_halfToFloat, this, decide_eq_decide]
    omega

/-- Truncation toward zero: the stored magnitude does not exceed the original, and no 16-bit float whose magnitude does
not exceed the original has a larger magnitude. -/
theorem C02_truncates (x : BitVec 32) (h : isFinite x = true) :
    (value (roundTrip x)).natAbs ≤ (value x).natAbs ∧
    ∀ k : BitVec 16, isFinite (halfToFloat k) = true →
      (value (halfToFloat k)).natAbs ≤ (value x).natAbs →
      (value (halfToFloat k)).natAbs ≤ (value (roundTrip x)).natAbs := by
  have hx := x.isLt
  have he := floatToHalf_finite x h
  constructor
  · rw [natAbs_value, natAbs_value]
    apply magOf_mono
    unfold mag
    rw [toNat_halfToFloat, he]
    omega
  · intro k hk hle
    have hk' := k.isLt
    rw [natAbs_value, natAbs_value, magOf_le_iff] at *
    unfold mag at *
    rw [toNat_halfToFloat] at *
    rw [show (roundTrip x).toNat = _ from toNat_halfToFloat _, he]
    omega

/-- Monotone on finite values. -/
theorem C02_monotone (x y : BitVec 32) (hx : isFinite x = true) (hy : isFinite y = true)
    (h : value x ≤ value y) : value (roundTrip x) ≤ value (roundTrip y) := by
  have lx := x.isLt
  have ly := y.isLt
  have nx : isNaN x = false := by
    rw [Bool.eq_false_iff]; intro hc; rw [isNaN_iff] at hc; rw [isFinite_iff] at hx; omega
  have ny : isNaN y = false := by
    rw [Bool.eq_false_iff]; intro hc; rw [isNaN_iff] at hc; rw [isFinite_iff] at hy; omega
  rw [value_eq, value_eq] at h
  rw [value_eq, value_eq, C02_sign x nx, C02_sign y ny]
  have ex := floatToHalf_finite x hx
  have ey := floatToHalf_finite y hy
  have mx : mag (roundTrip x) = mag x / 2 ^ 16 * 2 ^ 16 := by
    unfold mag; rw [toNat_halfToFloat, ex]; omega
  have my : mag (roundTrip y) = mag y / 2 ^ 16 * 2 ^ 16 := by
    unfold mag; rw [toNat_halfToFloat, ey]; omega
  rw [mx, my]
  by_cases sx : neg x = true <;> by_cases sy : neg y = true <;> simp only [sx, sy, if_true, Bool.false_eq_true, if_false] at *
  · have : magOf (mag y) ≤ magOf (mag x) := by omega
    rw [magOf_le_iff] at this
    have h3 : magOf (mag y / 2 ^ 16 * 2 ^ 16) ≤ magOf (mag x / 2 ^ 16 * 2 ^ 16) := magOf_mono (by omega)
    omega
  · omega
  · have e0 : magOf 0 = 0 := by decide
    have h1 : magOf (mag x) = magOf 0 := by omega
    have h2 : magOf (mag y) = magOf 0 := by omega
    have h1' : mag x = 0 := by have := magOf_le_iff.mp (le_of_eq h1); omega
    have h2' : mag y = 0 := by have := magOf_le_iff.mp (le_of_eq h2); omega
    rw [h1', h2']; simp [e0]
  · have : magOf (mag x) ≤ magOf (mag y) := by omega
    rw [magOf_le_iff] at this
    have h3 : magOf (mag x / 2 ^ 16 * 2 ^ 16) ≤ magOf (mag y / 2 ^ 16 * 2 ^ 16) := magOf_mono (by omega)
    omega

/-- Exactly representable values survive bit for bit (so conversion is idempotent). -/
theorem C02_exact (k : BitVec 16) (h : isNaN (halfToFloat k) = false) : floatToHalf (halfToFloat k) = k := by
  have hk := k.isLt
  by_cases h2 : isInf (halfToFloat k) = true
  · have := C02_inf _ h2
    have h3 : (halfToFloat (floatToHalf (halfToFloat k))).toNat = (halfToFloat k).toNat := by rw [← roundTrip, this]
    rw [toNat_halfToFloat, toNat_halfToFloat] at h3
    apply BitVec.eq_of_toNat_eq
    omega
  · have hf : isFinite (halfToFloat k) = true := by
      have h' : ¬ isNaN (halfToFloat k) = true := by simp [h]
      rw [isFinite_iff]; rw [isNaN_iff] at h'; rw [isInf_iff] at h2; omega
    apply BitVec.eq_of_toNat_eq
    rw [floatToHalf_finite _ hf, toNat_halfToFloat]
    omega

-- Non-vacuity: 1.1f is finite, is truncated to 0x3F8C0000, and -inf is an infinity.
example : isFinite 0x3F8CCCCD#32 = true ∧ roundTrip 0x3F8CCCCD#32 = 0x3F8C0000#32 := by decide
example : isInf 0xFF800000#32 = true ∧ isNaN 0x7FC00000#32 = true := by decide
example : isNaN (halfToFloat 0x3F80#16) = false ∧ value (halfToFloat 0x3F80#16) = 2 ^ 149 := by decide

end Verif.HalfFloat
