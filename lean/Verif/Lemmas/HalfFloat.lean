import Verif.Model.HalfFloat
import Mathlib.Tactic.Ring
import Mathlib.Tactic.Linarith
import Mathlib.Algebra.Order.Ring.Nat

namespace Verif.FloatBits

theorem magUnits_lt_of_lt {e e' f f' : Nat} (hf : f < 2 ^ 23)
    (h : e < e' ∨ (e = e' ∧ f < f')) : magUnits e f < magUnits e' f' := by
  unfold magUnits
  rcases h with h | ⟨rfl, h⟩
  · have he' : e' ≠ 0 := by omega
    simp only [he', if_false]
    split
    · have : 1 ≤ 2 ^ (e' - 1) := Nat.one_le_two_pow
      nlinarith
    · rename_i he
      have h1 : 2 ^ (e - 1) * 2 = 2 ^ e := by
        rw [← Nat.pow_succ]; congr 1; omega
      have h2 : 2 ^ e ≤ 2 ^ (e' - 1) := Nat.pow_le_pow_right (by omega) (by omega)
      have h3 : 1 ≤ 2 ^ (e - 1) := Nat.one_le_two_pow
      nlinarith
  · split
    · exact h
    · have h3 : 1 ≤ 2 ^ (e - 1) := Nat.one_le_two_pow
      nlinarith

/-- Magnitude as a function of the 31 low bits. -/
def magOf (m : Nat) : Nat := magUnits (m / 2 ^ 23) (m % 2 ^ 23)

theorem magOf_strictMono {m n : Nat} (h : m < n) : magOf m < magOf n := by
  unfold magOf
  apply magUnits_lt_of_lt (Nat.mod_lt _ (by decide))
  omega

theorem magOf_mono {m n : Nat} (h : m ≤ n) : magOf m ≤ magOf n := by
  rcases Nat.lt_or_eq_of_le h with h | h
  · exact Nat.le_of_lt (magOf_strictMono h)
  · rw [h]

theorem magOf_le_iff {m n : Nat} : magOf m ≤ magOf n ↔ m ≤ n := by
  constructor
  · intro h
    by_contra hc
    have := magOf_strictMono (m := n) (n := m) (by omega)
    omega
  · exact magOf_mono

theorem magUnits_eq (x : BitVec 32) : magUnits (expo x) (frac x) = magOf (mag x) := by
  unfold magOf expo frac mag
  congr 1 <;> omega

theorem value_eq (x : BitVec 32) : value x = if neg x then - (magOf (mag x) : Int) else (magOf (mag x) : Int) := by
  unfold value; rw [magUnits_eq]

theorem natAbs_value (x : BitVec 32) : (value x).natAbs = magOf (mag x) := by
  rw [value_eq]; split <;> simp

theorem value_eq_zero_iff (y : BitVec 32) : value y = 0 ↔ y.toNat % 2 ^ 31 = 0 := by
  have h1 : value y = 0 ↔ magOf (mag y) = 0 := by
    rw [← natAbs_value, Int.natAbs_eq_zero]
  rw [h1]
  have e0 : magOf 0 = 0 := by decide
  constructor
  · intro h
    have := magOf_le_iff (m := mag y) (n := 0) |>.mp (by omega)
    unfold mag at this; omega
  · intro h
    unfold mag; rw [h, e0]

theorem value_le_of_nonneg (y z : BitVec 32) (hy : 0 ≤ value y) (hz : 0 ≤ value z) (h : mag y ≤ mag z) :
    value y ≤ value z := by
  have h1 := natAbs_value y
  have h2 := natAbs_value z
  have h3 := magOf_mono h
  omega

end Verif.FloatBits

namespace Verif.HalfFloat
open Verif.FloatBits

theorem toNat_halfToFloat (h : BitVec 16) : (halfToFloat h).toNat = h.toNat * 2 ^ 16 := by
  have := h.isLt
  simp only [halfToFloat, BitVec.toNat_shiftLeft, BitVec.toNat_setWidth, Nat.shiftLeft_eq]
  omega

theorem toNat_trunc (x : BitVec 32) : ((x >>> 16).setWidth 16).toNat = x.toNat / 2 ^ 16 := by
  have := x.isLt
  simp only [BitVec.toNat_setWidth, BitVec.toNat_ushiftRight, Nat.shiftRight_eq_div_pow]
  omega

theorem isNaN_iff (x : BitVec 32) : isNaN x = true ↔ 0x7F800000 < mag x := by
  have := x.isLt
  simp only [isNaN, expo, frac, mag, Bool.and_eq_true, beq_iff_eq, bne_iff_ne]
  omega

theorem isInf_iff (x : BitVec 32) : isInf x = true ↔ mag x = 0x7F800000 := by
  have := x.isLt
  simp only [isInf, expo, frac, mag, Bool.and_eq_true, beq_iff_eq]
  omega

theorem isFinite_iff (x : BitVec 32) : isFinite x = true ↔ mag x < 0x7F800000 := by
  have := x.isLt
  simp only [isFinite, expo, mag, bne_iff_ne]
  omega

theorem floatToHalf_finite (x : BitVec 32) (hx : isFinite x = true) :
    (floatToHalf x).toNat = x.toNat / 2 ^ 16 := by
  have h1 : ¬ isNaN x = true := by rw [isNaN_iff]; rw [isFinite_iff] at hx; omega
  have h2 : ¬ isInf x = true := by rw [isInf_iff]; rw [isFinite_iff] at hx; omega
  unfold floatToHalf
  rw [if_neg h1, if_neg h2, toNat_trunc]

end Verif.HalfFloat
