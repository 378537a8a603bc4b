import Verif.Spec.Rounding
import Verif.Lemmas.Rounding

/-!
The error of one addition and one multiplication, in real numbers.
-/
namespace Verif.Rounding
open Verif FloatBits FloatArith

/-- Half a unit in the last place, relative; half the smallest float. -/
noncomputable def u : ℝ := 1 / 2 ^ 24
noncomputable def η : ℝ := 1 / 2 ^ 150

theorem u_pos : 0 < u := by unfold u; positivity
theorem η_pos : 0 < η := by unfold η; positivity

theorem finite_not (a : F32) (h : Finite a) : isNaN a.bits = false ∧ isInf a.bits = false := by
  unfold Finite isFinite at h
  unfold isNaN isInf
  simp only [bne_iff_ne, ne_eq] at h
  have : (expo a.bits == 255) = false := by simpa using h
  rw [this]
  exact ⟨rfl, rfl⟩

theorem value_units (a : F32) : value a.bits = if neg a.bits then -(a.units : Int) else (a.units : Int) := rfl

theorem abs_value (a : F32) : (value a.bits).natAbs = a.units := by
  rw [value_units]
  split <;> simp

theorem abs_real (a : F32) : |real a| = (a.units : ℝ) / 2 ^ 149 := by
  unfold real
  rw [abs_div, abs_of_pos (show (0 : ℝ) < 2 ^ 149 by positivity), value_units]
  congr 1
  split <;> simp

theorem real_units (a : F32) : real a = (if neg a.bits then -1 else 1) * ((a.units : ℝ) / 2 ^ 149) := by
  unfold real
  rw [value_units]
  split <;> push_cast <;> ring

theorem top_ge : 2 ^ 276 ≤ top := by decide +kernel

/-- A natural number of units that is at most 2^127 when seen as a real number. -/
theorem le_top (num den : Nat) (hden : 0 < den) (h : (num : ℝ) / den / 2 ^ 149 ≤ 2 ^ 127) : num ≤ den * top := by
  refine le_trans ?_ (Nat.mul_le_mul_left den top_ge)
  have hd : (0 : ℝ) < den := by exact_mod_cast hden
  rw [div_div, div_le_iff₀ (by positivity)] at h
  have : (num : ℝ) ≤ ((den * 2 ^ 276 : Nat) : ℝ) := by
    push_cast
    refine le_trans h (le_of_eq ?_)
    rw [show (276 : Nat) = 127 + 149 by rfl, pow_add]
    ring
  exact_mod_cast this

/-- The rounded number, in real numbers. -/
theorem rounded_real (b : Bool) (num den : Nat) (hden : 0 < den) (h : (num : ℝ) / den / 2 ^ 149 ≤ 2 ^ 127) :
    Finite (F32.rounded b num den) ∧
      |real (F32.rounded b num den) - (if b then -1 else 1) * ((num : ℝ) / den / 2 ^ 149)| ≤
        u * ((num : ℝ) / den / 2 ^ 149) + if den = 1 then 0 else η := by
  obtain ⟨h1, h2, v, hv, h3⟩ := rounded_spec b num den hden (le_top num den hden h)
  refine ⟨h1, ?_⟩
  rw [real_units, h2, hv]
  have hd : (0 : ℝ) < den := by exact_mod_cast hden
  have hη : 0 ≤ (if den = 1 then (0 : ℝ) else η) := by split <;> [exact le_refl _; exact η_pos.le]
  have hsign : ∀ x y : ℝ, |(if b = true then (-1 : ℝ) else 1) * x - (if b = true then -1 else 1) * y| = |x - y| := by
    intro x y
    cases b
    · simp
    · simp only [if_true]
      rw [show (-1 : ℝ) * x - -1 * y = -(x - y) by ring, abs_neg]
  rw [hsign]
  have key : |(v : ℝ) - (num : ℝ) / den| ≤ u * ((num : ℝ) / den) + (if den = 1 then (0 : ℝ) else η) * 2 ^ 149 := by
    rcases h3 with ⟨g1, g2⟩ | ⟨g0, g1, g2⟩
    · have e1 : (2 : ℝ) ^ 24 * (v * den) ≤ 2 ^ 24 * num + num := by exact_mod_cast g1
      have e2 : (2 : ℝ) ^ 24 * num ≤ 2 ^ 24 * (v * den) + num := by exact_mod_cast g2
      have : |(v : ℝ) - (num : ℝ) / den| ≤ u * ((num : ℝ) / den) := by
        rw [show (v : ℝ) - (num : ℝ) / den = (v * den - num) / den by field_simp, abs_div, abs_of_pos hd, ← mul_div_assoc]
        refine div_le_div_of_nonneg_right ?_ hd.le
        unfold u
        rw [abs_le]
        constructor <;> linarith
      have := mul_nonneg hη (show (0 : ℝ) ≤ 2 ^ 149 by positivity)
      linarith
    · have e1 : (2 : ℝ) * (v * den) ≤ 2 * num + den := by exact_mod_cast g1
      have e2 : (2 : ℝ) * num ≤ 2 * (v * den) + den := by exact_mod_cast g2
      rw [if_neg g0]
      have : |(v : ℝ) - (num : ℝ) / den| ≤ 1 / 2 := by
        rw [show (v : ℝ) - (num : ℝ) / den = (v * den - num) / den by field_simp, abs_div, abs_of_pos hd, div_le_iff₀ hd, abs_le]
        constructor <;> linarith
      have e : η * 2 ^ 149 = 1 / 2 := by unfold η; rw [pow_succ]; field_simp
      have : 0 ≤ u * ((num : ℝ) / den) := mul_nonneg u_pos.le (div_nonneg (Nat.cast_nonneg _) hd.le)
      rw [e]
      linarith
  rw [← sub_div, abs_div, abs_of_pos (show (0 : ℝ) < 2 ^ 149 by positivity), div_le_iff₀ (by positivity)]
  refine le_trans key (le_of_eq ?_)
  rw [add_mul, mul_assoc u, div_mul_cancel₀ _ (by positivity)]

/-- `a + b` -/
theorem add_spec (a b : F32) (ha : Finite a) (hb : Finite b) (h : |real a + real b| ≤ 2 ^ 127) :
    Finite (a + b) ∧ |real (a + b) - (real a + real b)| ≤ u * |real a + real b| := by
  show Finite (F32.add a b) ∧ |real (F32.add a b) - (real a + real b)| ≤ u * |real a + real b|
  obtain ⟨a1, a2⟩ := finite_not a ha
  obtain ⟨b1, b2⟩ := finite_not b hb
  unfold F32.add
  rw [a1, a2, b1, b2]
  simp only [Bool.or_self, Bool.false_eq_true, if_false]
  have hsum : real a + real b = ((value a.bits + value b.bits : Int) : ℝ) / 2 ^ 149 := by unfold real; push_cast; ring
  rw [hsum] at h ⊢
  generalize hz : value a.bits + value b.bits = z at *
  by_cases h0 : z = 0
  · rw [if_pos h0, h0]
    split <;> refine ⟨by decide, ?_⟩ <;> norm_num [real, value, neg, magUnits, expo, frac]
  · rw [if_neg h0]
    have e : |(z : ℝ) / 2 ^ 149| = ((z.natAbs : ℝ)) / (1 : Nat) / 2 ^ 149 := by
      rw [abs_div, abs_of_pos (show (0 : ℝ) < 2 ^ 149 by positivity), Nat.cast_one, div_one, Nat.cast_natAbs, Int.cast_abs]
    have e2 : (z : ℝ) / 2 ^ 149 = (if decide (z < 0) = true then -1 else 1) * ((z.natAbs : ℝ) / (1 : Nat) / 2 ^ 149) := by
      rw [Nat.cast_one, div_one, Nat.cast_natAbs, Int.cast_abs]
      by_cases hn : z < 0
      · have : (z : ℝ) < 0 := by exact_mod_cast hn
        simp only [hn, decide_true, if_true]
        rw [abs_of_neg this]; ring
      · have : (0 : ℝ) ≤ z := by exact_mod_cast (not_lt.mp hn)
        simp only [hn, decide_false, Bool.false_eq_true, if_false]
        rw [abs_of_nonneg this]; ring
    rw [e] at h
    obtain ⟨g1, g2⟩ := rounded_real (decide (z < 0)) z.natAbs 1 (by omega) h
    refine ⟨g1, ?_⟩
    rw [if_pos rfl, add_zero, ← e2] at g2
    rw [e]
    exact g2

/-- `a * b` -/
theorem mul_spec (a b : F32) (ha : Finite a) (hb : Finite b) (h : |real a * real b| ≤ 2 ^ 127) :
    Finite (a * b) ∧ |real (a * b) - real a * real b| ≤ u * |real a * real b| + η := by
  show Finite (F32.mul a b) ∧ |real (F32.mul a b) - real a * real b| ≤ u * |real a * real b| + η
  obtain ⟨a1, a2⟩ := finite_not a ha
  obtain ⟨b1, b2⟩ := finite_not b hb
  unfold F32.mul
  rw [a1, a2, b1, b2]
  simp only [Bool.or_self, Bool.false_eq_true, if_false]
  have e : |real a * real b| = ((a.units * b.units : Nat) : ℝ) / ((2 ^ 149 : Nat) : ℝ) / 2 ^ 149 := by
    rw [abs_mul, abs_real, abs_real, Nat.cast_mul, Nat.cast_pow, Nat.cast_ofNat]
    generalize (2 : ℝ) ^ 149 = p
    rw [div_mul_div_comm, div_div]
  have e2 : real a * real b = (if (neg a.bits != neg b.bits) = true then -1 else 1) *
      (((a.units * b.units : Nat) : ℝ) / ((2 ^ 149 : Nat) : ℝ) / 2 ^ 149) := by
    rw [← e, abs_mul, abs_real, abs_real, real_units a, real_units b]
    cases neg a.bits <;> cases neg b.bits <;> simp
  rw [e] at h
  obtain ⟨g1, g2⟩ := rounded_real (neg a.bits != neg b.bits) (a.units * b.units) (2 ^ 149) (by positivity) h
  refine ⟨g1, ?_⟩
  rw [← e2, ← e] at g2
  refine le_trans g2 ?_
  have : (if 2 ^ 149 = 1 then (0 : ℝ) else η) = η := by rw [if_neg (by decide +kernel)]
  rw [this]

end Verif.Rounding
