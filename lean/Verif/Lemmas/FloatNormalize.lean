import Verif.Lemmas.FloatStatistics
import Verif.Lemmas.FloatDistance

/-!
Lemmas for normalizing in 32-bit floats.
-/
namespace Verif.FloatStatistics
open Verif FloatBits Rounding FloatOrder FloatActivation

theorem real_val (a : F32) : real a = (val a : ℝ) / 2 ^ 149 := rfl

theorem real_le_iff (a b : F32) : real a ≤ real b ↔ val a ≤ val b := by
  rw [real_val, real_val, div_le_div_iff_of_pos_right (by positivity)]
  exact Int.cast_le

theorem units_one : one.units = 2 ^ 149 := by decide +kernel

theorem units_nonneg (a : F32) (h : 0 ≤ val a) : (a.units : Int) = val a := by
  rw [← val_abs, Int.natAbs_of_nonneg h]

/-- A quotient of at most 1. -/
theorem quotient (a b : F32) (ha : Finite a) (hb : Finite b) (h0 : 0 ≤ val a) (hb0 : 0 < val b) :
    ∃ s : Bool, a / b = F32.rounded s (a.units * 2 ^ 149) b.units ∧ (s = true → a.units = 0) := by
  obtain ⟨a1, a2⟩ := finite_not a ha
  obtain ⟨b1, b2⟩ := finite_not b hb
  have ub := units_nonneg b hb0.le
  have ua := units_nonneg a h0
  refine ⟨neg a.bits != neg b.bits, ?_, ?_⟩
  · show F32.div a b = _
    unfold F32.div
    rw [a1, a2, b1, b2]
    simp only [Bool.or_self, Bool.false_eq_true, if_false]
    rw [if_neg (by omega)]
  · intro hs
    have nb : neg b.bits = false := by
      have := val_units b
      cases hn : neg b.bits
      · rfl
      · rw [hn, if_pos rfl] at this
        omega
    rw [nb] at hs
    have na : neg a.bits = true := by simpa using hs
    have := val_units a
    rw [na, if_pos rfl] at this
    omega

theorem quotient_facts (a b : F32) (ha : Finite a) (hb : Finite b) (h0 : 0 ≤ val a) (hab : val a ≤ val b) (hb0 : 0 < val b) :
    Finite (a / b) ∧ 0 ≤ val (a / b) ∧ val (a / b) ≤ val one ∧ (val a = 0 → val (a / b) = 0) ∧ (val a = val b → val (a / b) = val one) ∧
      |real (a / b) - real a / real b| ≤ u * (real a / real b) + η := by
  obtain ⟨s, e, hs⟩ := quotient a b ha hb h0 hb0
  have ub := units_nonneg b hb0.le
  have ua := units_nonneg a h0
  have hbu : 0 < b.units := by omega
  have hle : (a / b).units ≤ one.units := by
    rw [e]
    refine rounded_le _ _ _ hbu one (by decide) ?_
    rw [units_one, Nat.mul_comm]
    exact Nat.mul_le_mul_left _ (by omega)
  have hfin : Finite (a / b) := by
    rcases num_cases (a / b) (by rw [e]; exact (rounded_bits _ _ _).2.2) with h | h
    · exact h.1
    · have := FloatOrder.finite_lt one (by decide)
      omega
  have hzero : a.units = 0 → (a / b).units = 0 := by
    intro h
    rw [e, h]
    have := rounded_le s (0 * 2 ^ 149) b.units hbu 0 (by decide) (by rw [Nat.zero_mul]; exact Nat.zero_le _)
    have e0 : (0 : F32).units = 0 := by decide
    omega
  have hval : val (a / b) = (a / b).units := by
    rw [val_units]
    have hn : neg (a / b).bits = s := by rw [e, rounded_neg]
    rw [hn]
    cases s with
    | false => rfl
    | true =>
      rw [if_pos rfl, hzero (hs rfl)]
      rfl
  have hone : val one = one.units := by decide +kernel
  refine ⟨hfin, by omega, by omega, fun h => ?_, fun h => ?_, ?_⟩
  · rw [hval, hzero (by omega)]
    rfl
  · rw [hval, hone, e, show a.units = b.units by omega]
    have := (rounded_exact s one (by decide) b.units hbu).2.1
    rw [units_one, Nat.mul_comm] at this
    rw [this, units_one]
  · have hq : ((a.units * 2 ^ 149 : Nat) : ℝ) / (b.units : Nat) / 2 ^ 149 = real a / real b := by
      rw [real_val, real_val, ← ua, ← ub]
      have : (0 : ℝ) < (b.units : ℝ) := by exact_mod_cast hbu
      rw [Nat.cast_mul, Nat.cast_pow, Nat.cast_ofNat, Int.cast_natCast, Int.cast_natCast]
      have hp : (0 : ℝ) < 2 ^ 149 := by positivity
      generalize (2 : ℝ) ^ 149 = p at *
      field_simp
    have hb' : (0 : ℝ) < real b := by rw [real_val]; exact div_pos (by exact_mod_cast hb0) (by positivity)
    have ha' : (0 : ℝ) ≤ real a := by rw [real_val]; exact div_nonneg (by exact_mod_cast h0) (by positivity)
    have q1 : real a / real b ≤ 1 := by
      rw [div_le_one hb']
      exact (real_le_iff _ _).2 hab
    obtain ⟨-, r⟩ := rounded_real s (a.units * 2 ^ 149) b.units hbu (by rw [hq]; exact q1.trans (by norm_num))
    rw [hq, ← e] at r
    have hη : (if b.units = 1 then (0 : ℝ) else η) ≤ η := by split <;> [exact η_pos.le; exact le_refl _]
    have hsgn : (if s = true then (-1 : ℝ) else 1) * (real a / real b) = real a / real b := by
      cases s with
      | false => simp
      | true =>
        have : real a = 0 := by
          rw [real_val, ← ua, hs rfl]
          simp
        rw [this]
        simp
    rw [hsgn] at r
    linarith

theorem quotient_mono (a a' b : F32) (ha : Finite a) (ha' : Finite a') (hb : Finite b) (h0 : 0 ≤ val a) (h1 : val a ≤ val a') (h2 : val a' ≤ val b) (hb0 : 0 < val b) :
    val (a / b) ≤ val (a' / b) := by
  obtain ⟨s, e, hs⟩ := quotient a b ha hb h0 hb0
  obtain ⟨s', e', hs'⟩ := quotient a' b ha' hb (h0.trans h1) hb0
  have p := (quotient_facts a b ha hb h0 (h1.trans h2) hb0).2.1
  have p' := (quotient_facts a' b ha' hb (h0.trans h1) h2 hb0).2.1
  have ub := units_nonneg b hb0.le
  have ua := units_nonneg a h0
  have ua' := units_nonneg a' (h0.trans h1)
  rw [← units_nonneg _ p, ← units_nonneg _ p', e, e']
  have hbu : 0 < b.units := by omega
  exact_mod_cast rounded_mono s s' _ _ _ _ hbu hbu (Nat.mul_le_mul_right _ (Nat.mul_le_mul_right _ (by omega)))

end Verif.FloatStatistics
