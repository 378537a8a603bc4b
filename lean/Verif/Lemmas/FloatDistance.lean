import Verif.Lemmas.FloatMomentum
import Verif.Spec.FloatDistance

/-!
Differences of floats: sign and size.
-/
namespace Verif.FloatDistance
open Verif FloatBits Rounding FloatOrder FloatActivation FloatLoss FloatAdam

/-- The size of a difference is the rounded exact size. -/
theorem sub_units (p t : F32) (hp : Rounding.Finite p) (ht : Rounding.Finite t) : Num (p - t) ∧
    (p - t).units = (F32.rounded false (val p - val t).natAbs 1).units := by
  have hn : Rounding.Finite (F32.negate t) := (negate_finite t).mpr ht
  obtain ⟨n1, -, n3, n4⟩ := add_facts p (F32.negate t) hp (finite_num _ hn)
  have hi := (finite_not _ hn).2
  refine ⟨n1, ?_⟩
  show (p + F32.negate t).units = _
  rw [negate_val] at n3 n4
  by_cases h0 : val p + -val t = 0
  · have h1 := n3 hi h0
    have h2 := val_abs (p + F32.negate t)
    rw [h1] at h2
    rw [← h2, show val p - val t = 0 by omega]
    decide +kernel
  · rw [n4 hi h0, rounded_units, rounded_units]
    rfl

/-- Every difference of different floats has the right sign. -/
theorem sub_sign (p t : F32) (hp : Rounding.Finite p) (ht : Rounding.Finite t) : (val t < val p → 0 < val (p - t)) ∧ (val p < val t → val (p - t) < 0) ∧
    (val p = val t → val (p - t) = 0) := by
  have hn : Rounding.Finite (F32.negate t) := (negate_finite t).mpr ht
  obtain ⟨n1, -, n3, n4⟩ := add_facts p (F32.negate t) hp (finite_num _ hn)
  have hi := (finite_not _ hn).2
  show (_ → 0 < val (p + F32.negate t)) ∧ (_ → val (p + F32.negate t) < 0) ∧ (_ → val (p + F32.negate t) = 0)
  rw [negate_val] at n3 n4
  have pos : ∀ b n, 1 ≤ n → 1 ≤ (F32.rounded b n 1).units := by
    intro b n h
    have := le_rounded b n 1 (by omega) ⟨1#32⟩ (by decide) (by rw [show F32.units ⟨1#32⟩ = 1 by decide]; omega)
    rwa [show F32.units ⟨1#32⟩ = 1 by decide] at this
  refine ⟨fun h => ?_, fun h => ?_, fun h => n3 hi (by omega)⟩
  · rw [n4 hi (by omega), val_units, rounded_neg, if_neg (by simp; omega)]
    have := pos (decide (val p + -val t < 0)) (val p + -val t).natAbs (by omega)
    omega
  · rw [n4 hi (by omega), val_units, rounded_neg, if_pos (by simp; omega)]
    have := pos (decide (val p + -val t < 0)) (val p + -val t).natAbs (by omega)
    omega

/-- A product with 1 or 2. -/
theorem scale_sign (c x : F32) (hc : c = one ∨ c = two) (hx : Num x) : Num (c * x) ∧ (0 < val x → 0 < val (c * x)) ∧ (val x < 0 → val (c * x) < 0) ∧
    (val x = 0 → val (c * x) = 0) := by
  have hf : Rounding.Finite c ∧ neg c.bits = false ∧ 0 < c.units ∧ 2 ^ 149 ≤ c.units := by rcases hc with rfl | rfl <;> decide +kernel
  obtain ⟨n1, n2, n3, n4⟩ := mul_pos_facts c x hf.1 hf.2.1 hf.2.2.1 hx
  have hu : 0 < x.units → 0 < (c * x).units := by
    intro h
    rcases num_cases x hx with ⟨-, hi⟩ | ⟨hi, -⟩
    · rw [n3 hi]
      have := le_rounded (neg x.bits) (c.units * x.units) (2 ^ 149) (Nat.two_pow_pos _) ⟨1#32⟩ (by decide) (by
        rw [show F32.units ⟨1#32⟩ = 1 by decide, Nat.one_mul]
        calc 2 ^ 149 ≤ c.units := hf.2.2.2
          _ = c.units * 1 := (Nat.mul_one _).symm
          _ ≤ c.units * x.units := Nat.mul_le_mul_left _ h)
      rw [show F32.units ⟨1#32⟩ = 1 by decide] at this
      exact this
    · rw [n4 hi]
      decide +kernel
  have hz : x.units = 0 → (c * x).units = 0 := by
    intro h
    have hxf : Rounding.Finite x := finite_of_le x 0 hx (by decide) (by omega)
    have := mul_zero_val c x hf.1 hxf (Or.inr h)
    have h2 := val_abs (c * x)
    rw [this] at h2
    exact h2.symm
  have v1 := val_units x
  have v2 := val_units (c * x)
  rw [n2] at v2
  refine ⟨n1, ?_, ?_, ?_⟩ <;> intro h <;> cases hb : neg x.bits <;> rw [hb] at v1 v2 <;> simp only [Bool.false_eq_true, if_false, if_true] at v1 v2 <;> omega

theorem val_lt_real (a b : F32) : val a ≤ val b ↔ real a ≤ real b := by
  unfold real
  rw [div_le_div_iff_of_pos_right (by positivity)]
  exact_mod_cast Iff.rfl

/-- Distances in units. -/
theorem distance_units (t p q : F32) (h : distance t p ≤ distance t q) : (val p - val t).natAbs ≤ (val q - val t).natAbs := by
  have e : ∀ x : F32, distance t x = |((val x - val t : Int) : ℝ)| / 2 ^ 149 := by
    intro x
    unfold distance real
    rw [← sub_div, abs_div, abs_of_pos (show (0 : ℝ) < 2 ^ 149 by positivity)]
    push_cast
    rfl
  rw [e, e, div_le_div_iff_of_pos_right (by positivity), ← Int.cast_abs, ← Int.cast_abs] at h
  have h2 : |val p - val t| ≤ |val q - val t| := by exact_mod_cast h
  rw [Int.abs_eq_natAbs, Int.abs_eq_natAbs] at h2
  omega

/-- A larger distance gives a larger size of the difference. -/
theorem sub_units_mono (t p q : F32) (ht : Rounding.Finite t) (hp : Rounding.Finite p) (hq : Rounding.Finite q) (h : distance t p ≤ distance t q) :
    F32.ge (q - t).abs (p - t).abs = true := by
  obtain ⟨p1, p2⟩ := sub_units p t hp ht
  obtain ⟨q1, q2⟩ := sub_units q t hq ht
  obtain ⟨a1, a2, a3, -⟩ := abs_facts (p - t)
  obtain ⟨b1, b2, b3, -⟩ := abs_facts (q - t)
  refine (ge_iff _ _).mpr ⟨b3.mpr q1, a3.mpr p1, ?_⟩
  rw [val_units, val_units, a1, b1, a2, b2, p2, q2]
  simp only [Bool.false_eq_true, if_false]
  have := rounded_mono false false _ 1 _ 1 (by omega) (by omega) (Nat.mul_le_mul_right 1 (distance_units t p q h))
  exact_mod_cast this

end Verif.FloatDistance
