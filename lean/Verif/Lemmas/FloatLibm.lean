import Verif.Lemmas.FloatActivation
import Verif.Props.C68_Activation

/-!
A C library that rounds the exponential function and the hyperbolic tangent towards 0: it meets what `Sound` asks for.
-/
namespace Verif.FloatActivation
open FloatBits Rounding FloatOrder

/-- The largest pattern of a float that is at most `y`. -/
noncomputable def floorBits (y : ℝ) : Nat := by
  classical exact Nat.findGreatest (fun r => (pattern r : ℝ) / 2 ^ 149 ≤ y) 0x7F800000

/-- The non-negative number `y`, rounded down. -/
noncomputable def truncated (y : ℝ) : F32 := ⟨BitVec.ofNat 32 (floorBits y)⟩

/-- The library. -/
noncomputable def exactLibm : Libm where
  exp := fun x => if isNaN x.bits then F32.nan else truncated (Real.exp (real x))
  tanh := fun x =>
    if isNaN x.bits then F32.nan
    else if 0 ≤ real x then truncated (Real.tanh (real x)) else F32.negate (truncated (Real.tanh (-real x)))

theorem floorBits_le (y : ℝ) : floorBits y ≤ 0x7F800000 := by
  classical
  unfold floorBits
  exact Nat.findGreatest_le _

theorem floorBits_spec (y : ℝ) (hy : 0 ≤ y) : (pattern (floorBits y) : ℝ) / 2 ^ 149 ≤ y := by
  classical
  unfold floorBits
  refine Nat.findGreatest_spec (P := fun r => (pattern r : ℝ) / 2 ^ 149 ≤ y) (m := 0) (Nat.zero_le _) ?_
  have : pattern 0 = 0 := by decide
  rw [this]
  simpa using hy

theorem le_floorBits (y : ℝ) (r : Nat) (hr : r ≤ 0x7F800000) (h : (pattern r : ℝ) / 2 ^ 149 ≤ y) : r ≤ floorBits y := by
  classical
  unfold floorBits
  exact Nat.le_findGreatest hr h

theorem floorBits_mono (y z : ℝ) (hy : 0 ≤ y) (h : y ≤ z) : floorBits y ≤ floorBits z :=
  le_floorBits z _ (floorBits_le y) (le_trans (floorBits_spec y hy) h)

theorem truncated_facts (y : ℝ) : Num (truncated y) ∧ neg (truncated y).bits = false ∧ (truncated y).units = pattern (floorBits y) := by
  have h := floorBits_le y
  have ht : (truncated y).bits.toNat = floorBits y := by
    unfold truncated
    rw [BitVec.toNat_ofNat]
    exact Nat.mod_eq_of_lt (by omega)
  rw [units_pattern]
  unfold Num neg isNaN expo frac mag
  rw [ht]
  generalize floorBits y = r at *
  refine ⟨?_, by simp; omega, by congr 1; omega⟩
  by_cases hr : r = 0x7F800000
  · subst hr; decide
  · have : r / 2 ^ 23 % 256 ≠ 255 := by omega
    rw [beq_eq_false_iff_ne.mpr this, Bool.false_and]

theorem truncated_val (y : ℝ) : val (truncated y) = pattern (floorBits y) := by
  obtain ⟨-, h2, h3⟩ := truncated_facts y
  rw [val_units, h2, h3]
  simp

theorem truncated_mono (y z : ℝ) (hy : 0 ≤ y) (h : y ≤ z) : val (truncated y) ≤ val (truncated z) := by
  rw [truncated_val, truncated_val]
  exact_mod_cast pattern_strict.monotone (floorBits_mono y z hy h)

theorem truncated_nonneg (y : ℝ) : 0 ≤ val (truncated y) := by
  rw [truncated_val]
  exact Int.natCast_nonneg _

theorem pattern_one : pattern 0x3F800000 = 2 ^ 149 := by decide +kernel

theorem truncated_one : truncated 1 = one := by
  have h1 : 0x3F800000 ≤ floorBits 1 := le_floorBits 1 _ (by omega) (by rw [pattern_one, Nat.cast_pow, Nat.cast_ofNat, div_self (by positivity)])
  have h2 : floorBits 1 ≤ 0x3F800000 := by
    by_contra hne
    have h := floorBits_spec 1 (by norm_num)
    have h3 : pattern 0x3F800000 < pattern (floorBits 1) := pattern_strict (by omega)
    rw [div_le_one (by positivity)] at h
    rw [pattern_one] at h3
    have : pattern (floorBits 1) ≤ 2 ^ 149 := by exact_mod_cast h
    exact absurd h3 (not_lt.mpr this)
  unfold truncated
  rw [show floorBits 1 = 0x3F800000 by omega]
  rfl

theorem truncated_le_one (y : ℝ) (h0 : 0 ≤ y) (h1 : y ≤ 1) : val (truncated y) ≤ val one := by
  rw [← truncated_one]
  exact truncated_mono y 1 h0 h1

theorem truncated_zero : val (truncated 0) = 0 := by
  have h := floorBits_spec 0 (le_refl _)
  rw [truncated_val]
  rw [div_le_iff₀ (by positivity), zero_mul] at h
  have : pattern (floorBits 0) ≤ 0 := by exact_mod_cast h
  omega

theorem real_mono (x y : F32) (h : val x ≤ val y) : real x ≤ real y := by
  unfold real
  refine div_le_div_of_nonneg_right ?_ (by positivity)
  exact_mod_cast h

theorem tanh_mono {x y : ℝ} (h : x ≤ y) : Real.tanh x ≤ Real.tanh y := by
  rw [← Activation.tanhApprox_eq, ← Activation.tanhApprox_eq]
  unfold Activation.value
  simp only
  have h1 : Real.exp (-1 * (2 * y)) ≤ Real.exp (-1 * (2 * x)) := Real.exp_le_exp.mpr (by linarith)
  have h2 := Real.exp_pos (-1 * (2 * y))
  have := one_div_le_one_div_of_le (show 0 < 1 + Real.exp (-1 * (2 * y)) by linarith) (show 1 + Real.exp (-1 * (2 * y)) ≤ 1 + Real.exp (-1 * (2 * x)) by linarith)
  linarith

theorem tanh_nonneg {x : ℝ} (h : 0 ≤ x) : 0 ≤ Real.tanh x := by
  have := tanh_mono h
  rwa [Real.tanh_zero] at this

theorem real_zero_of (x : F32) (h : val x = 0) : real x = 0 := by
  unfold real
  rw [show value x.bits = 0 from h]
  simp

theorem tanh_facts (x : F32) (hx : Num x) : Num (exactLibm.tanh x) ∧ val minusOne ≤ val (exactLibm.tanh x) ∧ val (exactLibm.tanh x) ≤ val one ∧
    (0 ≤ real x → val (exactLibm.tanh x) = val (truncated (Real.tanh (real x)))) ∧
    (¬ 0 ≤ real x → val (exactLibm.tanh x) = -val (truncated (Real.tanh (-real x)))) := by
  have hx' : isNaN x.bits = false := hx
  have e : exactLibm.tanh x = if 0 ≤ real x then truncated (Real.tanh (real x)) else F32.negate (truncated (Real.tanh (-real x))) := by
    show (if isNaN x.bits then F32.nan else _) = _
    rw [hx']
    rfl
  have ho := one_pos
  rw [e, val_minusOne]
  by_cases h : 0 ≤ real x
  · rw [if_pos h]
    have h1 := truncated_nonneg (Real.tanh (real x))
    have h2 := truncated_le_one (Real.tanh (real x)) (tanh_nonneg h) (Real.tanh_lt_one _).le
    exact ⟨(truncated_facts _).1, by omega, h2, fun _ => rfl, fun h' => absurd h h'⟩
  · rw [if_neg h, negate_val, negate_num]
    have h1 := truncated_nonneg (Real.tanh (-real x))
    have h2 := truncated_le_one (Real.tanh (-real x)) (tanh_nonneg (by linarith)) (Real.tanh_lt_one _).le
    exact ⟨(truncated_facts _).1, by omega, by omega, fun h' => absurd h' h, fun _ => rfl⟩

theorem exact_sound : Sound exactLibm where
  exp_nan := fun x hx => by
    have hx' : isNaN x.bits = true := by unfold Number at hx; simpa using hx
    show ¬ Number (if isNaN x.bits then F32.nan else _)
    rw [if_pos hx']
    decide
  exp_range := fun x hx => by
    have hx' : isNaN x.bits = false := hx
    have e : exactLibm.exp x = truncated (Real.exp (real x)) := by
      show (if isNaN x.bits then F32.nan else _) = _
      rw [hx']
      rfl
    rw [e, within_iff _ _ _ num_zero num_inf, val_zero]
    exact ⟨(truncated_facts _).1, truncated_nonneg _, (((within_iff _ _ _ num_minusInf num_inf).mp (anything _ (truncated_facts _).1))).2.2⟩
  exp_order := fun x y h => by
    obtain ⟨hy, hx, hv⟩ := (ge_iff _ _).mp h
    have ex : exactLibm.exp x = truncated (Real.exp (real x)) := by
      show (if isNaN x.bits then F32.nan else _) = _
      rw [show isNaN x.bits = false from hx]
      rfl
    have ey : exactLibm.exp y = truncated (Real.exp (real y)) := by
      show (if isNaN y.bits then F32.nan else _) = _
      rw [show isNaN y.bits = false from hy]
      rfl
    rw [ge_iff, ex, ey]
    exact ⟨(truncated_facts _).1, (truncated_facts _).1, truncated_mono _ _ (Real.exp_pos _).le (Real.exp_le_exp.mpr (real_mono x y hv))⟩
  exp_zero := fun x h1 h2 => by
    obtain ⟨hx, -, g1⟩ := (ge_iff _ _).mp h1
    obtain ⟨-, -, g2⟩ := (ge_iff _ _).mp h2
    rw [val_zero] at g1 g2
    have e : exactLibm.exp x = truncated (Real.exp (real x)) := by
      show (if isNaN x.bits then F32.nan else _) = _
      rw [show isNaN x.bits = false from hx]
      rfl
    rw [e, real_zero_of x (by omega), Real.exp_zero, truncated_one]
  tanh_nan := fun x hx => by
    have hx' : isNaN x.bits = true := by unfold Number at hx; simpa using hx
    show ¬ Number (if isNaN x.bits then F32.nan else _)
    rw [if_pos hx']
    decide
  tanh_range := fun x hx => by
    obtain ⟨h1, h2, h3, -⟩ := tanh_facts x hx
    exact (within_iff _ _ _ num_minusOne num_one).mpr ⟨h1, h2, h3⟩
  tanh_order := fun x y h => by
    obtain ⟨hy, hx, hv⟩ := (ge_iff _ _).mp h
    obtain ⟨x1, -, -, x4, x5⟩ := tanh_facts x hx
    obtain ⟨y1, -, -, y4, y5⟩ := tanh_facts y hy
    have hr := real_mono x y hv
    refine (ge_iff _ _).mpr ⟨y1, x1, ?_⟩
    by_cases h1 : 0 ≤ real x
    · rw [x4 h1, y4 (by linarith)]
      exact truncated_mono _ _ (tanh_nonneg h1) (tanh_mono hr)
    · rw [x5 h1]
      have n1 := truncated_nonneg (Real.tanh (-real x))
      by_cases h2 : 0 ≤ real y
      · rw [y4 h2]
        have n2 := truncated_nonneg (Real.tanh (real y))
        omega
      · rw [y5 h2]
        have := truncated_mono _ _ (tanh_nonneg (show 0 ≤ -real y by linarith)) (tanh_mono (show -real y ≤ -real x by linarith))
        omega
  tanh_zero := fun x h1 h2 => by
    obtain ⟨hx, -, g1⟩ := (ge_iff _ _).mp h1
    obtain ⟨-, -, g2⟩ := (ge_iff _ _).mp h2
    rw [val_zero] at g1 g2
    obtain ⟨t1, -, -, t4, -⟩ := tanh_facts x hx
    have hr := real_zero_of x (by omega)
    rw [within_iff _ _ _ num_zero num_zero, val_zero, t4 (by rw [hr]), hr, Real.tanh_zero, truncated_zero]
    exact ⟨t1, le_refl _, le_refl _⟩

end Verif.FloatActivation
