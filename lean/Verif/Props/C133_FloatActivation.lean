import Verif.Lemmas.FloatLibm
import Mathlib.Analysis.Complex.ExponentialBounds

/-!
C133: what the activation functions return for every 32-bit float, infinities and NaN included. In 32-bit floats they stay in their documented range, keep
the order of the inputs and have slopes between 0 and the steepest slope, whatever the C library rounds (`Sound`). The exceptions: the leaky rectifier and
the approximated sigmoid turn infinities into NaN, the approximated sigmoid is not monotone, and sigmoids reach their limits, where their slope is 0.
-/
namespace Verif.FloatActivation
open FloatBits Rounding FloatOrder

/-- Some library, for the functions that do not use it. -/
def noLibm : Libm := ⟨fun x => x, fun x => x⟩

/-- The inputs for which a function is claimed to return a number: all numbers, but not infinities for the two functions that turn them into NaN. -/
def Act.Input (a : Act) (x : F32) : Prop :=
  Number x ∧ (a = .leaky ∨ a = .sigmoidApprox → IsFinite x)

/-- The result is a number in the documented range. -/
theorem C133_range (m : Libm) (hm : Sound m) (a : Act) (x : F32) (hx : a.Input x) : Within a.low a.high (a.value m x) := by
  obtain ⟨hn, hf⟩ := hx
  cases a with
  | relu =>
    show Within 0 inf (if F32.lt x 0 then 0 else x)
    rw [within_iff _ _ _ num_zero num_inf]
    have hh := ((within_iff _ _ _ num_minusInf num_inf).mp (anything x hn)).2.2
    by_cases h : F32.lt x 0 = true
    · rw [if_pos h]
      exact ⟨num_zero, le_refl _, by decide +kernel⟩
    · rw [if_neg h]
      refine ⟨hn, ?_, hh⟩
      by_contra hne
      exact h ((lt_iff _ _).mpr ⟨hn, num_zero, not_le.mp hne⟩)
  | leaky => exact anything _ (finite_num _ (leaky_facts m x (hf (Or.inl rfl))).2.1)
  | linear => exact anything _ hn
  | sigmoid =>
    obtain ⟨h1, h2, h3⟩ := logistic_range m hm x hn
    exact (within_iff _ _ _ num_zero num_one).mpr ⟨h1, by rw [val_zero]; exact h2, h3⟩
  | sigmoidApprox =>
    obtain ⟨h1, h2, h3⟩ := approx_range x (hf (Or.inr rfl))
    exact (within_iff _ _ _ num_zero num_one).mpr ⟨h1, by rw [val_zero]; exact h2, h3⟩
  | tanh => exact hm.tanh_range x hn
  | tanhApprox =>
    obtain ⟨t1, t2, t3⟩ := two_facts
    obtain ⟨h1, h2, h3⟩ := logistic_range m hm (two * x) (mul_pos_facts two x t1 t2 t3 hn).1
    exact (within_iff _ _ _ num_minusOne num_one).mpr (tanhApprox_range _ h1 h2 h3)

/-- A NaN is not hidden. -/
theorem C133_nan (m : Libm) (hm : Sound m) (a : Act) (x : F32) (hx : ¬ Number x) : ¬ Number (a.value m x) := by
  cases a with
  | relu =>
    show ¬ Num (if F32.lt x 0 then 0 else x)
    rw [if_neg (fun h => hx ((lt_iff _ _).mp h).1)]
    exact hx
  | leaky => exact nan_add _ _ (Or.inr (nan_mul _ _ (Or.inr hx)))
  | linear => exact hx
  | sigmoid => exact logistic_nan m hm x hx
  | sigmoidApprox => exact nan_mul _ _ (Or.inr (nan_add _ _ (Or.inl (nan_div _ _ (Or.inl hx)))))
  | tanh => exact hm.tanh_nan x hx
  | tanhApprox => exact nan_sub _ _ (Or.inl (nan_mul _ _ (Or.inr (logistic_nan m hm _ (nan_mul _ _ (Or.inr hx))))))

/-- The larger the input, the larger the result (or equal), except for the approximated sigmoid. -/
theorem C133_order_partial (m : Libm) (hm : Sound m) (a : Act) (ha : a ≠ .sigmoidApprox) (x y : F32) (hx : a.Input x) (hy : a.Input y)
    (h : F32.ge y x = true) : F32.ge (a.value m y) (a.value m x) = true := by
  obtain ⟨-, -, hv⟩ := (ge_iff _ _).mp h
  have rx := C133_range m hm a x hx
  have ry := C133_range m hm a y hy
  refine (ge_iff _ _).mpr ⟨((ge_iff _ _).mp ry.1).1, ((ge_iff _ _).mp rx.1).1, ?_⟩
  cases a with
  | relu =>
    show val (if F32.lt x 0 then 0 else x) ≤ val (if F32.lt y 0 then 0 else y)
    have e : ∀ z : F32, Num z → val (if F32.lt z 0 then 0 else z) = max 0 (val z) := by
      intro z hz
      by_cases hlt : F32.lt z 0 = true
      · have := ((lt_iff _ _).mp hlt).2.2
        rw [val_zero] at this
        rw [if_pos hlt, val_zero]
        omega
      · have : 0 ≤ val z := by
          by_contra hne
          exact hlt ((lt_iff _ _).mpr ⟨hz, num_zero, by rw [val_zero]; omega⟩)
        rw [if_neg hlt]
        omega
    rw [e x hx.1, e y hy.1]
    omega
  | leaky => exact leaky_mono m x y (hx.2 (Or.inl rfl)) (hy.2 (Or.inl rfl)) hv
  | linear => exact hv
  | sigmoid => exact logistic_mono m hm x y hx.1 hy.1 hv
  | sigmoidApprox => exact absurd rfl ha
  | tanh => exact ((ge_iff _ _).mp (hm.tanh_order x y h)).2.2
  | tanhApprox =>
    obtain ⟨t1, t2, t3⟩ := two_facts
    have nx := (mul_pos_facts two x t1 t2 t3 hx.1).1
    have ny := (mul_pos_facts two y t1 t2 t3 hy.1).1
    obtain ⟨x1, x2, x3⟩ := logistic_range m hm (two * x) nx
    obtain ⟨y1, y2, y3⟩ := logistic_range m hm (two * y) ny
    exact tanhApprox_mono _ _ x1 y1 x2 (logistic_mono m hm _ _ nx ny (mul_mono two x y t1 t2 t3 hx.1 hy.1 hv)) y3

/-- At 0 and -0 the result is the centre: 0.5 for the sigmoids, 0 for the others. -/
theorem C133_centre (m : Libm) (hm : Sound m) (a : Act) (x : F32) (hx : Within 0 0 x) : Within a.centre a.centre (a.value m x) := by
  obtain ⟨hn, h1, h2⟩ := (within_iff _ _ _ num_zero num_zero).mp hx
  rw [val_zero] at h1 h2
  have hv : val x = 0 := by omega
  have hb : x = 0 ∨ x = ⟨0x80000000#32⟩ := by
    have hu : x.units = 0 := by have := val_abs x; rw [hv] at this; exact this.symm
    rw [units_pattern, show (0 : Nat) = pattern 0 by decide] at hu
    have hm := pattern_strict.injective hu
    unfold mag at hm
    have hl := x.bits.isLt
    have : x.bits.toNat = 0 ∨ x.bits.toNat = 2 ^ 31 := by omega
    rcases this with h | h
    · left; exact congrArg F32.mk (BitVec.eq_of_toNat_eq h)
    · right; exact congrArg F32.mk (BitVec.eq_of_toNat_eq h)
  cases a with
  | relu =>
    have k : ∀ z ∈ [(0 : F32), ⟨0x80000000#32⟩], Within (Act.centre .relu) (Act.centre .relu) (Act.value noLibm .relu z) := by decide +kernel
    exact k x (by simpa using hb)
  | leaky =>
    have k : ∀ z ∈ [(0 : F32), ⟨0x80000000#32⟩], Within (Act.centre .leaky) (Act.centre .leaky) (Act.value noLibm .leaky z) := by decide +kernel
    exact k x (by simpa using hb)
  | linear => exact hx
  | sigmoid =>
    show Within half half (logistic m x)
    rw [logistic_zero m hm x hn hv]
    decide
  | sigmoidApprox =>
    have k : ∀ z ∈ [(0 : F32), ⟨0x80000000#32⟩], Within (Act.centre .sigmoidApprox) (Act.centre .sigmoidApprox) (Act.value noLibm .sigmoidApprox z) := by decide +kernel
    exact k x (by simpa using hb)
  | tanh => exact hm.tanh_zero x hx.1 hx.2
  | tanhApprox =>
    show Within 0 0 (two * logistic m (two * x) - one)
    obtain ⟨t1, t2, t3⟩ := two_facts
    have nx := mul_pos_facts two x t1 t2 t3 hn
    have hz : val (two * x) = 0 := by rcases hb with h | h <;> subst h <;> decide +kernel
    rw [logistic_zero m hm _ nx.1 hz]
    decide +kernel

/-- The derivative used in training lies between 0 and the steepest slope, 1/4 for the sigmoids and 1 for the others; for the leaky rectifier it is at least
0.01. -/
theorem C133_slope (m : Libm) (hm : Sound m) (a : Act) (x : F32) (hx : a.Input x) :
    Within 0 a.steepest (a.slope m x) ∧ (a = .leaky → Within hundredth one (a.slope m x)) := by
  obtain ⟨hn, hf⟩ := hx
  cases a with
  | relu =>
    refine ⟨?_, fun h => by cases h⟩
    show Within 0 one (if F32.lt 0 x then one else 0)
    cases F32.lt 0 x <;> decide +kernel
  | leaky =>
    have key : Within hundredth one (Act.leaky.slope m x) := by
      show Within hundredth one (F32.flag (F32.lt x 0) * hundredth + F32.flag (F32.ge x 0) * one)
      by_cases h : val x < 0
      · have h1 : F32.lt x 0 = true := (lt_iff _ _).mpr ⟨hn, num_zero, by rw [val_zero]; exact h⟩
        have h2 : F32.ge x 0 = false := by
          rw [Bool.eq_false_iff]
          intro hge
          have := (ge_iff _ _).mp hge
          rw [val_zero] at this
          omega
        rw [h1, h2]
        decide +kernel
      · have h1 : F32.lt x 0 = false := by
          rw [Bool.eq_false_iff]
          intro hlt
          have := (lt_iff _ _).mp hlt
          rw [val_zero] at this
          omega
        have h2 : F32.ge x 0 = true := (ge_iff _ _).mpr ⟨hn, num_zero, by rw [val_zero]; omega⟩
        rw [h1, h2]
        decide +kernel
    refine ⟨?_, fun _ => key⟩
    obtain ⟨k1, k2, k3⟩ := (within_iff _ _ _ (by decide) num_one).mp key
    refine (within_iff _ _ _ num_zero num_one).mpr ⟨k1, le_trans ?_ k2, k3⟩
    decide +kernel
  | linear => exact ⟨(by decide +kernel : Within 0 one one), fun h => by cases h⟩
  | sigmoid =>
    refine ⟨?_, fun h => by cases h⟩
    obtain ⟨h1, h2, h3⟩ := logistic_range m hm x hn
    exact bump _ h1 h2 h3
  | sigmoidApprox =>
    refine ⟨?_, fun h => by cases h⟩
    obtain ⟨h1, h2, h3⟩ := approx_range x (hf (Or.inr rfl))
    exact bump _ h1 h2 h3
  | tanh =>
    refine ⟨?_, fun h => by cases h⟩
    obtain ⟨h1, h2, h3⟩ := (within_iff _ _ _ num_minusOne num_one).mp (hm.tanh_range x hn)
    exact arch _ h1 h2 h3
  | tanhApprox =>
    refine ⟨?_, fun h => by cases h⟩
    obtain ⟨t1, t2, t3⟩ := two_facts
    obtain ⟨h1, h2, h3⟩ := logistic_range m hm (two * x) (mul_pos_facts two x t1 t2 t3 hn).1
    obtain ⟨g1, g2, g3⟩ := tanhApprox_range _ h1 h2 h3
    exact arch _ g1 g2 g3

/-- The leaky rectifier and the approximated sigmoid turn both infinities into NaN, although the limits of the functions are not in doubt. -/
theorem C133_infinite_violated (m : Libm) : ∀ x ∈ [inf, minusInf], Number x ∧ ∀ a ∈ [Act.leaky, Act.sigmoidApprox], ¬ Number (a.value m x) := by
  have k : ∀ x ∈ [inf, minusInf], Number x ∧ ¬ Number (Act.leaky.value noLibm x) ∧ ¬ Number (Act.sigmoidApprox.value noLibm x) := by decide +kernel
  intro x hx
  obtain ⟨h1, h2, h3⟩ := k x hx
  refine ⟨h1, fun a ha => ?_⟩
  simp only [List.mem_cons, List.not_mem_nil, or_false] at ha
  rcases ha with h | h <;> subst h
  · exact h2
  · exact h3

/-- The approximated sigmoid is not monotone: there are adjacent floats for which the larger one has the smaller result, above and below 0. -/
theorem C133_order_violated (m : Libm) :
    (∃ x y, Act.sigmoidApprox.Input x ∧ Act.sigmoidApprox.Input y ∧ F32.lt 0 x = true ∧ F32.lt x y = true ∧
      F32.lt (Act.sigmoidApprox.value m y) (Act.sigmoidApprox.value m x) = true) ∧
    (∃ x y, Act.sigmoidApprox.Input x ∧ Act.sigmoidApprox.Input y ∧ F32.lt y 0 = true ∧ F32.lt x y = true ∧
      F32.lt (Act.sigmoidApprox.value m y) (Act.sigmoidApprox.value m x) = true) :=
  ⟨⟨⟨0x3A1CD400#32⟩, ⟨0x3A1CD401#32⟩, ⟨by decide, fun _ => by decide⟩, ⟨by decide, fun _ => by decide⟩, by decide +kernel, by decide +kernel,
      (by decide +kernel : F32.lt (Act.sigmoidApprox.value noLibm ⟨0x3A1CD401#32⟩) (Act.sigmoidApprox.value noLibm ⟨0x3A1CD400#32⟩) = true)⟩,
    ⟨⟨0xB9EF8801#32⟩, ⟨0xB9EF8800#32⟩, ⟨by decide, fun _ => by decide⟩, ⟨by decide, fun _ => by decide⟩, by decide +kernel, by decide +kernel,
      (by decide +kernel : F32.lt (Act.sigmoidApprox.value noLibm ⟨0xB9EF8800#32⟩) (Act.sigmoidApprox.value noLibm ⟨0xB9EF8801#32⟩) = true)⟩⟩

theorem one_add_tiny (e : F32) (he : Num e) (h0 : 0 ≤ val e) (h : val e ≤ 2 ^ 125) : val (one + e) = val one := by
  have l := add_mono one 0 e finite_one num_zero he (by rw [val_zero]; exact h0)
  have u := add_mono one e ⟨0x33800000#32⟩ finite_one he (by decide) (by rw [show val ⟨0x33800000#32⟩ = 2 ^ 125 by decide +kernel]; exact h)
  have e1 : val (one + 0) = val one := by decide +kernel
  have e2 : val (one + ⟨0x33800000#32⟩) = val one := by decide +kernel
  omega

/-- The sigmoid reaches 1 as soon as the exponential function returns at most 2^-24; the slope is 0 then. -/
theorem saturates (m : Libm) (hm : Sound m) (x : F32) (hx : Number x) (h : val (m.exp (minusOne * x)) ≤ 2 ^ 125) :
    Act.sigmoid.value m x = one ∧ Act.sigmoid.slope m x = 0 := by
  obtain ⟨x1, x2⟩ := minus x hx
  obtain ⟨e1, e2, -⟩ := (within_iff _ _ _ num_zero num_inf).mp (hm.exp_range _ x1)
  rw [val_zero] at e2
  have hs := val_inj _ _ (one_add_tiny _ e1 e2 h) one_pos
  have hl : logistic m x = one := by
    unfold logistic
    rw [hs]
    decide +kernel
  refine ⟨hl, ?_⟩
  show logistic m x * (one - logistic m x) = 0
  rw [hl]
  decide +kernel

theorem exp_seventeen : Real.exp (-17) ≤ 10 / 11 / 2 ^ 24 := by
  have h1 : (2.7 : ℝ) ≤ Real.exp 1 := by have := Real.exp_one_gt_d9; linarith
  have h2 : (2.7 : ℝ) ^ 17 ≤ Real.exp 17 := by
    have : Real.exp 17 = Real.exp 1 ^ 17 := by rw [← Real.exp_nat_mul]; norm_num
    rw [this]
    exact pow_le_pow_left₀ (by norm_num) h1 17
  rw [Real.exp_neg, inv_le_comm₀ (Real.exp_pos _) (by positivity)]
  refine le_trans ?_ h2
  norm_num

/-- The sigmoid is not strictly between 0 and 1 and its slope is not positive: for every C library whose exponential function is off by at most a tenth at
-17, the sigmoid of 17 is 1 and the slope there is 0. So is the approximated sigmoid of 2^25 and its slope; at -2^25 both are 0. -/
theorem C133_strict_violated (m : Libm) (hm : Sound m)
    (hacc : |real (m.exp ⟨0xC1880000#32⟩) - Real.exp (-17)| ≤ Real.exp (-17) / 10) :
    (real ⟨0x41880000#32⟩ = 17 ∧ Act.sigmoid.value m ⟨0x41880000#32⟩ = one ∧ Act.sigmoid.slope m ⟨0x41880000#32⟩ = 0) ∧
    (Act.sigmoidApprox.value m ⟨0x4C000000#32⟩ = one ∧ Act.sigmoidApprox.slope m ⟨0x4C000000#32⟩ = 0) ∧
    (Act.sigmoidApprox.value m ⟨0xCC000000#32⟩ = 0 ∧ Act.sigmoidApprox.slope m ⟨0xCC000000#32⟩ = 0) := by
  have k : (Act.sigmoidApprox.value noLibm ⟨0x4C000000#32⟩ = one ∧ Act.sigmoidApprox.slope noLibm ⟨0x4C000000#32⟩ = 0) ∧
      (Act.sigmoidApprox.value noLibm ⟨0xCC000000#32⟩ = 0 ∧ Act.sigmoidApprox.slope noLibm ⟨0xCC000000#32⟩ = 0) := by decide +kernel
  refine ⟨⟨?_, ?_⟩, k.1, k.2⟩
  · have : value 0x41880000#32 = 17 * 2 ^ 149 := by decide +kernel
    unfold real
    rw [this, Int.cast_mul, Int.cast_pow]
    rw [show ((2 : Int) : ℝ) = 2 by norm_num, mul_div_cancel_right₀ _ (by positivity)]
    norm_num
  · refine saturates m hm _ (by decide) ?_
    have e : minusOne * (⟨0x41880000#32⟩ : F32) = ⟨0xC1880000#32⟩ := by decide +kernel
    rw [e]
    have h17 := exp_seventeen
    have hle : real (m.exp ⟨0xC1880000#32⟩) ≤ 1 / 2 ^ 24 := by
      have := (abs_le.mp hacc).2
      rw [div_div] at h17
      rw [show (10 : ℝ) / (11 * 2 ^ 24) = 10 / 11 * (1 / 2 ^ 24) by ring] at h17
      linarith
    unfold real at hle
    rw [div_le_iff₀ (by positivity), show (149 : Nat) = 24 + 125 by rfl, pow_add] at hle
    have h2 : (value (m.exp ⟨0xC1880000#32⟩).bits : ℝ) ≤ 2 ^ 125 := by
      refine le_trans hle (le_of_eq ?_)
      rw [← mul_assoc, one_div, inv_mul_cancel₀ (by positivity), one_mul]
    unfold val
    exact_mod_cast h2

/-- A C library that rounds towards 0 meets the assumptions, also the one about -17. -/
example : Sound exactLibm ∧ |real (exactLibm.exp ⟨0xC1880000#32⟩) - Real.exp (-17)| ≤ Real.exp (-17) / 10 := by
  refine ⟨exact_sound, ?_⟩
  have hr : real ⟨0xC1880000#32⟩ = -17 := by
    have : value 0xC1880000#32 = -17 * 2 ^ 149 := by decide +kernel
    unfold real
    rw [this, Int.cast_mul, Int.cast_pow]
    rw [show ((2 : Int) : ℝ) = 2 by norm_num, mul_div_cancel_right₀ _ (by positivity)]
    norm_num
  have e : exactLibm.exp ⟨0xC1880000#32⟩ = truncated (Real.exp (-17)) := by
    show (if isNaN 0xC1880000#32 then F32.nan else truncated (Real.exp (real ⟨0xC1880000#32⟩))) = _
    rw [hr, if_neg (by decide)]
  rw [e]
  have hreal : real (truncated (Real.exp (-17))) = (pattern (floorBits (Real.exp (-17))) : ℝ) / 2 ^ 149 := by
    have := truncated_val (Real.exp (-17))
    unfold val at this
    unfold real
    rw [this, Int.cast_natCast]
  have hpow : Real.exp 17 = Real.exp 1 ^ 17 := by rw [← Real.exp_nat_mul]; norm_num
  have hlow : (2.718 : ℝ) ^ 17 ≤ Real.exp 17 := by
    rw [hpow]
    exact pow_le_pow_left₀ (by norm_num) (by have := Real.exp_one_gt_d9; linarith) 17
  have hhigh : Real.exp 17 ≤ (2.7183 : ℝ) ^ 17 := by
    rw [hpow]
    exact pow_le_pow_left₀ (Real.exp_pos 1).le (by have := Real.exp_one_lt_d9; linarith) 17
  have h1 : 11 / 2 ^ 28 ≤ Real.exp (-17) := by
    rw [Real.exp_neg, le_inv_comm₀ (by positivity) (Real.exp_pos _)]
    refine le_trans hhigh ?_
    norm_num
  have h2 : Real.exp (-17) * (9 / 10) ≤ 11 / 2 ^ 28 := by
    have : Real.exp (-17) ≤ 11 / 2 ^ 28 * (10 / 9) := by
      rw [Real.exp_neg, inv_le_comm₀ (Real.exp_pos _) (by positivity)]
      refine le_trans ?_ hlow
      norm_num
    linarith
  have hp : pattern 0x33300000 = 11 * 2 ^ 121 := by decide +kernel
  have h3 : (11 : ℝ) / 2 ^ 28 ≤ real (truncated (Real.exp (-17))) := by
    rw [hreal]
    have heq : ((pattern 0x33300000 : Nat) : ℝ) / 2 ^ 149 = 11 / 2 ^ 28 := by
      rw [hp, Nat.cast_mul, Nat.cast_pow, show (149 : Nat) = 28 + 121 by rfl, pow_add]
      rw [show ((2 : Nat) : ℝ) = 2 by norm_num, mul_div_mul_right _ _ (by positivity)]
      norm_num
    have := pattern_strict.monotone (le_floorBits (Real.exp (-17)) 0x33300000 (by omega) (by rw [heq]; exact h1))
    rw [← heq]
    refine div_le_div_of_nonneg_right ?_ (by positivity)
    exact_mod_cast this
  have h4 : real (truncated (Real.exp (-17))) ≤ Real.exp (-17) := by
    rw [hreal]
    exact floorBits_spec _ (Real.exp_pos _).le
  rw [abs_le]
  constructor <;> linarith

/-- Inputs that are claimed about: an infinity for the sigmoid, the largest finite float for the leaky rectifier. -/
example : Act.sigmoid.Input inf ∧ Act.leaky.Input ⟨0x7F7FFFFF#32⟩ ∧ Act.tanhApprox.Input minusInf :=
  ⟨⟨by decide, fun h => by simp at h⟩, ⟨by decide, fun _ => by decide⟩, ⟨by decide, fun h => by simp at h⟩⟩

/-- The results at the largest finite float: the leaky rectifier keeps it, and returns a hundredth of its negative. -/
example (m : Libm) : Act.leaky.value m ⟨0x7F7FFFFF#32⟩ = ⟨0x7F7FFFFF#32⟩ ∧ Act.leaky.value m ⟨0xFF7FFFFF#32⟩ = ⟨0xFC23D709#32⟩ := by
  have k : Act.leaky.value noLibm ⟨0x7F7FFFFF#32⟩ = ⟨0x7F7FFFFF#32⟩ ∧ Act.leaky.value noLibm ⟨0xFF7FFFFF#32⟩ = ⟨0xFC23D709#32⟩ := by decide +kernel
  exact k

end Verif.FloatActivation
