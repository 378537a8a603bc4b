import Verif.Lemmas.FloatDistance
import Verif.Lemmas.FloatElement
import Verif.Spec.FloatTable

/-!
One update of one weight: it moves towards the truth and not past it.
-/
namespace Verif.FloatTable
open Verif FloatBits Rounding FloatOrder FloatActivation FloatLoss FloatAdam FloatMomentum Views

/-- Doubling is exact. -/
theorem double (d : F32) (hd : Rounding.Finite d) (h : |real d| ≤ 2 ^ 126) : Rounding.Finite (two * d) ∧ real (two * d) = 2 * real d := by
  have ht : Rounding.Finite two := by decide
  have hu2 : two.units = 2 * 2 ^ 149 := by decide +kernel
  have hm := finite_mag d hd
  have hp := units_pattern d
  obtain ⟨r, hr⟩ : ∃ r, mag d.bits = r := ⟨_, rfl⟩
  rw [hr] at hm hp
  have key : ∃ q : F32, Rounding.Finite q ∧ q.units = 2 * d.units := by
    by_cases hs : r < 2 ^ 23
    · obtain ⟨g1, g2⟩ := ofPattern_units (2 * r) (by omega)
      exact ⟨_, g1, by rw [g2, hp, pattern_small _ (by omega), pattern_small _ (by omega)]⟩
    · have hlt : r < 0x7F000000 := by
        by_contra hc
        have h1 : pattern 0x7F000000 ≤ pattern r := pattern_strict.monotone (not_lt.mp hc)
        have h2 : pattern 0x7F000000 = 2 ^ 276 := by decide +kernel
        rw [h2, ← hp] at h1
        have h3 := abs_real d
        rw [h3, div_le_iff₀ (by positivity)] at h
        have h4 : d.units ≤ 2 ^ 126 * 2 ^ 149 := by exact_mod_cast h
        exact absurd (le_trans h1 h4) (by decide +kernel)
      obtain ⟨g1, g2⟩ := ofPattern_units (r + 2 ^ 23) (by omega)
      refine ⟨_, g1, ?_⟩
      rw [g2, hp]
      unfold pattern magUnits
      have e1 : (r + 2 ^ 23) / 2 ^ 23 = r / 2 ^ 23 + 1 := by omega
      have e2 : (r + 2 ^ 23) % 2 ^ 23 = r % 2 ^ 23 := by omega
      obtain ⟨k, hk⟩ : ∃ k, r / 2 ^ 23 = k + 1 := ⟨r / 2 ^ 23 - 1, by omega⟩
      rw [e1, e2, hk, if_neg (by omega), if_neg (by omega), Nat.add_sub_cancel, Nat.add_sub_cancel, Nat.pow_succ]
      ring
  obtain ⟨q, q1, q2⟩ := key
  have e : two * d = F32.rounded (neg d.bits) (q.units * 2 ^ 149) (2 ^ 149) := by
    rw [mul_facts two d ht hd, hu2, q2, show neg two.bits = false by decide]
    congr 1
    · cases neg d.bits <;> rfl
    · ring
  obtain ⟨g1, g2, g3⟩ := rounded_exact (neg d.bits) q q1 (2 ^ 149) (Nat.two_pow_pos _)
  rw [e]
  refine ⟨g1, ?_⟩
  rw [real_units, real_units d, g2, g3, q2]
  push_cast
  ring

/-- A product that is not larger than a float is not rounded beyond it. -/
theorem mul_abs_le (a b q : F32) (ha : Rounding.Finite a) (hb : Rounding.Finite b) (hq : Rounding.Finite q) (h : |real a * real b| ≤ |real q|) :
    |real (a * b)| ≤ |real q| := by
  rw [mul_facts a b ha hb, abs_real, abs_real]
  rw [abs_mul, abs_real, abs_real, abs_real] at h
  have hpos : (0 : ℝ) < 2 ^ 149 := by positivity
  rw [div_le_div_iff_of_pos_right hpos]
  have h2 : (a.units : ℝ) * b.units ≤ q.units * 2 ^ 149 := by
    rw [div_mul_div_comm, div_le_div_iff₀ (by positivity) hpos] at h
    have : (a.units : ℝ) * b.units * 2 ^ 149 ≤ (q.units * 2 ^ 149) * 2 ^ 149 := by linarith
    exact le_of_mul_le_mul_right this hpos
  have h3 : a.units * b.units ≤ q.units * 2 ^ 149 := by exact_mod_cast h2
  exact_mod_cast rounded_le _ _ _ (Nat.two_pow_pos _) q hq h3

/-- A difference of less than 2^-125 is exact. -/
theorem sub_small_exact (p t : F32) (hp : Rounding.Finite p) (ht : Rounding.Finite t) (h : |real p - real t| < 1 / 2 ^ 125) : real (p - t) = real p - real t := by
  obtain ⟨n1, n2⟩ := negate_spec t ht
  have e : real p - real t = ((val p + val (F32.negate t) : Int) : ℝ) / 2 ^ 149 := by
    rw [negate_val]
    unfold real val
    push_cast
    ring
  rw [e, abs_div, abs_of_pos (show (0 : ℝ) < 2 ^ 149 by positivity), div_lt_iff₀ (by positivity)] at h
  have h2 : (1 : ℝ) / 2 ^ 125 * 2 ^ 149 = 2 ^ 24 := by norm_num
  rw [h2, ← Int.cast_abs] at h
  have h3 : |val p + val (F32.negate t)| < 2 ^ 24 := by exact_mod_cast h
  obtain ⟨-, g2⟩ := add_small_exact p (F32.negate t) hp n1 (by rw [Int.abs_eq_natAbs] at h3; exact_mod_cast h3)
  rw [e, ← g2]
  rfl

/-- What an update uses: the difference of prediction and truth, and twice the difference. -/
theorem gradient (p t : F32) (hp : Small p) (ht : Small t) : Rounding.Finite (p - t) ∧ |real (p - t) - (real p - real t)| ≤ u * |real p - real t| ∧
    |real p - real t| ≤ 2 ^ 91 ∧ Rounding.Finite (two * (p - t)) ∧ real (two * (p - t)) = 2 * real (p - t) := by
  obtain ⟨p1, p2⟩ := hp
  obtain ⟨t1, t2⟩ := ht
  have hD : |real p - real t| ≤ 2 ^ 91 := by
    refine le_trans (abs_sub _ _) ?_
    calc |real p| + |real t| ≤ 2 ^ 90 + 2 ^ 90 := add_le_add p2 t2
      _ = 2 ^ 91 := by norm_num
  obtain ⟨d1, d2⟩ := sub_spec p t p1 t1 (le_trans hD (by norm_num))
  have hu1 : u ≤ 1 := by unfold u; norm_num
  have hu := u_pos
  have hd : |real (p - t)| ≤ 2 ^ 126 := by
    have h1 : |real (p - t)| ≤ |real p - real t| + |real (p - t) - (real p - real t)| := by
      calc |real (p - t)| = |(real p - real t) + (real (p - t) - (real p - real t))| := by rw [add_sub_cancel]
        _ ≤ _ := abs_add_le _ _
    have h2 : u * |real p - real t| ≤ 1 * |real p - real t| := mul_le_mul_of_nonneg_right hu1 (abs_nonneg _)
    have h3 : (2 : ℝ) ^ 91 + 2 ^ 91 ≤ 2 ^ 126 := by norm_num
    linarith
  obtain ⟨g1, g2⟩ := double (p - t) d1 hd
  exact ⟨d1, d2, hD, g1, g2⟩

/-- The change of a weight points away from the truth and is not larger than the distance. -/
theorem pull (rate w t p g : F32) (hr : Moderate rate) (hw : Small w) (ht : Small t) (hp : Rounding.Finite p) (hpw : real p = real w)
    (hg : Rounding.Finite g) (hgd : real g = real (two * (p - t))) :
    Fits w rate g ∧ |real (rate * g)| ≤ |real w - real t| ∧ (real t ≤ real w → 0 ≤ real (rate * g)) ∧ (real w ≤ real t → real (rate * g) ≤ 0) ∧
      real rate * |real w - real t| ≤ |real rate * real g| := by
  have hps : Small p := ⟨hp, by rw [hpw]; exact hw.2⟩
  obtain ⟨r1, r2, r3⟩ := hr
  obtain ⟨d1, d2, d3, d4, d5⟩ := gradient p t hps ht
  rw [hpw] at d2 d3
  rw [d5] at hgd
  have hu := u_pos
  have hu2 : u ≤ 1 / 2 ^ 10 := by unfold u; norm_num
  obtain ⟨D, hD⟩ : ∃ D, real w - real t = D := ⟨_, rfl⟩
  obtain ⟨d, hd⟩ : ∃ d, real (p - t) = d := ⟨_, rfl⟩
  rw [hD, hd] at d2
  rw [hD] at d3 ⊢
  rw [hd] at hgd
  have hb : |d| ≤ (1 + 1 / 2 ^ 10) * |D| ∧ (1 - 1 / 2 ^ 10) * |D| ≤ |d| := by
    have h1 : u * |D| ≤ 1 / 2 ^ 10 * |D| := mul_le_mul_of_nonneg_right hu2 (abs_nonneg _)
    have h2 := abs_sub_abs_le_abs_sub d D
    have h3 := abs_sub_abs_le_abs_sub D d
    rw [abs_sub_comm D d] at h3
    constructor <;> linarith
  have hs : |real rate * real g| = 2 * real rate * |d| := by
    rw [hgd, abs_mul, abs_of_pos r2, abs_mul, abs_of_pos (show (0 : ℝ) < 2 by norm_num)]
    ring
  have hs1 : |real rate * real g| ≤ 1 / 2 * |d| := by
    rw [hs]
    exact mul_le_mul_of_nonneg_right (by linarith) (abs_nonneg _)
  have hfit : |real rate * real g| ≤ 2 ^ 100 := by
    have : (2 : ℝ) ^ 91 * 2 ≤ 2 ^ 100 := by norm_num
    have := abs_nonneg D
    linarith [hb.1]
  have hfits : Fits w rate g := ⟨hw.1, r1, hg, le_trans hw.2 (by norm_num), hfit⟩
  obtain ⟨m1, m2⟩ := Rounding.mul_sign rate g r1 hg (le_trans hfit (by norm_num))
  have hsign : (0 ≤ D → 0 ≤ d) ∧ (D ≤ 0 → d ≤ 0) := by
    have h1 : u * |D| ≤ |D| := by
      have := mul_le_mul_of_nonneg_right (le_trans hu2 (by norm_num : (1 : ℝ) / 2 ^ 10 ≤ 1)) (abs_nonneg D)
      linarith
    obtain ⟨h2, h3⟩ := abs_le.mp (le_trans d2 h1)
    constructor <;> intro h
    · rw [abs_of_nonneg h] at h2; linarith
    · rw [abs_of_nonpos h] at h3; linarith
  refine ⟨hfits, ?_, fun h => m1 ?_, fun h => m2 ?_, ?_⟩
  · by_cases hsmall : |D| < 1 / 2 ^ 125
    · have he := sub_small_exact p t hp ht.1 (by rw [hpw, hD]; exact hsmall)
      rw [hpw, hD, hd] at he
      have := mul_abs_le rate g (p - t) r1 hg d1 (by rw [hd]; have := abs_nonneg d; linarith)
      rw [hd, he] at this
      exact this
    · obtain ⟨-, e1⟩ := mul_spec rate g r1 hg (le_trans hfit (by norm_num))
      have h1 : |real (rate * g)| ≤ |real rate * real g| + |real (rate * g) - real rate * real g| := by
        calc |real (rate * g)| = |real rate * real g + (real (rate * g) - real rate * real g)| := by rw [add_sub_cancel]
          _ ≤ _ := abs_add_le _ _
      have h2 : u * |real rate * real g| ≤ 1 / 2 ^ 10 * |real rate * real g| := mul_le_mul_of_nonneg_right hu2 (abs_nonneg _)
      have h3 : η ≤ 1 / 4 * (1 / 2 ^ 125) := by unfold η; norm_num
      have h4 := not_lt.mp hsmall
      have h5 := hb.1
      obtain ⟨x, hx⟩ : ∃ x : ℝ, 1 / 2 ^ 125 = x := ⟨_, rfl⟩
      rw [hx] at h3 h4
      have h6 := abs_nonneg D
      linarith
  · have := hsign.1 (by linarith)
    rw [hgd]
    positivity
  · have := hsign.2 (by linarith)
    rw [hgd]
    exact mul_nonpos_of_nonneg_of_nonpos r2.le (by linarith)
  · rw [hs]
    have h5 := hb.2
    have h6 := abs_nonneg D
    have h7 : |D| ≤ 2 * |d| := by linarith
    calc real rate * |D| ≤ real rate * (2 * |d|) := mul_le_mul_of_nonneg_left h7 r2.le
      _ = 2 * real rate * |d| := by ring

/-- The new weight is between the old one and the truth. -/
theorem approach (rate w t p g : F32) (hr : Moderate rate) (hw : Small w) (ht : Small t) (hp : Rounding.Finite p) (hpw : real p = real w)
    (hg : Rounding.Finite g) (hgd : real g = real (two * (p - t))) :
    Rounding.Finite (w - rate * g) ∧ Between (real w) (real t) (real (w - rate * g)) := by
  obtain ⟨hf, h1, h2, h3, -⟩ := pull rate w t p g hr hw ht hp hpw hg hgd
  obtain ⟨m1, -, e3, s1, -⟩ := fits_spec hf
  refine ⟨s1, ?_⟩
  rcases le_total (real t) (real w) with h | h
  · have hc := h2 h
    rw [abs_of_nonneg hc, abs_of_nonneg (by linarith)] at h1
    rw [Between, min_eq_right h, max_eq_left h]
    exact ⟨sub_ge w _ t hw.1 m1 ht.1 e3 (by linarith), sub_le w _ w hw.1 m1 hw.1 e3 (by linarith)⟩
  · have hc := h3 h
    rw [abs_of_nonpos hc, abs_of_nonpos (by linarith)] at h1
    rw [Between, min_eq_left h, max_eq_right h]
    exact ⟨sub_ge w _ w hw.1 m1 hw.1 e3 (by linarith), sub_le w _ t hw.1 m1 ht.1 e3 (by linarith)⟩

/-- A weight that does not move is near the truth. -/
theorem at_rest (rate w t p g : F32) (hr : Moderate rate) (hw : Small w) (ht : Small t) (hp : Rounding.Finite p) (hpw : real p = real w)
    (hg : Rounding.Finite g) (hgd : real g = real (two * (p - t))) (h : real (w - rate * g) = real w) :
    real rate * |real w - real t| ≤ |real w| / 2 ^ 23 + 1 / 2 ^ 148 := by
  obtain ⟨hf, -, -, -, h4⟩ := pull rate w t p g hr hw ht hp hpw hg hgd
  have e := element_error hf
  rw [h, show real w - (real w - real rate * real g) = real rate * real g by ring] at e
  obtain ⟨s, hs⟩ : ∃ s, |real rate * real g| = s := ⟨_, rfl⟩
  have hs0 : 0 ≤ s := hs ▸ abs_nonneg _
  rw [hs] at h4 e
  have h5 : (2 * u + u * u) * s ≤ 1 / 4 * s := mul_le_mul_of_nonneg_right (by unfold u; norm_num) hs0
  have h6 : (1 + u) * η ≤ 1 / 2 * (1 / 2 ^ 148) := by unfold u η; norm_num
  have h7 : u * |real w| = |real w| / 2 ^ 24 := by unfold u; ring
  have h8 : |real w| / 2 ^ 23 = 2 * (|real w| / 2 ^ 24) := by ring
  rw [h8]
  rw [h7] at e
  obtain ⟨y, hy⟩ : ∃ y : ℝ, 1 / 2 ^ 148 = y := ⟨_, rfl⟩
  have hy0 : 0 ≤ y := by rw [← hy]; positivity
  rw [hy] at h6 ⊢
  have : 0 ≤ |real w| / 2 ^ 24 := by positivity
  linarith

/-- A weight with a zero change keeps its value. -/
theorem unchanged (rate w g : F32) (hr : Rounding.Finite rate) (hw : Small w) (hg : Rounding.Finite g) (h : real g = 0) :
    Rounding.Finite (w - rate * g) ∧ real (w - rate * g) = real w := by
  have hu : g.units = 0 := by
    have := abs_real g
    rw [h, abs_zero] at this
    have h2 : (g.units : ℝ) = 0 := by
      have := this.symm
      rwa [div_eq_zero_iff, or_iff_left (by positivity)] at this
    exact_mod_cast h2
  have hz := mul_zero_val rate g hr hg (Or.inr hu)
  have hz0 : real (rate * g) = 0 := by unfold real; rw [show value (rate * g).bits = 0 from hz]; simp
  obtain ⟨hfin, -⟩ := mul_spec rate g hr hg (by rw [h, mul_zero, abs_zero]; positivity)
  have hb : |real w - real (rate * g)| ≤ 2 ^ 127 := by rw [hz0, sub_zero]; exact le_trans hw.2 (by norm_num)
  refine ⟨(sub_spec w _ hw.1 hfin hb).1, ?_⟩
  have := sub_nearest w (rate * g) w hw.1 hfin hw.1 hb
  rw [hz0, sub_zero, sub_self, abs_zero] at this
  have h2 := abs_eq_zero.mp (le_antisymm this (abs_nonneg _))
  linarith

/-- `x / 1.0f` -/
theorem div_one_real (a : F32) (ha : Rounding.Finite a) : Rounding.Finite (a / one) ∧ real (a / one) = real a := by
  obtain ⟨a1, a2⟩ := finite_not a ha
  have e : a / one = F32.rounded (neg a.bits) (a.units * 2 ^ 149) (2 ^ 149) := by
    show F32.div a one = _
    unfold F32.div
    rw [a1, a2, show isNaN one.bits = false by decide, show isInf one.bits = false by decide, show neg one.bits = false by decide, units_one]
    simp only [Bool.or_self, Bool.false_eq_true, if_false]
    rw [if_neg (Nat.two_pow_pos 149).ne']
    cases neg a.bits <;> rfl
  obtain ⟨g1, g2, g3⟩ := rounded_exact (neg a.bits) a ha (2 ^ 149) (Nat.two_pow_pos _)
  rw [e]
  exact ⟨g1, by rw [real_units, real_units a, g2, g3]⟩

theorem one_mul_facts (a : F32) (ha : Rounding.Finite a) : Rounding.Finite (one * a) ∧ real (one * a) = real a := by
  obtain ⟨g1, g2⟩ := mul_one_val a ha
  exact ⟨g1, by unfold real; rw [show value (one * a).bits = value a.bits from g2]⟩

theorem zero_mul_facts (a : F32) (ha : Rounding.Finite a) : Rounding.Finite ((0 : F32) * a) ∧ real ((0 : F32) * a) = 0 := by
  have hz := mul_zero_val 0 a (by decide) ha (Or.inl (by decide))
  have h0 : real (0 : F32) = 0 := by unfold real; rw [show value (0 : F32).bits = 0 by decide]; simp
  refine ⟨(mul_spec 0 a (by decide) ha (by rw [h0, zero_mul, abs_zero]; positivity)).1, ?_⟩
  unfold real
  rw [show value ((0 : F32) * a).bits = 0 from hz]
  simp

theorem real_zero : real (0 : F32) = 0 := by unfold real; rw [show value (0 : F32).bits = 0 by decide]; simp

/-- A sum of products with the elements of a label. -/
theorem pick (n i : Nat) (f : Nat → F32) (hf : ∀ k, k < n → Rounding.Finite (f k)) :
    Rounding.Finite (sumLoop n fun k => (if k = i then one else 0) * f k) ∧
      real (sumLoop n fun k => (if k = i then one else 0) * f k) = if i < n then real (f i) else 0 := by
  induction n with
  | zero => exact ⟨by show Rounding.Finite (0 : F32); decide, real_zero⟩
  | succ n ih =>
    obtain ⟨h1, h2⟩ := ih fun k hk => hf k (by omega)
    have e : (sumLoop (n + 1) fun k => (if k = i then one else 0) * f k) = (sumLoop n fun k => (if k = i then one else 0) * f k) +
        (if n = i then one else 0) * f n := by
      unfold sumLoop
      rw [List.range_succ, List.foldl_append]
      rfl
    rw [e]
    obtain ⟨s, hs⟩ : ∃ s, (sumLoop n fun k => (if k = i then one else 0) * f k) = s := ⟨_, rfl⟩
    rw [hs] at h1 h2 ⊢
    by_cases hi : n = i
    · subst hi
      rw [if_pos rfl, if_pos (by omega)]
      rw [if_neg (by omega)] at h2
      obtain ⟨g1, g2⟩ := one_mul_facts (f n) (hf n (by omega))
      obtain ⟨a1, a2⟩ := add_exact s (one * f n) (f n) h1 g1 (hf n (by omega)) (by rw [h2, g2, zero_add])
      exact ⟨a1, a2⟩
    · rw [if_neg hi]
      obtain ⟨g1, g2⟩ := zero_mul_facts (f n) (hf n (by omega))
      obtain ⟨a1, a2⟩ := add_exact s (0 * f n) s h1 g1 h1 (by rw [g2, add_zero])
      refine ⟨a1, ?_⟩
      rw [a2, h2]
      by_cases h3 : i < n
      · rw [if_pos h3, if_pos (by omega)]
      · rw [if_neg h3, if_neg (by omega)]

end Verif.FloatTable
