import Verif.Model.FloatUpdate
import Verif.Spec.FloatUpdate
import Verif.Lemmas.RoundingNetwork
import Verif.Lemmas.Materialize
import Verif.Lemmas.FloatOrder

/-! Sums of floats are rounded to the nearest float; how far 16-bit values are apart. -/
namespace Verif.Rounding
open Verif FloatBits FloatArith

/-- A float as a significand and a shift. -/
theorem units_form (q : F32) (hq : Finite q) : ∃ k e, q.units = k * 2 ^ e ∧ k < 2 ^ 24 ∧ (k < 2 ^ 23 → e = 0) ∧ e ≤ 253 := by
  have hf : frac q.bits < 2 ^ 23 := Nat.mod_lt _ (by norm_num)
  have he : expo q.bits < 255 := by
    have h1 : expo q.bits < 256 := Nat.mod_lt _ (by norm_num)
    have h2 : expo q.bits ≠ 255 := by simpa [Finite, isFinite] using hq
    omega
  unfold F32.units magUnits
  by_cases h0 : expo q.bits = 0
  · exact ⟨frac q.bits, 0, by rw [if_pos h0]; simp, by omega, fun _ => rfl, by omega⟩
  · exact ⟨2 ^ 23 + frac q.bits, expo q.bits - 1, by rw [if_neg h0], by omega, fun h => by omega, by omega⟩

/-- Large floats are multiples of the unit in the last place. -/
theorem units_multiple (q : F32) (hq : Finite q) (s : Nat) (h : 2 ^ 23 * 2 ^ s ≤ q.units) : ∃ n, q.units = n * 2 ^ s := by
  obtain ⟨k, e, hv, hk, -, -⟩ := units_form q hq
  have hse : s ≤ e := by
    by_contra hne
    rw [hv] at h
    have h9 : 2 ^ (e + 1) ≤ 2 ^ s := Nat.pow_le_pow_right (by omega) (by omega)
    rw [pow_succ] at h9
    have hp := Nat.two_pow_pos e
    have : k * 2 ^ e < 2 ^ 24 * 2 ^ e := (Nat.mul_lt_mul_right hp).mpr hk
    generalize 2 ^ s = a at *
    generalize 2 ^ e = c at *
    generalize k * c = d at *
    omega
  obtain ⟨d, rfl⟩ := Nat.exists_eq_add_of_le hse
  exact ⟨k * 2 ^ d, by rw [hv, pow_add]; ring⟩

/-- Rounding gives a nearest float. -/
theorem rounded_nearest (b : Bool) (num : Nat) (hmax : num ≤ top) (q : F32) (hq : Finite q) :
    |((F32.rounded b num 1).units : Int) - num| ≤ |(q.units : Int) - num| := by
  obtain ⟨m, s, h1, h2, h3, h4, h5, h6, h7, h8⟩ := roundUnits_spec num 1 (by omega) (by omega)
  obtain ⟨g1, g2, g3⟩ := units_of _ s m b h2 h3 h4 (toNat_of s m b h4)
  have hunits : (F32.rounded b num 1).units = m * 2 ^ s := by
    unfold F32.rounded
    rw [h1]
    exact g1
  rw [hunits]
  rcases Nat.eq_zero_or_pos s with h0 | h0
  · subst h0
    rw [h8 rfl rfl]
    simp
  have h7 := h7 h0
  have h3 := h3 h0
  rw [Nat.one_mul] at h5 h6 h7
  -- multiples of the unit
  have hmul : ∀ n : Nat, |((m * 2 ^ s : Nat) : Int) - num| ≤ |((n * 2 ^ s : Nat) : Int) - num| := by
    intro n
    have hw := Nat.two_pow_pos s
    rcases Nat.lt_trichotomy n m with h | h | h
    · have : (n + 1) * 2 ^ s ≤ m * 2 ^ s := Nat.mul_le_mul_right _ h
      rw [Nat.add_mul] at this
      generalize m * 2 ^ s = x at *
      generalize n * 2 ^ s = y at *
      generalize 2 ^ s = w at *
      simp only [Int.abs_eq_natAbs]
      omega
    · rw [h]
    · have : (m + 1) * 2 ^ s ≤ n * 2 ^ s := Nat.mul_le_mul_right _ h
      rw [Nat.add_mul] at this
      generalize m * 2 ^ s = x at *
      generalize n * 2 ^ s = y at *
      generalize 2 ^ s = w at *
      simp only [Int.abs_eq_natAbs]
      omega
  by_cases hq2 : 2 ^ 23 * 2 ^ s ≤ q.units
  · obtain ⟨n, hn⟩ := units_multiple q hq s hq2
    rw [hn]
    exact hmul n
  · have := hmul (2 ^ 23)
    generalize 2 ^ 23 * 2 ^ s = x at *
    generalize m * 2 ^ s = y at *
    generalize q.units = z at *
    simp only [Int.abs_eq_natAbs] at this ⊢
    omega

/-- A sum is rounded to a nearest float. -/
theorem add_nearest (a b q : F32) (ha : Finite a) (hb : Finite b) (hq : Finite q) (h : |real a + real b| ≤ 2 ^ 127) :
    |real (a + b) - (real a + real b)| ≤ |real q - (real a + real b)| := by
  obtain ⟨a1, a2⟩ := finite_not a ha
  obtain ⟨b1, b2⟩ := finite_not b hb
  have hsum : real a + real b = ((value a.bits + value b.bits : Int) : ℝ) / 2 ^ 149 := by unfold real; push_cast; ring
  rw [hsum] at h ⊢
  unfold real
  rw [← sub_div, ← sub_div, abs_div, abs_div]
  refine div_le_div_of_nonneg_right ?_ (abs_nonneg _)
  rw [← Int.cast_sub, ← Int.cast_sub, ← Int.cast_abs, ← Int.cast_abs, Int.cast_le]
  show |value (F32.add a b).bits - _| ≤ _
  unfold F32.add
  rw [a1, a2, b1, b2]
  simp only [Bool.or_self, Bool.false_eq_true, if_false]
  generalize hz : value a.bits + value b.bits = z at *
  by_cases h0 : z = 0
  · rw [if_pos h0, h0]
    have e1 : value 0x80000000#32 = 0 := by decide
    have e2 : value 0#32 = 0 := by decide
    split
    · rw [e1]; simp
    · rw [e2]; simp
  · rw [if_neg h0]
    have hmax : z.natAbs ≤ top := by
      have := le_top z.natAbs 1 (by omega) (by
        rw [Nat.cast_one, div_one, Nat.cast_natAbs, Int.cast_abs]
        rwa [abs_div, abs_of_pos (show (0 : ℝ) < 2 ^ 149 by positivity)] at h)
      omega
    obtain ⟨g1, g2, v, hv, -⟩ := rounded_spec (decide (z < 0)) z.natAbs 1 (by omega) (by omega)
    have n1 := rounded_nearest (decide (z < 0)) z.natAbs hmax q hq
    have n2 := rounded_nearest (decide (z < 0)) z.natAbs hmax 0 (by decide)
    have e0 : (0 : F32).units = 0 := by decide
    rw [e0] at n2
    rw [value_units, value_units, g2]
    generalize (F32.rounded (decide (z < 0)) z.natAbs 1).units = u at *
    generalize q.units = w at *
    simp only [Int.abs_eq_natAbs] at n1 n2 ⊢
    by_cases hn : z < 0
    · simp only [hn, decide_true, if_true]
      split <;> omega
    · simp only [hn, decide_false, Bool.false_eq_true, if_false]
      split <;> omega

theorem add_ge (a b q : F32) (ha : Finite a) (hb : Finite b) (hq : Finite q) (h : |real a + real b| ≤ 2 ^ 127) (hle : real q ≤ real a + real b) :
    real q ≤ real (a + b) := by
  have := add_nearest a b q ha hb hq h
  rw [abs_of_nonpos (by linarith : real q - (real a + real b) ≤ 0)] at this
  have := (abs_le.mp this).1
  linarith

theorem add_le (a b q : F32) (ha : Finite a) (hb : Finite b) (hq : Finite q) (h : |real a + real b| ≤ 2 ^ 127) (hle : real a + real b ≤ real q) :
    real (a + b) ≤ real q := by
  have := add_nearest a b q ha hb hq h
  rw [abs_of_nonneg (by linarith : 0 ≤ real q - (real a + real b))] at this
  have := (abs_le.mp this).2
  linarith

theorem negate_spec (a : F32) (ha : Finite a) : Finite a.negate ∧ real a.negate = -real a := by
  refine ⟨(FloatOrder.negate_finite a).mpr ha, ?_⟩
  have h := FloatOrder.negate_val a
  unfold FloatOrder.val at h
  unfold real
  rw [h, Int.cast_neg, neg_div]

theorem sub_eq (a b : F32) : a - b = a + b.negate := rfl

theorem sub_spec (a b : F32) (ha : Finite a) (hb : Finite b) (h : |real a - real b| ≤ 2 ^ 127) :
    Finite (a - b) ∧ |real (a - b) - (real a - real b)| ≤ u * |real a - real b| := by
  obtain ⟨n1, n2⟩ := negate_spec b hb
  have := add_spec a b.negate ha n1 (by rwa [n2, ← sub_eq_add_neg])
  rwa [n2, ← sub_eq_add_neg, ← sub_eq] at this

theorem sub_nearest (a b q : F32) (ha : Finite a) (hb : Finite b) (hq : Finite q) (h : |real a - real b| ≤ 2 ^ 127) :
    |real (a - b) - (real a - real b)| ≤ |real q - (real a - real b)| := by
  obtain ⟨n1, n2⟩ := negate_spec b hb
  have := add_nearest a b.negate q ha n1 hq (by rwa [n2, ← sub_eq_add_neg])
  rwa [n2, ← sub_eq_add_neg, ← sub_eq] at this

theorem sub_ge (a b q : F32) (ha : Finite a) (hb : Finite b) (hq : Finite q) (h : |real a - real b| ≤ 2 ^ 127) (hle : real q ≤ real a - real b) :
    real q ≤ real (a - b) := by
  obtain ⟨n1, n2⟩ := negate_spec b hb
  exact add_ge a b.negate q ha n1 hq (by rwa [n2, ← sub_eq_add_neg]) (by rwa [n2, ← sub_eq_add_neg])

theorem sub_le (a b q : F32) (ha : Finite a) (hb : Finite b) (hq : Finite q) (h : |real a - real b| ≤ 2 ^ 127) (hle : real a - real b ≤ real q) :
    real (a - b) ≤ real q := by
  obtain ⟨n1, n2⟩ := negate_spec b hb
  exact add_le a b.negate q ha n1 hq (by rwa [n2, ← sub_eq_add_neg]) (by rwa [n2, ← sub_eq_add_neg])

/-- The sign of a product. -/
theorem mul_sign (a b : F32) (ha : Finite a) (hb : Finite b) (h : |real a * real b| ≤ 2 ^ 127) :
    (0 ≤ real a * real b → 0 ≤ real (a * b)) ∧ (real a * real b ≤ 0 → real (a * b) ≤ 0) := by
  obtain ⟨a1, a2⟩ := finite_not a ha
  obtain ⟨b1, b2⟩ := finite_not b hb
  by_cases h0 : real a * real b = 0
  · have h1 : a.units * b.units = 0 := by
      have : |real a| * |real b| = 0 := by rw [← abs_mul, h0, abs_zero]
      rw [abs_real, abs_real, div_mul_div_comm, div_eq_zero_iff] at this
      rcases this with h | h
      · exact_mod_cast h
      · exact absurd h (by positivity)
    have e : a * b = F32.rounded (neg a.bits != neg b.bits) 0 (2 ^ 149) := by
      show F32.mul a b = _
      unfold F32.mul
      rw [a1, a2, b1, b2, h1]
      simp
    have : real (a * b) = 0 := by
      rw [e]
      cases (neg a.bits != neg b.bits)
      · have : F32.rounded false 0 (2 ^ 149) = 0 := by decide +kernel
        rw [this, real_zero]
      · have : F32.rounded true 0 (2 ^ 149) = ⟨0x80000000#32⟩ := by decide +kernel
        rw [this]
        have : value 0x80000000#32 = 0 := by decide
        unfold real
        rw [this]
        simp
    rw [this]
    exact ⟨fun _ => le_refl _, fun _ => le_refl _⟩
  · have e : a * b = F32.rounded (neg a.bits != neg b.bits) (a.units * b.units) (2 ^ 149) := by
      show F32.mul a b = _
      unfold F32.mul
      rw [a1, a2, b1, b2]
      simp
    have hmax : a.units * b.units ≤ 2 ^ 149 * top := by
      refine le_top _ _ (by positivity) ?_
      rw [abs_mul, abs_real, abs_real] at h
      refine le_trans (le_of_eq ?_) h
      rw [Nat.cast_mul, Nat.cast_pow, Nat.cast_ofNat]
      generalize (2 : ℝ) ^ 149 = p
      rw [div_mul_div_comm, div_div]
    obtain ⟨-, g2, -⟩ := rounded_spec (neg a.bits != neg b.bits) (a.units * b.units) (2 ^ 149) (by positivity) hmax
    rw [e, real_units (F32.rounded _ _ _), g2]
    have pa : 0 ≤ (a.units : ℝ) / 2 ^ 149 := by positivity
    have pb : 0 ≤ (b.units : ℝ) / 2 ^ 149 := by positivity
    have pr : 0 ≤ ((F32.rounded (neg a.bits != neg b.bits) (a.units * b.units) (2 ^ 149)).units : ℝ) / 2 ^ 149 := by positivity
    rw [real_units a, real_units b] at h0 ⊢
    generalize (a.units : ℝ) / 2 ^ 149 = x at *
    generalize (b.units : ℝ) / 2 ^ 149 = y at *
    generalize ((F32.rounded (neg a.bits != neg b.bits) (a.units * b.units) (2 ^ 149)).units : ℝ) / 2 ^ 149 = z at *
    have hxy := mul_nonneg pa pb
    have hne : x * y ≠ 0 := by
      intro hc
      apply h0
      rcases mul_eq_zero.mp hc with rfl | rfl <;> simp
    clear h0
    cases neg a.bits <;> cases neg b.bits <;> simp
    · exact ⟨fun _ => pr, fun h => absurd (le_antisymm h hxy) hne⟩
    · exact ⟨fun h => absurd (le_antisymm h hxy) hne, fun _ => pr⟩
    · exact ⟨fun h => absurd (le_antisymm h hxy) hne, fun _ => pr⟩
    · exact ⟨fun _ => pr, fun h => absurd (le_antisymm h hxy) hne⟩

/-! ### Distances between floats and between 16-bit values -/

/-- The next smaller 16-bit magnitude. -/
theorem gap16 (j : Nat) (hj : 0 < j) : 256 * magOf ((j - 1) * 2 ^ 16) ≤ 255 * magOf (j * 2 ^ 16) := by
  obtain ⟨i, rfl⟩ : ∃ i, j = i + 1 := ⟨j - 1, by omega⟩
  rw [Nat.add_sub_cancel]
  unfold magOf magUnits
  have e1 : ∀ n, n * 2 ^ 16 / 2 ^ 23 = n / 2 ^ 7 := fun n => Nat.mul_div_mul_right n (2 ^ 7) (by norm_num : 0 < 2 ^ 16)
  have e3 : ∀ n, n * 2 ^ 16 % 2 ^ 23 = n % 2 ^ 7 * 2 ^ 16 := fun n => Nat.mul_mod_mul_right (2 ^ 16) n (2 ^ 7)
  rw [e1, e1, e3, e3]
  by_cases hc : (i + 1) % 2 ^ 7 = 0
  · have h1 : i % 2 ^ 7 = 127 := by omega
    have h2 : (i + 1) / 2 ^ 7 = i / 2 ^ 7 + 1 := by omega
    rw [h1, hc, h2]
    rw [if_neg (by omega : ¬ i / 2 ^ 7 + 1 = 0), Nat.add_sub_cancel]
    by_cases h0 : i / 2 ^ 7 = 0
    · rw [if_pos h0, h0]; norm_num
    · rw [if_neg h0]
      obtain ⟨d, hd⟩ : ∃ d, i / 2 ^ 7 = d + 1 := ⟨i / 2 ^ 7 - 1, by omega⟩
      rw [hd, Nat.add_sub_cancel, show 2 ^ (d + 1) = 2 * 2 ^ d by rw [Nat.pow_succ, Nat.mul_comm]]
      have := Nat.two_pow_pos d
      generalize 2 ^ d = p at *
      omega
  · have h1 : (i + 1) % 2 ^ 7 = i % 2 ^ 7 + 1 := by omega
    have h2 : (i + 1) / 2 ^ 7 = i / 2 ^ 7 := by omega
    rw [h1, h2]
    have h3 : i % 2 ^ 7 < 127 := by omega
    generalize i % 2 ^ 7 = f at *
    split
    · omega
    · have := Nat.two_pow_pos (i / 2 ^ 7 - 1)
      generalize 2 ^ (i / 2 ^ 7 - 1) = p at *
      have : 256 * (2 ^ 23 + f * 2 ^ 16) ≤ 255 * (2 ^ 23 + (f + 1) * 2 ^ 16) := by omega
      calc _ = 256 * (2 ^ 23 + f * 2 ^ 16) * p := by ring
        _ ≤ 255 * (2 ^ 23 + (f + 1) * 2 ^ 16) * p := Nat.mul_le_mul_right _ this
        _ = _ := by ring

/-- The next smaller magnitude. -/
theorem gap32 (j : Nat) (hj : 0 < j) : 2 ^ 24 * magOf (j - 1) ≤ (2 ^ 24 - 1) * magOf j := by
  obtain ⟨i, rfl⟩ : ∃ i, j = i + 1 := ⟨j - 1, by omega⟩
  rw [Nat.add_sub_cancel]
  unfold magOf magUnits
  by_cases hc : (i + 1) % 2 ^ 23 = 0
  · have h1 : i % 2 ^ 23 = 2 ^ 23 - 1 := by omega
    have h2 : (i + 1) / 2 ^ 23 = i / 2 ^ 23 + 1 := by omega
    rw [h1, hc, h2]
    rw [if_neg (by omega : ¬ i / 2 ^ 23 + 1 = 0), Nat.add_sub_cancel]
    by_cases h0 : i / 2 ^ 23 = 0
    · rw [if_pos h0, h0]; norm_num
    · rw [if_neg h0]
      obtain ⟨d, hd⟩ : ∃ d, i / 2 ^ 23 = d + 1 := ⟨i / 2 ^ 23 - 1, by omega⟩
      rw [hd, Nat.add_sub_cancel, show 2 ^ (d + 1) = 2 * 2 ^ d by rw [Nat.pow_succ, Nat.mul_comm]]
      have := Nat.two_pow_pos d
      generalize 2 ^ d = p at *
      omega
  · have h1 : (i + 1) % 2 ^ 23 = i % 2 ^ 23 + 1 := by omega
    have h2 : (i + 1) / 2 ^ 23 = i / 2 ^ 23 := by omega
    rw [h1, h2]
    have h3 : i % 2 ^ 23 < 2 ^ 23 - 1 := by omega
    generalize i % 2 ^ 23 = f at *
    split
    · omega
    · have := Nat.two_pow_pos (i / 2 ^ 23 - 1)
      generalize 2 ^ (i / 2 ^ 23 - 1) = p at *
      have : 2 ^ 24 * (2 ^ 23 + f) ≤ (2 ^ 24 - 1) * (2 ^ 23 + (f + 1)) := by omega
      calc _ = 2 ^ 24 * (2 ^ 23 + f) * p := by ring
        _ ≤ (2 ^ 24 - 1) * (2 ^ 23 + (f + 1)) * p := Nat.mul_le_mul_right _ this
        _ = _ := by ring

theorem units_mag (a : F32) : a.units = magOf (mag a.bits) := magUnits_eq _

/-- Different magnitudes differ by a 2^24th. -/
theorem units_gap (a b : F32) (h : a.units < b.units) : 2 ^ 24 * a.units ≤ (2 ^ 24 - 1) * b.units := by
  rw [units_mag, units_mag] at *
  have hlt : mag a.bits < mag b.bits := by
    by_contra hc
    have := magOf_mono (not_lt.mp hc)
    omega
  exact le_trans (Nat.mul_le_mul_left _ (magOf_mono (by omega))) (gap32 _ (by omega))

/-- What is stored in 16 bits. -/
def stored16 (a : F32) : F32 := ⟨Materialize.halfConv a.bits⟩

theorem stored16_bits (a : F32) (h : Finite a) : (stored16 a).bits.toNat = a.bits.toNat / 2 ^ 16 * 2 ^ 16 := by
  unfold stored16 Materialize.halfConv
  rw [HalfFloat.toNat_halfToFloat, HalfFloat.floatToHalf_finite _ h]

theorem stored16_mag (a : F32) (h : Finite a) : mag (stored16 a).bits = mag a.bits / 2 ^ 16 * 2 ^ 16 := by
  have := a.bits.isLt
  unfold mag
  rw [stored16_bits a h]
  omega

theorem stored16_neg (a : F32) (h : Finite a) : neg (stored16 a).bits = neg a.bits := by
  have := a.bits.isLt
  unfold neg
  rw [stored16_bits a h]
  congr 1
  rw [eq_iff_iff]
  omega

theorem stored16_sixteen (a : F32) (h : Finite a) : Sixteen (stored16 a) := by
  unfold Sixteen
  rw [stored16_mag a h]
  omega

theorem stored16_finite (a : F32) (h : Finite a) : Finite (stored16 a) := HalfFloat.C02_finite _ h

theorem stored16_le (a : F32) (h : Finite a) : (stored16 a).units ≤ a.units := by
  rw [units_mag, units_mag, stored16_mag a h]
  exact magOf_mono (by omega)

/-- A 16-bit value below the magnitude stays below. -/
theorem stored16_ge (a q : F32) (h : Finite a) (hq : Sixteen q) (hle : q.units ≤ a.units) : q.units ≤ (stored16 a).units := by
  rw [units_mag, units_mag] at *
  rw [stored16_mag a h]
  unfold Sixteen at hq
  have := magOf_le_iff.mp hle
  exact magOf_mono (by omega)

/-- A number below a 16-bit value is stored as something that is smaller by a 256th. -/
theorem stored16_below (a q : F32) (h : Finite a) (hq : Sixteen q) (hlt : a.units < q.units) : 256 * (stored16 a).units ≤ 255 * q.units := by
  rw [units_mag, units_mag] at *
  rw [stored16_mag a h]
  unfold Sixteen at hq
  have h1 : mag a.bits < mag q.bits := by
    by_contra hc
    have := magOf_mono (not_lt.mp hc)
    omega
  obtain ⟨j, hj⟩ : ∃ j, mag q.bits = j * 2 ^ 16 := ⟨mag q.bits / 2 ^ 16, by omega⟩
  rw [hj]
  exact le_trans (Nat.mul_le_mul_left _ (magOf_mono (by omega))) (gap16 j (by omega))

/-- A number less than a 256th above a 16-bit value is stored as that value. -/
theorem stored16_above (a q : F32) (h : Finite a) (hq : Sixteen q) (hle : q.units ≤ a.units) (hlt : 256 * a.units < 257 * q.units) :
    (stored16 a).units = q.units := by
  refine le_antisymm ?_ (stored16_ge a q h hq hle)
  rw [units_mag, units_mag] at *
  rw [stored16_mag a h]
  unfold Sixteen at hq
  refine magOf_mono ?_
  by_contra hc
  obtain ⟨j, hj⟩ : ∃ j, mag q.bits = j * 2 ^ 16 := ⟨mag q.bits / 2 ^ 16, by omega⟩
  have h1 : (j + 1) * 2 ^ 16 ≤ mag a.bits := by omega
  have h2 := gap16 (j + 1) (by omega)
  rw [Nat.add_sub_cancel, ← hj] at h2
  have h3 := magOf_mono h1
  omega

/-- Storing a float in 16 bits loses less than a 128th, plus the smallest 16-bit value. -/
theorem stored16_close (a : F32) (h : Finite a) : a.units ≤ (stored16 a).units + a.units / 2 ^ 7 + 2 ^ 16 := by
  rw [units_mag, units_mag, stored16_mag a h]
  have e : mag a.bits < (mag a.bits / 2 ^ 16 + 1) * 2 ^ 16 := by omega
  generalize mag a.bits = x at *
  unfold magOf magUnits
  have e1 : x / 2 ^ 16 * 2 ^ 16 / 2 ^ 23 = x / 2 ^ 23 := by omega
  have e2 : x / 2 ^ 16 * 2 ^ 16 % 2 ^ 23 = x % 2 ^ 23 / 2 ^ 16 * 2 ^ 16 := by omega
  rw [e1, e2]
  split
  · omega
  · generalize x % 2 ^ 23 = f at *
    have := Nat.two_pow_pos (x / 2 ^ 23 - 1)
    generalize 2 ^ (x / 2 ^ 23 - 1) = p at *
    have h1 : f ≤ f / 2 ^ 16 * 2 ^ 16 + 2 ^ 16 := by omega
    have h2 : 2 ^ 16 * p ≤ (2 ^ 23 + f) * p / 2 ^ 7 := by
      rw [Nat.le_div_iff_mul_le (by norm_num)]
      calc 2 ^ 16 * p * 2 ^ 7 = 2 ^ 23 * p := by ring
        _ ≤ _ := Nat.mul_le_mul_right _ (by omega)
    have h3 : (2 ^ 23 + f) * p ≤ (2 ^ 23 + f / 2 ^ 16 * 2 ^ 16) * p + 2 ^ 16 * p := by
      rw [← Nat.add_mul]
      exact Nat.mul_le_mul_right _ (by omega)
    omega

end Verif.Rounding
