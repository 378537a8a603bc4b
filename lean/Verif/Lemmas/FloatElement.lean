import Verif.Lemmas.FloatUpdate

/-! What an update of floats does to one element. -/
namespace Verif.Rounding
open Verif FloatBits Views FloatUpdate

/-- What an update does to one element: the rounded difference, stored. -/
theorem update_element (bits : Nat) (hb : bits = 32 ∨ bits = 16) (rate : F32) (w g v : Tensor F32) (h : update bits rate w g = some v) :
    ∀ r c k, r < w.rows → c < w.cols → k < w.chans → r < v.rows ∧ c < v.cols ∧ k < v.chans ∧
      v.get r c k = (if bits = 16 then stored16 (w.get r c k - rate * g.get r c k) else w.get r c k - rate * g.get r c k) := by
  intro r c k hr hc hk
  unfold update change subtract zip at h
  by_cases hs : w.chans ≠ (map (fun g => rate * g) g).chans ∨ w.rows ≠ (map (fun g => rate * g) g).rows ∨ w.cols ≠ (map (fun g => rate * g) g).cols
  · rw [if_pos hs] at h; cases h
  rw [if_neg hs] at h
  cases h
  have key : ∀ f : BitVec 32 → BitVec 32, ∀ t : Tensor (BitVec 32), t.rows = w.rows → t.cols = w.cols → t.chans = w.chans →
      r < (Materialize.stored f t).tensor.rows ∧ c < (Materialize.stored f t).tensor.cols ∧ k < (Materialize.stored f t).tensor.chans ∧
        (Materialize.stored f t).tensor.get r c k = f (t.get r c k) := by
    intro f t t1 t2 t3
    obtain ⟨s1, s2, s3, s4⟩ := Materialize.stored_same f t (by omega) (by omega)
    have s1 : (Materialize.stored f t).tensor.rows = t.rows := s1
    have s2 : (Materialize.stored f t).tensor.cols = t.cols := s2
    have s3 : (Materialize.stored f t).tensor.chans = t.chans := s3
    exact ⟨by omega, by omega, by omega, s4 r c k (by omega) (by omega) (by omega)⟩
  rcases hb with rfl | rfl
  · obtain ⟨k1, k2, k3, k4⟩ := key id ⟨w.rows, w.cols, w.chans, fun r c k => (w.get r c k - rate * g.get r c k).bits⟩ rfl rfl rfl
    exact ⟨k1, k2, k3, congrArg F32.mk k4⟩
  · obtain ⟨k1, k2, k3, k4⟩ := key Materialize.halfConv ⟨w.rows, w.cols, w.chans, fun r c k => (w.get r c k - rate * g.get r c k).bits⟩ rfl rfl rfl
    exact ⟨k1, k2, k3, congrArg F32.mk k4⟩

/-! ### One element -/

theorem fits_spec {w rate g : F32} (h : Fits w rate g) :
    Finite (rate * g) ∧ |real (rate * g) - real rate * real g| ≤ u * |real rate * real g| + η ∧ |real w - real (rate * g)| ≤ 2 ^ 127 ∧
      Finite (w - rate * g) ∧ |real (w - rate * g) - (real w - real (rate * g))| ≤ u * |real w - real (rate * g)| := by
  obtain ⟨h1, h2, h3, h4, h5⟩ := h
  obtain ⟨m1, m2⟩ := mul_spec rate g h2 h3 (le_trans h5 (by norm_num))
  have hu := u_pos
  have hu1 : u ≤ 1 := by unfold u; norm_num
  have hη1 : η ≤ 1 := by unfold η; rw [div_le_one (by positivity)]; exact one_le_pow₀ (by norm_num)
  have e1 : |real (rate * g)| ≤ |real rate * real g| + (u * |real rate * real g| + η) := by
    calc |real (rate * g)| = |real rate * real g + (real (rate * g) - real rate * real g)| := by rw [add_sub_cancel]
      _ ≤ _ := le_trans (abs_add_le _ _) (by linarith)
  have e2 : u * |real rate * real g| ≤ 1 * |real rate * real g| := mul_le_mul_of_nonneg_right hu1 (abs_nonneg _)
  have e3 : |real w - real (rate * g)| ≤ 2 ^ 127 := by
    refine le_trans (abs_sub _ _) ?_
    have : (2 : ℝ) ^ 100 + (2 ^ 100 + 2 ^ 100 + 1) ≤ 2 ^ 127 := by norm_num
    linarith
  obtain ⟨s1, s2⟩ := sub_spec w (rate * g) h1 m1 e3
  exact ⟨m1, m2, e3, s1, s2⟩

/-- 32 bits: the error. -/
theorem element_error {w rate g : F32} (h : Fits w rate g) :
    |real (w - rate * g) - (real w - real rate * real g)| ≤ u * |real w| + (2 * u + u * u) * |real rate * real g| + (1 + u) * η := by
  obtain ⟨m1, m2, e3, s1, s2⟩ := fits_spec h
  have hu := u_pos
  have a1 : |real w - real (rate * g)| ≤ |real w| + (|real rate * real g| + (u * |real rate * real g| + η)) := by
    refine le_trans (abs_sub _ _) ?_
    have : |real (rate * g)| ≤ |real rate * real g| + |real (rate * g) - real rate * real g| := by
      calc |real (rate * g)| = |real rate * real g + (real (rate * g) - real rate * real g)| := by rw [add_sub_cancel]
        _ ≤ _ := abs_add_le _ _
    linarith
  have a2 := mul_le_mul_of_nonneg_left a1 hu.le
  calc _ = |(real (w - rate * g) - (real w - real (rate * g))) + (real rate * real g - real (rate * g))| := by congr 1; ring
    _ ≤ _ := abs_add_le _ _
    _ ≤ u * |real w - real (rate * g)| + (u * |real rate * real g| + η) := by
        rw [abs_sub_comm (real rate * real g)]; linarith
    _ ≤ u * (|real w| + (|real rate * real g| + (u * |real rate * real g| + η))) + (u * |real rate * real g| + η) := by linarith
    _ = _ := by ring

/-- The direction before storing. -/
theorem element_direction {w rate g : F32} (h : Fits w rate g) :
    (0 ≤ real rate * real g → real (w - rate * g) ≤ real w) ∧ (real rate * real g ≤ 0 → real w ≤ real (w - rate * g)) := by
  obtain ⟨m1, m2, e3, s1, s2⟩ := fits_spec h
  obtain ⟨h1, h2, h3, h4, h5⟩ := h
  obtain ⟨g1, g2⟩ := mul_sign rate g h2 h3 (le_trans h5 (by norm_num))
  exact ⟨fun hp => sub_le w (rate * g) w h1 m1 h1 e3 (by have := g1 hp; linarith),
    fun hp => sub_ge w (rate * g) w h1 m1 h1 e3 (by have := g2 hp; linarith)⟩

/-- Storing keeps the sign and does not increase the magnitude. -/
theorem stored16_real (a : F32) (h : Finite a) :
    real (stored16 a) = (if neg a.bits then -1 else 1) * |real (stored16 a)| ∧ |real (stored16 a)| ≤ |real a| ∧
      |real a| ≤ |real (stored16 a)| + |real a| / 2 ^ 7 + 1 / 2 ^ 133 := by
  refine ⟨?_, ?_, ?_⟩
  · rw [abs_real, ← stored16_neg a h]
    exact real_units _
  · rw [abs_real, abs_real]
    refine div_le_div_of_nonneg_right ?_ (by positivity)
    exact_mod_cast stored16_le a h
  · rw [abs_real, abs_real]
    have h1 := stored16_close a h
    have h2 : (a.units : ℝ) ≤ (stored16 a).units + (a.units : ℝ) / 2 ^ 7 + 2 ^ 16 := by
      have h3 : ((a.units / 2 ^ 7 : Nat) : ℝ) ≤ (a.units : ℝ) / ((2 ^ 7 : Nat) : ℝ) := Nat.cast_div_le
      have h4 : (a.units : ℝ) ≤ (stored16 a).units + ((a.units / 2 ^ 7 : Nat) : ℝ) + 2 ^ 16 := by exact_mod_cast h1
      rw [Nat.cast_pow, Nat.cast_ofNat] at h3
      linarith
    have e : (1 : ℝ) / 2 ^ 133 = 2 ^ 16 / 2 ^ 149 := by
      rw [show (149 : Nat) = 16 + 133 by rfl, pow_add]; field_simp
    rw [e]
    have := div_le_div_of_nonneg_right h2 (show (0 : ℝ) ≤ 2 ^ 149 by positivity)
    refine le_trans this (le_of_eq ?_)
    generalize (2 : ℝ) ^ 149 = p
    ring

theorem neg_of_pos {a : F32} (h : 0 < real a) : neg a.bits = false := by
  rw [real_units] at h
  by_contra hc
  rw [Bool.not_eq_false] at hc
  rw [hc] at h
  have : 0 ≤ (a.units : ℝ) / 2 ^ 149 := by positivity
  simp only [if_true] at h
  linarith

theorem neg_of_neg {a : F32} (h : real a < 0) : neg a.bits = true := by
  rw [real_units] at h
  by_contra hc
  rw [Bool.not_eq_true] at hc
  rw [hc] at h
  have : 0 ≤ (a.units : ℝ) / 2 ^ 149 := by positivity
  simp only [Bool.false_eq_true, if_false] at h
  linarith

theorem units_le_iff (a b : F32) : a.units ≤ b.units ↔ |real a| ≤ |real b| := by
  rw [abs_real, abs_real, div_le_div_iff_of_pos_right (show (0 : ℝ) < 2 ^ 149 by positivity), Nat.cast_le]

theorem units_lt_iff (a b : F32) : a.units < b.units ↔ |real a| < |real b| := by
  rw [abs_real, abs_real, div_lt_div_iff_of_pos_right (show (0 : ℝ) < 2 ^ 149 by positivity), Nat.cast_lt]

/-- Storing in 16 bits does not cross a 16-bit value. -/
theorem stored16_direction (a w : F32) (ha : Finite a) (hw : Sixteen w) :
    (real a ≤ real w → real (stored16 a) ≤ real w) ∧ (real w ≤ real a → real w ≤ real (stored16 a)) := by
  obtain ⟨r1, r2, -⟩ := stored16_real a ha
  have hge := stored16_ge a w ha hw
  rw [units_le_iff, units_le_iff] at hge
  have hn := abs_nonneg (real (stored16 a))
  generalize hS : |real (stored16 a)| = S at *
  rcases lt_trichotomy (real a) 0 with h | h | h
  · rw [neg_of_neg h] at r1
    rw [abs_of_neg h] at r2 hge
    simp only [if_true] at r1
    constructor
    · intro hle
      rcases le_total 0 (real w) with h0 | h0
      · linarith
      · rw [abs_of_nonpos h0] at hge
        have := hge (by linarith)
        linarith
    · intro hle; linarith
  · rw [h, abs_zero] at r2
    have : S = 0 := le_antisymm r2 hn
    rw [this, mul_zero] at r1
    rw [r1, h]
    exact ⟨fun x => x, fun x => x⟩
  · rw [neg_of_pos h] at r1
    rw [abs_of_pos h] at r2 hge
    simp only [Bool.false_eq_true, if_false, one_mul] at r1
    constructor
    · intro hle; linarith
    · intro hle
      rcases le_total 0 (real w) with h0 | h0
      · rw [abs_of_nonneg h0] at hge
        have := hge (by linarith)
        linarith
      · linarith

end Verif.Rounding
