import Verif.Lemmas.FloatElement

/-!
# C128: an update moves each weight against its gradient, by the learning rate times the gradient

`Verif.FloatUpdate.update` computes with floats, bit by bit, and stores the weights with the number of bits of the layer. `real` is the number that a float
denotes; `step` is the exact change. With 32 and 16 bits the direction is right and the size is right up to rounding. A small change is lost, and with 16 bits
a small change is lost only when it goes away from zero, while towards zero it costs a 256th of the weight.
-/
namespace Verif.Rounding
open Verif FloatBits Views FloatUpdate

/-- **C128, direction.** With 32 bits, and with 16 bits if the weight was stored with 16 bits before, no weight moves along its gradient: it is at most what it
was if the change is subtracted, and at least that if the change is added. -/
theorem C128_direction_partial (bits : Nat) (rate : F32) (w g v : Tensor F32) (h : update bits rate w g = some v) (r c k : Nat) (hr : r < w.rows)
    (hc : c < w.cols) (hk : k < w.chans) (hb : bits = 32 ∨ (bits = 16 ∧ Sixteen (w.get r c k))) (hf : Fits (w.get r c k) rate (g.get r c k)) :
    Finite (v.get r c k) ∧ (0 ≤ step rate g r c k → real (v.get r c k) ≤ real (w.get r c k)) ∧
      (step rate g r c k ≤ 0 → real (w.get r c k) ≤ real (v.get r c k)) := by
  obtain ⟨-, -, -, e⟩ := update_element bits (by tauto) rate w g v h r c k hr hc hk
  obtain ⟨d1, d2⟩ := element_direction hf
  obtain ⟨-, -, -, s1, -⟩ := fits_spec hf
  rw [e]
  rcases hb with rfl | ⟨rfl, hs⟩
  · rw [if_neg (by decide)]
    exact ⟨s1, d1, d2⟩
  · rw [if_pos rfl]
    obtain ⟨t1, t2⟩ := stored16_direction _ _ s1 hs
    exact ⟨stored16_finite _ s1, fun hp => t1 (d1 hp), fun hp => t2 (d2 hp)⟩

theorem u_val : u = 1 / 2 ^ 24 := rfl
theorem η_le : η ≤ 1 / 2 ^ 150 := le_refl _

/-- **C128, size, 32 bits.** The new weight is `w - rate * g` up to rounding. -/
theorem C128_size (rate : F32) (w g v : Tensor F32) (h : update 32 rate w g = some v) (r c k : Nat) (hr : r < w.rows)
    (hc : c < w.cols) (hk : k < w.chans) (hf : Fits (w.get r c k) rate (g.get r c k)) :
    |real (v.get r c k) - (real (w.get r c k) - step rate g r c k)| ≤ |real (w.get r c k)| / 2 ^ 24 + |step rate g r c k| / 2 ^ 22 + 1 / 2 ^ 149 := by
  obtain ⟨-, -, -, e⟩ := update_element 32 (by tauto) rate w g v h r c k hr hc hk
  rw [e, if_neg (by decide)]
  refine le_trans (element_error hf) ?_
  unfold step
  have hu1 : u ≤ 1 := by unfold u; norm_num
  have hu := u_pos
  have h1 : (2 * u + u * u) ≤ 1 / 2 ^ 22 := by
    have : u * u ≤ 1 * u := mul_le_mul_of_nonneg_right hu1 hu.le
    have : 4 * u = 1 / 2 ^ 22 := by unfold u; norm_num
    linarith
  have h2 := mul_le_mul_of_nonneg_right h1 (abs_nonneg (real rate * real (g.get r c k)))
  have h3 : (1 + u) * η ≤ 1 / 2 ^ 149 := by
    have : (1 + u) * η ≤ 2 * η := mul_le_mul_of_nonneg_right (by linarith) η_pos.le
    have e : 2 * η = 1 / 2 ^ 149 := by unfold η; rw [pow_succ]; field_simp
    linarith
  have h4 : u * |real (w.get r c k)| = |real (w.get r c k)| / 2 ^ 24 := by unfold u; ring
  have h5 : 1 / 2 ^ 22 * |real rate * real (g.get r c k)| = |real rate * real (g.get r c k)| / 2 ^ 22 := by ring
  linarith

/-- Storing in 16 bits, as an error. -/
theorem stored16_error (a : F32) (h : Finite a) : |real (stored16 a) - real a| ≤ |real a| / 2 ^ 7 + 1 / 2 ^ 133 := by
  obtain ⟨r1, r2, r3⟩ := stored16_real a h
  have ra : real a = (if neg a.bits then -1 else 1) * |real a| := by rw [abs_real]; exact real_units a
  have : |real (stored16 a) - real a| = |real a| - |real (stored16 a)| := by
    have e : ∀ x y : ℝ, |(if neg a.bits = true then (-1 : ℝ) else 1) * x - (if neg a.bits = true then (-1 : ℝ) else 1) * y| = |x - y| := by
      intro x y
      cases neg a.bits
      · simp
      · simp only [if_true]
        rw [show (-1 : ℝ) * x - -1 * y = -(x - y) by ring, abs_neg]
    have e2 := e |real (stored16 a)| |real a|
    rw [← r1, ← ra] at e2
    rw [e2, abs_sub_comm, abs_of_nonneg (by linarith)]
  rw [this]
  linarith

/-- **C128, size, 16 bits.** The new weight is `w - rate * g` up to a hundredth. -/
theorem C128_size_half (rate : F32) (w g v : Tensor F32) (h : update 16 rate w g = some v) (r c k : Nat) (hr : r < w.rows)
    (hc : c < w.cols) (hk : k < w.chans) (hf : Fits (w.get r c k) rate (g.get r c k)) :
    |real (v.get r c k) - (real (w.get r c k) - step rate g r c k)| ≤ (|real (w.get r c k)| + |step rate g r c k|) / 100 + 1 / 2 ^ 132 := by
  obtain ⟨-, -, -, e⟩ := update_element 16 (by tauto) rate w g v h r c k hr hc hk
  rw [e, if_pos rfl]
  obtain ⟨-, -, -, s1, -⟩ := fits_spec hf
  have e1 := element_error hf
  have e2 := stored16_error _ s1
  unfold step
  generalize hx : real (w.get r c k - rate * g.get r c k) = x at *
  generalize hp : real rate * real (g.get r c k) = p at *
  generalize hw : real (w.get r c k) = W at *
  generalize hy : real (stored16 (w.get r c k - rate * g.get r c k)) = y at *
  have hu1 : u ≤ 1 / 2 ^ 24 := le_refl _
  have hu := u_pos
  have h1 : 2 * u + u * u ≤ 1 / 2 ^ 22 := by
    have : u * u ≤ 1 * u := mul_le_mul_of_nonneg_right (le_trans hu1 (by norm_num)) hu.le
    have : 4 * u = 1 / 2 ^ 22 := by unfold u; norm_num
    linarith
  have h2 := mul_le_mul_of_nonneg_right h1 (abs_nonneg p)
  have h3 := mul_le_mul_of_nonneg_right hu1 (abs_nonneg W)
  have h4 : (1 + u) * η ≤ 1 / 2 ^ 149 := by
    have : (1 + u) * η ≤ 2 * η := mul_le_mul_of_nonneg_right (by linarith [hu1, (by norm_num : (1 : ℝ) / 2 ^ 24 ≤ 1)]) η_pos.le
    have e : 2 * η = 1 / 2 ^ 149 := by unfold η; rw [pow_succ]; field_simp
    linarith
  have h5 : (1 : ℝ) / 2 ^ 149 ≤ 1 / 2 ^ 135 := by
    refine div_le_div_of_nonneg_left (by norm_num) (by positivity) (pow_le_pow_right₀ (by norm_num) (by norm_num))
  have h6 : (1 : ℝ) / 2 ^ 133 = 4 * (1 / 2 ^ 135) := by
    rw [show (135 : Nat) = 133 + 2 by rfl, pow_add]; field_simp; norm_num
  have h7 : (1 : ℝ) / 2 ^ 132 = 8 * (1 / 2 ^ 135) := by
    rw [show (135 : Nat) = 132 + 3 by rfl, pow_add]; field_simp; norm_num
  have hd : (0 : ℝ) < 1 / 2 ^ 135 := by positivity
  generalize (1 : ℝ) / 2 ^ 149 = t at *
  rw [h6] at e2
  rw [h7]
  generalize (1 : ℝ) / 2 ^ 135 = d at *
  have f1 : |x| ≤ |W| + |p| + |x - (W - p)| := by
    calc |x| = |(x - (W - p)) + (W - p)| := by rw [sub_add_cancel]
      _ ≤ |x - (W - p)| + |W - p| := abs_add_le _ _
      _ ≤ _ := by have := abs_sub W p; linarith
  have f2 : |y - (W - p)| ≤ |y - x| + |x - (W - p)| := abs_sub_le _ _ _
  have p1 := abs_nonneg W
  have p2 := abs_nonneg p
  norm_num at h2 h3 e2
  linarith

/-- **Small changes are lost.** With 32 bits a weight stays as it is if the change is less than a 2^27th of it. -/
theorem C128_lost (rate : F32) (w g v : Tensor F32) (h : update 32 rate w g = some v) (r c k : Nat) (hr : r < w.rows)
    (hc : c < w.cols) (hk : k < w.chans) (hf : Fits (w.get r c k) rate (g.get r c k)) (hw : 1 / 2 ^ 100 ≤ |real (w.get r c k)|)
    (hsmall : |step rate g r c k| ≤ |real (w.get r c k)| / 2 ^ 27) : real (v.get r c k) = real (w.get r c k) := by
  obtain ⟨-, -, -, e⟩ := update_element 32 (by tauto) rate w g v h r c k hr hc hk
  rw [e, if_neg (by decide)]
  have hf' := hf
  obtain ⟨m1, m2, e3, s1, -⟩ := fits_spec hf
  obtain ⟨f1, f2, f3, f4, f5⟩ := hf'
  have near := sub_nearest (w.get r c k) (rate * g.get r c k) (w.get r c k) f1 m1 f1 e3
  unfold step at hsmall
  generalize w.get r c k = W at *
  generalize g.get r c k = G at *
  generalize hp : real rate * real G = p at *
  have hu1 : u ≤ 1 / 2 ^ 24 := le_refl _
  have h1 : η ≤ |real W| / 2 ^ 50 := by
    refine le_trans ?_ (div_le_div_of_nonneg_right hw (by positivity))
    rw [div_div, ← pow_add]
    exact le_refl _
  have h2 : |real (rate * G)| ≤ |real W| / 2 ^ 26 := by
    have q1 : |real (rate * G)| ≤ |p| + |real (rate * G) - p| := by
      calc |real (rate * G)| = |p + (real (rate * G) - p)| := by rw [add_sub_cancel]
        _ ≤ _ := abs_add_le _ _
    have q2 := mul_le_mul_of_nonneg_right hu1 (abs_nonneg p)
    have := abs_nonneg (real W)
    norm_num at q2 h1 hsmall ⊢
    linarith
  have h3 : |real (W - rate * G) - real W| ≤ |real W| / 2 ^ 25 := by
    have q : |real W - (real W - real (rate * G))| = |real (rate * G)| := by rw [sub_sub_cancel]
    rw [q] at near
    have : |real (W - rate * G) - real W| ≤ |real (W - rate * G) - (real W - real (rate * G))| + |real W - (real W - real (rate * G))|
        + 0 := by
      rw [add_zero, abs_sub_comm (real W) (real W - real (rate * G))]
      exact abs_sub_le _ _ _
    rw [q] at this
    norm_num at h2 ⊢
    linarith
  have hpos : 0 < |real W| := lt_of_lt_of_le (by positivity) hw
  -- the magnitudes agree
  have gapR : ∀ a b : F32, |real a| < |real b| → |real a| * 2 ^ 24 ≤ |real b| * (2 ^ 24 - 1) := by
    intro a b hab
    have := units_gap a b ((units_lt_iff a b).mpr hab)
    have q : ((2 ^ 24 * a.units : Nat) : ℝ) ≤ (((2 ^ 24 - 1) * b.units : Nat) : ℝ) := by exact_mod_cast this
    rw [abs_real, abs_real]
    push_cast at q
    have p0 : (0 : ℝ) < 2 ^ 149 := by positivity
    rw [div_mul_eq_mul_div, div_mul_eq_mul_div]
    refine div_le_div_of_nonneg_right ?_ p0.le
    norm_num at q ⊢
    linarith
  have habs : |real (W - rate * G)| = |real W| := by
    have h4 := abs_abs_sub_abs_le (real (W - rate * G)) (real W)
    have h5 := abs_le.mp (le_trans h4 h3)
    rcases lt_trichotomy |real (W - rate * G)| |real W| with hlt | heq | hlt
    · have := gapR _ _ hlt
      norm_num at this h5
      linarith [h5.1]
    · exact heq
    · have := gapR _ _ hlt
      norm_num at this h5
      linarith [h5.2]
  rcases abs_eq_abs.mp habs with h | h
  · exact h
  · exfalso
    rw [h, show -real W - real W = -(2 * real W) by ring, abs_neg, abs_mul] at h3
    norm_num at h3
    linarith

/-- **Steps away from zero are lost.** With 16 bits a weight stays as it is if the change is less than a 512th of it and away from zero. -/
theorem C128_lost_half (rate : F32) (w g v : Tensor F32) (h : update 16 rate w g = some v) (r c k : Nat) (hr : r < w.rows)
    (hc : c < w.cols) (hk : k < w.chans) (hs : Sixteen (w.get r c k)) (hf : Fits (w.get r c k) rate (g.get r c k))
    (hw : 1 / 2 ^ 100 ≤ |real (w.get r c k)|) (hsmall : |step rate g r c k| ≤ |real (w.get r c k)| / 2 ^ 9)
    (haway : step rate g r c k * real (w.get r c k) ≤ 0) : real (v.get r c k) = real (w.get r c k) := by
  obtain ⟨-, -, -, e⟩ := update_element 16 (by tauto) rate w g v h r c k hr hc hk
  rw [e, if_pos rfl]
  obtain ⟨d1, d2⟩ := element_direction hf
  have err := element_error hf
  obtain ⟨-, -, -, s1, -⟩ := fits_spec hf
  unfold step at hsmall haway
  generalize w.get r c k = W at *
  generalize g.get r c k = G at *
  generalize hp : real rate * real G = p at *
  have hpos : 0 < |real W| := lt_of_lt_of_le (by positivity) hw
  have hu1 : u ≤ 1 / 2 ^ 24 := le_refl _
  have hu := u_pos
  have err' : |real (W - rate * G) - (real W - p)| ≤ |real W| / 2 ^ 20 := by
    have h1 : 2 * u + u * u ≤ 1 / 2 ^ 22 := by
      have : u * u ≤ 1 * u := mul_le_mul_of_nonneg_right (le_trans hu1 (by norm_num)) hu.le
      have : 4 * u = 1 / 2 ^ 22 := by unfold u; norm_num
      linarith
    have h2 := mul_le_mul_of_nonneg_right h1 (abs_nonneg p)
    have h3 := mul_le_mul_of_nonneg_right hu1 (abs_nonneg (real W))
    have h4 : (1 + u) * η ≤ 2 * η := mul_le_mul_of_nonneg_right (by linarith [hu1, (by norm_num : (1 : ℝ) / 2 ^ 24 ≤ 1)]) η_pos.le
    have h5 : η ≤ |real W| / 2 ^ 50 := by
      refine le_trans ?_ (div_le_div_of_nonneg_right hw (by positivity))
      rw [div_div, ← pow_add]
      exact le_refl _
    have h6 := abs_nonneg p
    norm_num at h2 h3 h5 hsmall ⊢
    linarith
  have hx1 : |real W| ≤ |real (W - rate * G)| ∧ |real (W - rate * G)| * 256 < 257 * |real W| ∧ 0 < real (W - rate * G) * real W := by
    have e1 := abs_le.mp err'
    have e2 := abs_le.mp hsmall
    rcases lt_or_gt_of_ne (fun hz => by rw [hz, abs_zero] at hpos; exact lt_irrefl _ hpos : real W ≠ 0) with h0 | h0
    · have hp0 : 0 ≤ p := by by_contra hc; nlinarith
      have := d1 hp0
      rw [abs_of_neg h0] at *
      rw [abs_of_nonpos (by linarith : real (W - rate * G) ≤ 0)]
      norm_num at e1 e2
      exact ⟨by linarith, by linarith [e1.1, e2.2], mul_pos_of_neg_of_neg (by linarith) h0⟩
    · have hp0 : p ≤ 0 := by by_contra hc; nlinarith
      have := d2 hp0
      rw [abs_of_pos h0] at *
      rw [abs_of_nonneg (by linarith : 0 ≤ real (W - rate * G))]
      norm_num at e1 e2
      exact ⟨by linarith, by linarith [e1.2, e2.1], mul_pos (by linarith) h0⟩
  obtain ⟨x1, x2, x3⟩ := hx1
  have hu2 := stored16_above (W - rate * G) W s1 hs ((units_le_iff _ _).mpr x1) (by
    rw [abs_real, abs_real] at x2
    have p0 : (0 : ℝ) < 2 ^ 149 := by positivity
    rw [div_mul_eq_mul_div, ← mul_div_assoc, div_lt_div_iff_of_pos_right p0] at x2
    have : ((256 * (W - rate * G).units : Nat) : ℝ) < ((257 * W.units : Nat) : ℝ) := by push_cast; linarith
    exact_mod_cast this)
  rw [real_units (stored16 _), real_units W, hu2, stored16_neg _ s1]
  congr 1
  rcases pos_and_pos_or_neg_and_neg_of_mul_pos x3 with ⟨y1, y2⟩ | ⟨y1, y2⟩
  · rw [neg_of_pos y1, neg_of_pos y2]
  · rw [neg_of_neg y1, neg_of_neg y2]

/-- **Steps towards zero cost a 256th.** With 16 bits a weight shrinks by at least a 256th if the change is towards zero, even if the change is only a 2^22th. -/
theorem C128_jump_half (rate : F32) (w g v : Tensor F32) (h : update 16 rate w g = some v) (r c k : Nat) (hr : r < w.rows)
    (hc : c < w.cols) (hk : k < w.chans) (hs : Sixteen (w.get r c k)) (hf : Fits (w.get r c k) rate (g.get r c k))
    (hw : 1 / 2 ^ 100 ≤ |real (w.get r c k)|) (hsmall : |step rate g r c k| ≤ |real (w.get r c k)| / 2)
    (hlarge : |real (w.get r c k)| / 2 ^ 22 ≤ |step rate g r c k|)
    (htowards : 0 < step rate g r c k * real (w.get r c k)) :
    0 < real (v.get r c k) * real (w.get r c k) ∧ |real (v.get r c k)| ≤ 255 / 256 * |real (w.get r c k)| := by
  have hsize := C128_size_half rate w g v h r c k hr hc hk hf
  obtain ⟨-, -, -, e⟩ := update_element 16 (by tauto) rate w g v h r c k hr hc hk
  rw [e, if_pos rfl] at hsize ⊢
  have err := element_error hf
  obtain ⟨-, -, -, s1, -⟩ := fits_spec hf
  unfold step at hsmall htowards hlarge hsize
  generalize w.get r c k = W at *
  generalize g.get r c k = G at *
  generalize hp : real rate * real G = p at *
  have hpos : 0 < |real W| := lt_of_lt_of_le (by positivity) hw
  have hu1 : u ≤ 1 / 2 ^ 24 := le_refl _
  have hu := u_pos
  have err' : |real (W - rate * G) - (real W - p)| ≤ |real W| / 2 ^ 24 + |p| / 2 ^ 22 + |real W| / 2 ^ 40 := by
    have h1 : 2 * u + u * u ≤ 1 / 2 ^ 22 := by
      have : u * u ≤ 1 * u := mul_le_mul_of_nonneg_right (le_trans hu1 (by norm_num)) hu.le
      have : 4 * u = 1 / 2 ^ 22 := by unfold u; norm_num
      linarith
    have h2 := mul_le_mul_of_nonneg_right h1 (abs_nonneg p)
    have h3 := mul_le_mul_of_nonneg_right hu1 (abs_nonneg (real W))
    have h4 : (1 + u) * η ≤ 2 * η := mul_le_mul_of_nonneg_right (by linarith [hu1, (by norm_num : (1 : ℝ) / 2 ^ 24 ≤ 1)]) η_pos.le
    have h5 : η ≤ |real W| / 2 ^ 50 := by
      refine le_trans ?_ (div_le_div_of_nonneg_right hw (by positivity))
      rw [div_div, ← pow_add]
      exact le_refl _
    norm_num at h2 h3 h5 ⊢
    linarith
  have hd : (1 : ℝ) / 2 ^ 132 ≤ |real W| / 2 ^ 32 := by
    refine le_trans ?_ (div_le_div_of_nonneg_right hw (by positivity))
    rw [div_div, ← pow_add]
  have hx : |real (W - rate * G)| < |real W| := by
    have e1 := abs_le.mp err'
    rcases lt_or_gt_of_ne (fun hz => by rw [hz, abs_zero] at hpos; exact lt_irrefl _ hpos : real W ≠ 0) with h0 | h0
    · have hp0 : p < 0 := by by_contra hc; nlinarith
      rw [abs_of_neg h0, abs_of_neg hp0] at *
      rw [abs_lt]
      norm_num at e1 hlarge hsmall
      exact ⟨by linarith [e1.1], by linarith [e1.2]⟩
    · have hp0 : 0 < p := by by_contra hc; nlinarith
      rw [abs_of_pos h0, abs_of_pos hp0] at *
      rw [abs_lt]
      norm_num at e1 hlarge hsmall
      exact ⟨by linarith [e1.1], by linarith [e1.2]⟩
  constructor
  · have e1 := abs_le.mp hsize
    rcases lt_or_gt_of_ne (fun hz => by rw [hz, abs_zero] at hpos; exact lt_irrefl _ hpos : real W ≠ 0) with h0 | h0
    · have hp0 : p < 0 := by by_contra hc; nlinarith
      rw [abs_of_neg h0, abs_of_neg hp0] at *
      refine mul_pos_of_neg_of_neg ?_ h0
      generalize (1 : ℝ) / 2 ^ 132 = d at *
      norm_num at hd
      linarith [e1.2]
    · have hp0 : 0 < p := by by_contra hc; nlinarith
      rw [abs_of_pos h0, abs_of_pos hp0] at *
      refine mul_pos ?_ h0
      generalize (1 : ℝ) / 2 ^ 132 = d at *
      norm_num at hd
      linarith [e1.1]
  · have := stored16_below (W - rate * G) W s1 hs ((units_lt_iff _ _).mpr hx)
    have q : ((256 * (stored16 (W - rate * G)).units : Nat) : ℝ) ≤ ((255 * W.units : Nat) : ℝ) := by exact_mod_cast this
    rw [abs_real, abs_real]
    push_cast at q
    rw [← mul_div_assoc]
    refine div_le_div_of_nonneg_right ?_ (by positivity)
    linarith

/-! ### Many updates -/

/-- The elements of some tensors at one position. -/
noncomputable def stepsAt (rate : F32) (gs : List (Tensor F32)) (r c k : Nat) : List ℝ := gs.map fun g => step rate g r c k

/-- What is assumed of one update with 16 bits: nothing overflows or underflows, the change is less than a 512th of the weight, and if it goes towards zero it is
at least a 2^22th of the weight. -/
def SmallStep (rate : F32) (w g : Tensor F32) (r c k : Nat) : Prop :=
  Fits (w.get r c k) rate (g.get r c k) ∧ 1 / 2 ^ 100 ≤ |real (w.get r c k)| ∧ |step rate g r c k| ≤ |real (w.get r c k)| / 2 ^ 9 ∧
    (step rate g r c k * real (w.get r c k) ≤ 0 ∨ |real (w.get r c k)| / 2 ^ 22 ≤ |step rate g r c k|)

theorem towards_congr (a b : ℝ) (h : 0 < a * b) (l : List ℝ) : towards a l = towards b l := by
  unfold towards
  refine List.countP_congr ?_
  intro p _
  simp only [decide_eq_true_eq]
  rcases pos_and_pos_or_neg_and_neg_of_mul_pos h with ⟨h1, h2⟩ | ⟨h1, h2⟩
  · rw [mul_pos_iff_of_pos_right h1, mul_pos_iff_of_pos_right h2]
  · rw [mul_pos_iff, mul_pos_iff]
    constructor <;> rintro (⟨x, y⟩ | ⟨x, y⟩)
    · linarith
    · exact .inr ⟨x, h2⟩
    · linarith
    · exact .inr ⟨x, h1⟩

/-- **C128 fails for many small updates with 16 bits.** However the changes go up and down, a weight in a layer with 16 bits only shrinks: every change towards zero
takes away a 256th of it, and no change away from zero gives anything back. -/
theorem C128_shrinks_violated (rate : F32) (gs : List (Tensor F32)) (w v : Tensor F32) (h : updates 16 rate w gs = some v) (r c k : Nat) (hr : r < w.rows)
    (hc : c < w.cols) (hk : k < w.chans) (hs : Sixteen (w.get r c k))
    (hsmall : ∀ n g x, gs[n]? = some g → updates 16 rate w (gs.take n) = some x → SmallStep rate x g r c k) :
    (gs ≠ [] → 0 < real (v.get r c k) * real (w.get r c k)) ∧
      |real (v.get r c k)| ≤ (255 / 256) ^ towards (real (w.get r c k)) (stepsAt rate gs r c k) * |real (w.get r c k)| := by
  induction gs generalizing w with
  | nil =>
    cases h
    exact ⟨fun h => absurd rfl h, by simp [stepsAt, towards]⟩
  | cons g rest ih =>
    unfold updates at h
    obtain ⟨x, hx, hrest⟩ := Option.bind_eq_some_iff.mp h
    obtain ⟨x1, x2, x3, x4⟩ := update_element 16 (by tauto) rate w g x hx r c k hr hc hk
    rw [if_pos rfl] at x4
    obtain ⟨q1, q2, q3, q4⟩ := hsmall 0 g w rfl rfl
    obtain ⟨-, -, -, s1, -⟩ := fits_spec q1
    have hsx : Sixteen (x.get r c k) := by rw [x4]; exact stored16_sixteen _ s1
    obtain ⟨i1, i2⟩ := ih x hrest x1 x2 x3 hsx (by
      intro n g' y hn hy
      refine hsmall (n + 1) g' y hn ?_
      rw [List.take_succ_cons]
      unfold updates
      rw [hx]
      exact hy)
    have hpos : 0 < |real (w.get r c k)| := lt_of_lt_of_le (by positivity) q2
    -- the first update
    have first : 0 < real (x.get r c k) * real (w.get r c k) ∧
        |real (x.get r c k)| ≤ (255 / 256) ^ (if 0 < step rate g r c k * real (w.get r c k) then 1 else 0) * |real (w.get r c k)| := by
      by_cases hp : 0 < step rate g r c k * real (w.get r c k)
      · rw [if_pos hp, pow_one]
        exact C128_jump_half rate w g x hx r c k hr hc hk hs q1 q2 (le_trans q3 (by
          refine div_le_div_of_nonneg_left hpos.le (by norm_num) (by norm_num))) (q4.resolve_left (by linarith)) hp
      · have := C128_lost_half rate w g x hx r c k hr hc hk hs q1 q2 q3 (not_lt.mp hp)
        rw [this, if_neg hp]
        refine ⟨?_, by simp⟩
        rw [← abs_mul_abs_self]
        exact mul_pos hpos hpos
    obtain ⟨f1, f2⟩ := first
    have hsame := towards_congr _ _ f1 (stepsAt rate rest r c k)
    rw [hsame] at i2
    constructor
    · intro _
      cases rest with
      | nil =>
        cases hrest
        exact f1
      | cons a l =>
        have i1 := i1 (by simp)
        rcases pos_and_pos_or_neg_and_neg_of_mul_pos f1 with ⟨h1, h2⟩ | ⟨h1, h2⟩
        · exact mul_pos ((mul_pos_iff_of_pos_right h1).mp i1) h2
        · refine mul_pos_of_neg_of_neg ?_ h2
          by_contra hc
          have := mul_nonpos_of_nonneg_of_nonpos (not_lt.mp hc) h1.le
          linarith
    · have e : towards (real (w.get r c k)) (stepsAt rate (g :: rest) r c k) =
          towards (real (w.get r c k)) (stepsAt rate rest r c k) + (if 0 < step rate g r c k * real (w.get r c k) then 1 else 0) := by
        unfold towards stepsAt
        rw [List.map_cons, List.countP_cons]
        simp only [decide_eq_true_eq]
      rw [e, pow_add]
      refine le_trans i2 ?_
      rw [mul_assoc]
      exact mul_le_mul_of_nonneg_left f2 (by positivity)

/-- After an update with 16 bits all weights are 16-bit values. -/
theorem C128_sixteen (rate : F32) (w g v : Tensor F32) (h : update 16 rate w g = some v) (r c k : Nat) (hr : r < w.rows)
    (hc : c < w.cols) (hk : k < w.chans) (hf : Fits (w.get r c k) rate (g.get r c k)) : Sixteen (v.get r c k) := by
  obtain ⟨-, -, -, e⟩ := update_element 16 (by tauto) rate w g v h r c k hr hc hk
  rw [e, if_pos rfl]
  exact stored16_sixteen _ (fits_spec hf).2.2.2.1

/-- A row of floats. -/
def rowOf (l : List (BitVec 32)) : Tensor F32 := ⟨1, l.length, 1, fun _ c _ => ⟨l.getD c 0⟩⟩

/-- **An example with 16 bits**: the weight 1 is moved away from zero by 2^-10 and back by the same; exactly it would be 1 again, but it is 255/256. Back and forth
once more, and it is 254/256. -/
theorem C128_drift_violated :
    ∃ v, updates 16 ⟨0x3F800000#32⟩ (rowOf [0x3F800000#32]) [rowOf [0xBA800000#32], rowOf [0x3A800000#32], rowOf [0xBA800000#32], rowOf [0x3A800000#32]] = some v ∧
      real ⟨0xBA800000#32⟩ + real ⟨0x3A800000#32⟩ = 0 ∧ real (v.get 0 0 0) = 254 / 256 := by
  refine ⟨_, rfl, ?_, ?_⟩
  · have h1 : value 0xBA800000#32 = - (2 ^ 139) := by decide +kernel
    have h2 : value 0x3A800000#32 = 2 ^ 139 := by decide +kernel
    unfold real
    rw [h1, h2]
    norm_num
  · have h1 : ((update 16 ⟨0x3F800000#32⟩ (rowOf [0x3F800000#32]) (rowOf [0xBA800000#32])).bind fun w =>
        (update 16 ⟨0x3F800000#32⟩ w (rowOf [0x3A800000#32])).bind fun w => (update 16 ⟨0x3F800000#32⟩ w (rowOf [0xBA800000#32])).bind fun w =>
          (update 16 ⟨0x3F800000#32⟩ w (rowOf [0x3A800000#32])).map fun w => w.get 0 0 0) = some ⟨0x3F7E0000#32⟩ := by decide +kernel
    have h2 := Option.some.inj h1
    refine (congrArg real h2).trans ?_
    have h3 : value 0x3F7E0000#32 = 127 * 2 ^ 142 := by decide +kernel
    unfold real
    rw [h3]
    norm_num

/-- **C128 fails with 8 bits**: the weight -2^-13 has the gradient 0 and changes its sign, because another weight of the layer grows from 1 to 3 and all of
them are stored with a smaller bias. (With gradients 0 for both, nothing changes.) -/
theorem C128_quarter_violated :
    (∃ v, update 8 ⟨0x3F800000#32⟩ (rowOf [0x3F800000#32, 0xB9000000#32]) (rowOf [0xC0000000#32, 0#32]) = some v ∧ 0 < value (v.get 0 1 0).bits) ∧
      value 0xB9000000#32 < 0 ∧
      ∃ v, update 8 ⟨0x3F800000#32⟩ (rowOf [0x3F800000#32, 0xB9000000#32]) (rowOf [0#32, 0#32]) = some v ∧ v.get 0 0 0 = ⟨0x3F800000#32⟩ ∧
        v.get 0 1 0 = ⟨0xB9000000#32⟩ := by
  refine ⟨⟨_, rfl, by decide +kernel⟩, by decide +kernel, _, rfl, by decide +kernel, by decide +kernel⟩

/-- The conditions of the theorems above hold for the weight 1, first with the change -2^-10 and then with the change 2^-10. -/
example : Sixteen ((rowOf [0x3F800000#32]).get 0 0 0) ∧ ∀ n g x, [rowOf [0xBA800000#32], rowOf [0x3A800000#32]][n]? = some g →
    updates 16 ⟨0x3F800000#32⟩ (rowOf [0x3F800000#32]) ([rowOf [0xBA800000#32], rowOf [0x3A800000#32]].take n) = some x →
      SmallStep ⟨0x3F800000#32⟩ x g 0 0 0 := by
  have r1 : real ⟨0x3F800000#32⟩ = 1 := by
    have : value 0x3F800000#32 = 2 ^ 149 := by decide +kernel
    unfold real; rw [this]; norm_num
  have r2 : real ⟨0xBA800000#32⟩ = -(1 / 2 ^ 10) := by
    have : value 0xBA800000#32 = - (2 ^ 139) := by decide +kernel
    unfold real; rw [this]; norm_num
  have r3 : real ⟨0x3A800000#32⟩ = 1 / 2 ^ 10 := by
    have : value 0x3A800000#32 = 2 ^ 139 := by decide +kernel
    unfold real; rw [this]; norm_num
  have key : ∀ x g : Tensor F32, x.get 0 0 0 = ⟨0x3F800000#32⟩ → (g.get 0 0 0 = ⟨0xBA800000#32⟩ ∨ g.get 0 0 0 = ⟨0x3A800000#32⟩) →
      SmallStep ⟨0x3F800000#32⟩ x g 0 0 0 := by
    intro x g hx hg
    unfold SmallStep Fits step
    rw [hx]
    rcases hg with hg | hg <;> rw [hg]
    · rw [r1, r2]
      refine ⟨⟨by decide, by decide, by decide, by norm_num, by norm_num⟩, by norm_num, by norm_num, by norm_num⟩
    · rw [r1, r3]
      refine ⟨⟨by decide, by decide, by decide, by norm_num, by norm_num⟩, by norm_num, by norm_num, by norm_num⟩
  refine ⟨by decide, ?_⟩
  intro n g x hn hx
  have hlt : n < 2 := by
    by_contra hc
    rw [List.getElem?_eq_none (by simp; omega)] at hn
    cases hn
  rcases (by omega : n = 0 ∨ n = 1) with rfl | rfl
  · cases hn
    cases hx
    exact key _ _ rfl (.inl rfl)
  · cases hn
    refine key _ _ ?_ (.inr rfl)
    have h1 : ((update 16 ⟨0x3F800000#32⟩ (rowOf [0x3F800000#32]) (rowOf [0xBA800000#32])).map fun w => w.get 0 0 0) = some ⟨0x3F800000#32⟩ := by
      decide +kernel
    have h2 : update 16 ⟨0x3F800000#32⟩ (rowOf [0x3F800000#32]) (rowOf [0xBA800000#32]) = some x := by
      have : ∀ o : Option (Tensor F32), (o.bind fun w => some w) = o := fun o => by cases o <;> rfl
      rw [← this (update _ _ _ _)]
      exact hx
    rw [h2] at h1
    exact Option.some.inj h1

end Verif.Rounding
