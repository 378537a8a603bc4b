import Verif.Spec.QuarterArith
import Verif.Props.C03_C05_QuarterFloat
import Verif.Lemmas.FloatUpdate
import Verif.Lemmas.FloatOrder

/-!
The four operations on floats as one rounding, and what storing the rounded float as a code does.
-/
namespace Verif.QuarterArith
open QuarterFloat Rounding FloatBits FloatArith HalfFloat

/-- The operation on floats. -/
def Op.float : Op → F32 → F32 → F32
  | .add, x, y => x + y
  | .sub, x, y => x - y
  | .mul, x, y => x * y
  | .div, x, y => x / y

theorem code_eq (op : Op) (a : BitVec 8) (p : Int) (b : BitVec 8) (q r : Int) :
    op.code a p b q r = floatToQuarter (op.float ⟨quarterToFloat a p⟩ ⟨quarterToFloat b q⟩).bits r := by
  cases op <;> rfl

/-- The float `x` is the number `X`, rounded. -/
def Rounds (x : F32) (X : ℝ) : Prop :=
  ∃ n d : Nat, 0 < d ∧ x = F32.rounded (decide (X < 0)) n d ∧ |X| = (n : ℝ) / d / 2 ^ 149

theorem add_rounds (a b : F32) (ha : Rounding.Finite a) (hb : Rounding.Finite b) (h0 : real a + real b ≠ 0) : Rounds (a + b) (real a + real b) := by
  obtain ⟨a1, a2⟩ := finite_not a ha
  obtain ⟨b1, b2⟩ := finite_not b hb
  have hsum : real a + real b = ((value a.bits + value b.bits : Int) : ℝ) / 2 ^ 149 := by unfold real; push_cast; ring
  have hp : (0 : ℝ) < 2 ^ 149 := by positivity
  obtain ⟨P, hP⟩ : ∃ P : ℝ, 2 ^ 149 = P := ⟨_, rfl⟩
  refine ⟨(value a.bits + value b.bits).natAbs, 1, by omega, ?_, ?_⟩
  · show F32.add a b = _
    unfold F32.add
    rw [a1, a2, b1, b2]
    simp only [Bool.or_self, Bool.false_eq_true, if_false]
    rw [hsum] at h0 ⊢
    rw [hP] at hp h0 ⊢
    generalize value a.bits + value b.bits = z at *
    have hz : z ≠ 0 := by rintro rfl; simp at h0
    rw [if_neg hz]
    congr 1
    rw [decide_eq_decide, div_lt_iff₀ hp, zero_mul]
    exact_mod_cast Iff.rfl
  · rw [hsum, abs_div, abs_of_pos hp, Nat.cast_one, div_one, Nat.cast_natAbs, Int.cast_abs]

theorem sub_rounds (a b : F32) (ha : Rounding.Finite a) (hb : Rounding.Finite b) (h0 : real a - real b ≠ 0) : Rounds (a - b) (real a - real b) := by
  obtain ⟨n1, n2⟩ := negate_spec b hb
  rw [sub_eq]
  have : real a - real b = real a + real b.negate := by rw [n2]; ring
  rw [this] at h0 ⊢
  exact add_rounds a _ ha n1 h0

/-- The sign of a product or quotient of non-zero numbers. -/
theorem sign_pair (a b : F32) (ha : real a ≠ 0) (hb : real b ≠ 0) : (neg a.bits != neg b.bits) = decide (real a * real b < 0) := by
  have ea := real_units a
  have eb := real_units b
  have pa : 0 < (a.units : ℝ) / 2 ^ 149 := by rw [← abs_real]; exact abs_pos.mpr ha
  have pb : 0 < (b.units : ℝ) / 2 ^ 149 := by rw [← abs_real]; exact abs_pos.mpr hb
  rw [ea, eb]
  generalize (a.units : ℝ) / 2 ^ 149 = x at *
  generalize (b.units : ℝ) / 2 ^ 149 = y at *
  have hxy : 0 < x * y := mul_pos pa pb
  cases neg a.bits <;> cases neg b.bits <;> simp <;> nlinarith

theorem mul_rounds (a b : F32) (ha : Rounding.Finite a) (hb : Rounding.Finite b) (h0 : real a * real b ≠ 0) : Rounds (a * b) (real a * real b) := by
  obtain ⟨a1, a2⟩ := finite_not a ha
  obtain ⟨b1, b2⟩ := finite_not b hb
  have hp : (0 : ℝ) < 2 ^ 149 := by positivity
  refine ⟨a.units * b.units, 2 ^ 149, Nat.two_pow_pos _, ?_, ?_⟩
  · show F32.mul a b = _
    unfold F32.mul
    rw [a1, a2, b1, b2]
    simp only [Bool.or_self, Bool.false_eq_true, if_false]
    rw [sign_pair a b (left_ne_zero_of_mul h0) (right_ne_zero_of_mul h0)]
  · rw [abs_mul, abs_real, abs_real, Nat.cast_mul, Nat.cast_pow, Nat.cast_ofNat]
    generalize (2 : ℝ) ^ 149 = P at *
    field_simp

theorem div_rounds (a b : F32) (ha : Rounding.Finite a) (hb : Rounding.Finite b) (h0 : real a / real b ≠ 0) : Rounds (a / b) (real a / real b) := by
  obtain ⟨a1, a2⟩ := finite_not a ha
  obtain ⟨b1, b2⟩ := finite_not b hb
  have hp : (0 : ℝ) < 2 ^ 149 := by positivity
  have ha0 : real a ≠ 0 := by rintro h; rw [h, zero_div] at h0; exact h0 rfl
  have hb0 : real b ≠ 0 := by rintro h; rw [h, div_zero] at h0; exact h0 rfl
  have hu : 0 < b.units := by
    rcases Nat.eq_zero_or_pos b.units with h | h
    · have := abs_real b
      rw [h] at this
      simp at this
      exact absurd this hb0
    · exact h
  refine ⟨a.units * 2 ^ 149, b.units, hu, ?_, ?_⟩
  · show F32.div a b = _
    unfold F32.div
    rw [a1, a2, b1, b2]
    simp only [Bool.or_self, Bool.false_eq_true, if_false]
    rw [if_neg hu.ne', sign_pair a b ha0 hb0]
    congr 1
    rw [decide_eq_decide, div_neg_iff, mul_neg_iff]
  · rw [abs_div, abs_real, abs_real, Nat.cast_mul, Nat.cast_pow, Nat.cast_ofNat]
    have : (0 : ℝ) < b.units := by exact_mod_cast hu
    generalize (2 : ℝ) ^ 149 = P at *
    field_simp

theorem op_rounds (op : Op) (a b : F32) (ha : Rounding.Finite a) (hb : Rounding.Finite b) (h0 : op.exact (real a) (real b) ≠ 0) :
    Rounds (op.float a b) (op.exact (real a) (real b)) := by
  cases op
  · exact add_rounds a b ha hb h0
  · exact sub_rounds a b ha hb h0
  · exact mul_rounds a b ha hb h0
  · exact div_rounds a b ha hb h0

/-! ### The numbers of the codes -/

theorem decode_facts_table : ∀ b : Fin 16, 1 ≤ b.val → ∀ q : Fin 256, q.val / 8 % 16 ≠ 15 →
    isFinite (quarterToFloat (BitVec.ofNat 8 q.val) (b.val : Int)) = true ∧
    F32.units ⟨quarterToFloat (BitVec.ofNat 8 q.val) (b.val : Int)⟩ ≤ 2 ^ 164 ∧
    (quarterToFloat (BitVec.ofNat 8 q.val) (b.val : Int) = 0#32 ∨ 2 ^ 133 ≤ F32.units ⟨quarterToFloat (BitVec.ofNat 8 q.val) (b.val : Int)⟩) := by
  decide +kernel

theorem decode_facts (q : BitVec 8) (b : Nat) (hb : Bias b) (hq : IsNumber q) :
    Rounding.Finite ⟨quarterToFloat q b⟩ ∧ F32.units ⟨quarterToFloat q b⟩ ≤ 2 ^ 164 ∧ (quarterToFloat q b = 0#32 ∨ 2 ^ 133 ≤ F32.units ⟨quarterToFloat q b⟩) := by
  have := decode_facts_table ⟨b, by have := hb.2; omega⟩ hb.1 ⟨q.toNat, q.isLt⟩ hq
  simp only [BitVec.ofNat_toNat, BitVec.setWidth_eq] at this
  exact this

theorem num_abs_le (q : BitVec 8) (b : Nat) (hb : Bias b) (hq : IsNumber q) : |num q b| ≤ 2 ^ 15 := by
  obtain ⟨_, h, _⟩ := decode_facts q b hb hq
  unfold num
  rw [abs_real, div_le_iff₀ (by positivity)]
  refine le_trans (Nat.cast_le.mpr h) (le_of_eq ?_)
  push_cast
  norm_num

theorem num_abs_ge (q : BitVec 8) (b : Nat) (hb : Bias b) (hq : IsNumber q) (h0 : num q b ≠ 0) : 1 / 2 ^ 16 ≤ |num q b| := by
  obtain ⟨_, _, h⟩ := decode_facts q b hb hq
  rcases h with h | h
  · exfalso; apply h0; unfold num real; rw [h, show value 0#32 = 0 by decide]; simp
  · unfold num
    rw [abs_real, le_div_iff₀ (by positivity)]
    refine le_trans (le_of_eq ?_) (Nat.cast_le.mpr h)
    push_cast
    norm_num

/-- No operation on numbers of codes overflows, if nothing is divided by zero. -/
theorem exact_abs_le (op : Op) (x y : ℝ) (hx : |x| ≤ 2 ^ 15) (hy : |y| ≤ 2 ^ 15) (hy' : y = 0 ∨ 1 / 2 ^ 16 ≤ |y|) : |op.exact x y| ≤ 2 ^ 127 := by
  have h32 : (2 : ℝ) ^ 32 ≤ 2 ^ 127 := pow_le_pow_right₀ (by norm_num) (by norm_num)
  refine le_trans ?_ h32
  cases op
  · exact le_trans (abs_add_le x y) (by norm_num at *; linarith)
  · exact le_trans (abs_sub x y) (by norm_num at *; linarith)
  · show |x * y| ≤ _
    rw [abs_mul]
    calc |x| * |y| ≤ 2 ^ 15 * 2 ^ 15 := mul_le_mul hx hy (abs_nonneg _) (by positivity)
      _ ≤ 2 ^ 32 := by norm_num
  · show |x / y| ≤ _
    rcases hy' with h | h
    · rw [h]; simp
    · rw [abs_div, div_le_iff₀ (lt_of_lt_of_le (by positivity) h)]
      calc |x| ≤ 2 ^ 15 := hx
        _ ≤ 2 ^ 32 * (1 / 2 ^ 16) := by norm_num
        _ ≤ 2 ^ 32 * |y| := by gcongr

/-! ### Storing a rounded number -/

theorem floor_float (r : Nat) (hr : Bias r) : Rounding.Finite ⟨BitVec.ofNat 32 ((127 - r) * 2 ^ 23 + 2 ^ 19)⟩ ∧
    F32.units ⟨BitVec.ofNat 32 ((127 - r) * 2 ^ 23 + 2 ^ 19)⟩ = 17 * 2 ^ (145 - r) := by
  obtain ⟨r1, r2⟩ := hr
  interval_cases r <;> exact ⟨by decide +kernel, by decide +kernel⟩

theorem lowest_float (r : Nat) (hr : Bias r) : Rounding.Finite ⟨BitVec.ofNat 32 ((127 - r) * 2 ^ 23)⟩ ∧
    F32.units ⟨BitVec.ofNat 32 ((127 - r) * 2 ^ 23)⟩ = 2 ^ (149 - r) := by
  obtain ⟨r1, r2⟩ := hr
  interval_cases r <;> exact ⟨by decide +kernel, by decide +kernel⟩

theorem largest_float (r : Nat) (hr : Bias r) : Rounding.Finite ⟨quarterToFloat QUARTER_MAX r⟩ ∧
    F32.units ⟨quarterToFloat QUARTER_MAX r⟩ = 15 * 2 ^ (160 - r) ∧ F32.units ⟨quarterToFloat QUARTER_MIN r⟩ = 15 * 2 ^ (160 - r) := by
  obtain ⟨r1, r2⟩ := hr
  interval_cases r <;> exact ⟨by decide +kernel, by decide +kernel, by decide +kernel⟩

theorem lowest_units (r : Nat) (hr : Bias r) : lowest r = ((2 ^ (149 - r) : Nat) : ℝ) / 2 ^ 149 := by
  obtain ⟨_, r2⟩ := hr
  unfold lowest
  rw [Nat.cast_pow, Nat.cast_ofNat, div_eq_div_iff (by positivity) (by positivity), ← pow_add, one_mul]
  congr 1
  omega

theorem floor_units (r : Nat) (hr : Bias r) : 17 / 16 * lowest r = ((17 * 2 ^ (145 - r) : Nat) : ℝ) / 2 ^ 149 := by
  rw [lowest_units r hr]
  obtain ⟨_, r2⟩ := hr
  rw [show 149 - r = 145 - r + 4 by omega, pow_add]
  push_cast
  ring

theorem largest_units (r : Nat) (hr : Bias r) : largest r = ((15 * 2 ^ (160 - r) : Nat) : ℝ) / 2 ^ 149 := by
  obtain ⟨_, r2⟩ := hr
  unfold largest
  rw [Nat.cast_mul, Nat.cast_pow, Nat.cast_ofNat, Nat.cast_ofNat, div_eq_div_iff (by positivity) (by positivity)]
  have : (2 : ℝ) ^ (160 - r) * 2 ^ r = 2 ^ 11 * 2 ^ 149 := by rw [← pow_add, ← pow_add]; congr 1; omega
  rw [mul_assoc 15, this]
  ring

/-- Between two floats, the rounded number is between them. -/
theorem rounds_ge (x : F32) (X : ℝ) (h : Rounds x X) (q : F32) (hq : Rounding.Finite q) (hle : (q.units : ℝ) / 2 ^ 149 ≤ |X|) : q.units ≤ x.units := by
  obtain ⟨n, d, hd, hx, hX⟩ := h
  rw [hx]
  refine le_rounded _ n d hd q hq ?_
  have hdr : (0 : ℝ) < d := by exact_mod_cast hd
  rw [hX, div_le_div_iff_of_pos_right (by positivity), le_div_iff₀ hdr] at hle
  exact_mod_cast hle

theorem rounds_le (x : F32) (X : ℝ) (h : Rounds x X) (q : F32) (hq : Rounding.Finite q) (hle : |X| ≤ (q.units : ℝ) / 2 ^ 149) : x.units ≤ q.units := by
  obtain ⟨n, d, hd, hx, hX⟩ := h
  rw [hx]
  refine rounded_le _ n d hd q hq ?_
  have hdr : (0 : ℝ) < d := by exact_mod_cast hd
  rw [hX, div_le_div_iff_of_pos_right (by positivity), div_le_iff₀ hdr] at hle
  exact_mod_cast hle

theorem rounds_neg (x : F32) (X : ℝ) (h : Rounds x X) : neg x.bits = decide (X < 0) := by
  obtain ⟨n, d, hd, hx, hX⟩ := h
  rw [hx]
  exact (rounded_bits _ _ _).2.1

theorem rounds_real (x : F32) (X : ℝ) (h : Rounds x X) (hX : |X| ≤ 2 ^ 127) : Rounding.Finite x ∧ |real x - X| ≤ u * |X| + η := by
  obtain ⟨n, d, hd, hx, e⟩ := h
  rw [e] at hX
  obtain ⟨h1, h2⟩ := rounded_real (decide (X < 0)) n d hd hX
  rw [← e] at h2
  have e2 : (if decide (X < 0) = true then (-1 : ℝ) else 1) * |X| = X := by
    by_cases hn : X < 0
    · simp only [hn, decide_true, if_true]; rw [abs_of_neg hn]; ring
    · simp only [hn, decide_false, Bool.false_eq_true, if_false]; rw [abs_of_nonneg (not_lt.mp hn)]; ring
  rw [e2, ← hx] at h2
  rw [hx]
  refine ⟨h1, ?_⟩
  rw [← hx]
  refine le_trans h2 ?_
  have := η_pos
  split <;> linarith

/-- The stored number, with a bound on its error. -/
theorem store_near (x : F32) (X : ℝ) (r : Nat) (hr : Bias r) (h : Rounds x X) (hlo : 17 / 16 * lowest r ≤ |X|) (hhi : |X| ≤ largest r) :
    |num (floatToQuarter x.bits r) r - X| ≤ 126 / 1000 * |X| := by
  obtain ⟨f1, f2⟩ := floor_float r hr
  obtain ⟨l1, l2, _⟩ := largest_float r hr
  have hr' := hr
  obtain ⟨r1, r2⟩ := hr'
  have ulo : 17 * 2 ^ (145 - r) ≤ x.units := by
    rw [← f2]
    exact rounds_ge x X h _ f1 (by rw [f2, ← floor_units r hr]; exact hlo)
  have uhi : x.units ≤ 15 * 2 ^ (160 - r) := by
    rw [← l2]
    exact rounds_le x X h _ l1 (by rw [l2, ← largest_units r hr]; exact hhi)
  have hbig : |X| ≤ 2 ^ 127 := by
    refine le_trans hhi ?_
    unfold largest
    rw [div_le_iff₀ (by positivity)]
    calc (15 : ℝ) / 8 * 2 ^ 14 ≤ 2 ^ 15 := by norm_num
      _ ≤ 2 ^ 127 := pow_le_pow_right₀ (by norm_num) (by norm_num)
      _ ≤ 2 ^ 127 * 2 ^ r := le_mul_of_one_le_right (by positivity) (one_le_pow₀ (by norm_num))
  obtain ⟨xf, hxX⟩ := rounds_real x X h hbig
  have uhi' : x.units < 2 ^ (149 + 15 - r) := by
    refine lt_of_le_of_lt uhi ?_
    rw [show 149 + 15 - r = (160 - r) + 4 by omega, Nat.pow_add]
    have := Nat.two_pow_pos (160 - r)
    generalize 2 ^ (160 - r) = z at *
    omega
  obtain ⟨s1, s2, s3, s4, -⟩ := C05_rounds_partial x.bits r r1 r2 xf (by rw [abs_value x]; exact ulo) (by rw [abs_value x]; exact uhi')
  have av := abs_value (⟨roundTrip x.bits r⟩ : F32)
  simp only at av
  rw [abs_value x, av] at s3 s4
  -- the step is an eighth of the number
  have he : 8 * (2 ^ 20 * 2 ^ (expo x.bits - 1)) ≤ x.units := by
    have e0 : expo x.bits ≠ 0 := by
      intro e0
      have : x.units < 2 ^ 23 := by
        unfold F32.units magUnits; rw [if_pos e0]; exact Nat.mod_lt _ (by norm_num)
      have h2 : 2 ^ 24 ≤ 2 ^ (145 - r) := Nat.pow_le_pow_right (by norm_num) (by omega)
      generalize 2 ^ (145 - r) = z at *
      omega
    unfold F32.units magUnits
    rw [if_neg e0, show 8 * (2 ^ 20 * 2 ^ (expo x.bits - 1)) = 2 ^ 23 * 2 ^ (expo x.bits - 1) by ring]
    exact Nat.mul_le_mul_right _ (by omega)
  have hstep : |num (floatToQuarter x.bits r) r - real x| ≤ |real x| / 8 := by
    have e1 : num (floatToQuarter x.bits r) r = real ⟨roundTrip x.bits r⟩ := rfl
    rw [e1, abs_real x, real_units x, real_units, s1]
    generalize (⟨roundTrip x.bits r⟩ : F32).units = V at *
    generalize x.units = U at *
    have h8 : 8 * |(V : ℝ) - U| ≤ U := by
      have a1 : 8 * V ≤ 9 * U := by omega
      have a2 : 7 * U ≤ 8 * V := by omega
      have b1 : (8 : ℝ) * V ≤ 9 * U := by exact_mod_cast a1
      have b2 : (7 : ℝ) * U ≤ 8 * V := by exact_mod_cast a2
      rcases abs_cases ((V : ℝ) - U) with ⟨e, _⟩ | ⟨e, _⟩ <;> rw [e] <;> linarith
    have hP : (0 : ℝ) < 2 ^ 149 := by positivity
    generalize (2 : ℝ) ^ 149 = P at *
    have e2 : ∀ s : ℝ, |s| = 1 → |s * (V / P) - s * (U / P)| ≤ (U : ℝ) / P / 8 := by
      intro s hs
      rw [← mul_sub, abs_mul, hs, one_mul, ← sub_div, abs_div, abs_of_pos hP, div_right_comm]
      exact div_le_div_of_nonneg_right (by linarith) hP.le
    exact e2 _ (by split <;> simp)
  -- the rounding
  have hη : η ≤ 1 / 2 ^ 24 * |X| := by
    refine le_trans ?_ (mul_le_mul_of_nonneg_left hlo (by positivity))
    unfold η lowest
    have : (2 : ℝ) ^ r ≤ 2 ^ 15 := pow_le_pow_right₀ (by norm_num) r2
    have h2 : 1 / (2 : ℝ) ^ 15 ≤ 1 / 2 ^ r := one_div_le_one_div_of_le (by positivity) this
    have h3 : (1 : ℝ) / 2 ^ 150 ≤ 1 / 2 ^ 24 * (17 / 16 * (1 / 2 ^ 15)) := by norm_num
    refine le_trans h3 ?_
    gcongr
  unfold u at hxX
  have hx2 : |real x - X| ≤ 1 / 2 ^ 23 * |X| := by
    refine le_trans hxX (le_trans (add_le_add_right hη _) (le_of_eq ?_))
    ring
  have hx3 : |real x| ≤ |X| + |real x - X| := by
    have := abs_add_le X (real x - X)
    rwa [add_sub_cancel] at this
  calc |num (floatToQuarter x.bits r) r - X| = |(num (floatToQuarter x.bits r) r - real x) + (real x - X)| := by ring_nf
    _ ≤ |num (floatToQuarter x.bits r) r - real x| + |real x - X| := abs_add_le _ _
    _ ≤ 126 / 1000 * |X| := by
      have := abs_nonneg X
      norm_num at hx2
      linarith

/-- Numbers up to the lowest power of two are stored as zero or as a positive number of about half that power. -/
theorem store_small (x : F32) (r : Nat) (hr : Bias r) (hx : Rounding.Finite x) (h : x.units ≤ 2 ^ (149 - r)) :
    num (floatToQuarter x.bits r) r = 0 ∨ num (floatToQuarter x.bits r) r = (1 / 2 + 1 / 2 ^ 23) * lowest r := by
  obtain ⟨g1, g2⟩ := lowest_float r hr
  have hr' := hr
  obtain ⟨r1, r2⟩ := hr'
  have hm : mag x.bits ≤ (127 - r) * 2 ^ 23 := by
    rw [← g2, units_mag, units_mag, magOf_le_iff] at h
    refine le_trans h ?_
    unfold mag
    simp only [BitVec.toNat_ofNat]
    omega
  have hrt := roundTrip_finite x.bits r r1 r2 hx
  obtain ⟨hx1, hmag, hf, he, hs⟩ := fields x.bits
  have hc : (roundTrip x.bits r).toNat = 0 ∨ (roundTrip x.bits r).toNat = (126 - r) * 2 ^ 23 + 2 := by
    rw [hrt]
    have h1 := encN_cases r (x.bits ≠ 0) (sgn x.bits) (expo x.bits) (frac x.bits) hs hf r1 r2
    have h3 := rnd_cases (frac x.bits)
    have hq : encN r (x.bits ≠ 0) (sgn x.bits) (expo x.bits) (frac x.bits) = 0 ∨ encN r (x.bits ≠ 0) (sgn x.bits) (expo x.bits) (frac x.bits) = 128 := by
      generalize encN r (x.bits ≠ 0) (sgn x.bits) (expo x.bits) (frac x.bits) = q at *
      omega
    rcases hq with h | h <;> rw [h]
    · left; unfold decN; norm_num
    · right; unfold decN; norm_num
  have e1 : num (floatToQuarter x.bits r) r = real ⟨roundTrip x.bits r⟩ := rfl
  rw [e1]
  rcases hc with h | h
  · left
    have : roundTrip x.bits r = 0#32 := BitVec.eq_of_toNat_eq h
    rw [this]
    unfold real
    rw [show value 0#32 = 0 by decide]
    simp
  · right
    have e2 : roundTrip x.bits r = BitVec.ofNat 32 ((126 - r) * 2 ^ 23 + 2) := by
      apply BitVec.eq_of_toNat_eq
      rw [h, BitVec.toNat_ofNat, Nat.mod_eq_of_lt (by omega)]
    have e3 : value (BitVec.ofNat 32 ((126 - r) * 2 ^ 23 + 2)) = (2 ^ 23 + 2) * 2 ^ (125 - r) := by
      interval_cases r <;> decide +kernel
    rw [e2]
    unfold real lowest
    simp only
    rw [e3]
    push_cast
    have : (2 : ℝ) ^ 149 = 2 ^ (125 - r) * 2 ^ r * 2 ^ 24 := by rw [← pow_add, ← pow_add]; congr 1; omega
    rw [this]
    field_simp
    norm_num

/-- Numbers above the largest one are stored as the largest one. -/
theorem store_big (x : F32) (X : ℝ) (r : Nat) (hr : Bias r) (h : Rounds x X) (hX : |X| ≤ 2 ^ 127) (hlo : largest r ≤ |X|) :
    floatToQuarter x.bits r = if X < 0 then QUARTER_MIN else QUARTER_MAX := by
  obtain ⟨l1, l2, _⟩ := largest_float r hr
  obtain ⟨xf, -⟩ := rounds_real x X h hX
  have ulo : 15 * 2 ^ (160 - r) ≤ x.units := by
    rw [← l2]
    exact rounds_ge x X h _ l1 (by rw [l2, ← largest_units r hr]; exact hlo)
  have av := abs_value (⟨quarterToFloat QUARTER_MAX r⟩ : F32)
  simp only at av
  rw [C05_saturates x.bits r hr.1 hr.2 xf (by rw [abs_value x, av, l2]; exact ulo), rounds_neg x X h]
  by_cases hn : X < 0 <;> simp [hn]

end Verif.QuarterArith
