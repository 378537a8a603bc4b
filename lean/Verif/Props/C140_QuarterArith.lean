import Verif.Lemmas.QuarterArith

/-!
C140: arithmetic on 8-bit floats. `num q b` is the number that code `q` stands for at bias `b`, `op.code` the function of happyml for `op`, and
`op.exact` the operation on real numbers. Each operand and the result have a bias of their own.

Recorded disagreements:
* a small negative result becomes a positive number, so the difference of a number and a larger one can be positive (`C140_order_violated`), and zero
  times a negative number is a positive number (`C140_zero_violated`);
* a result that is exactly the lowest power of two of the bias comes out as about half of it or as zero (`C140_lowest_violated`).
-/
namespace Verif.QuarterArith
open QuarterFloat Rounding FloatBits FloatArith FloatOrder

theorem add_comm (x y : F32) : x + y = y + x := by
  show F32.add x y = F32.add y x
  unfold F32.add
  rw [Bool.or_comm (isNaN x.bits), Int.add_comm (value x.bits), Bool.and_comm (neg x.bits)]
  by_cases hn : (isNaN y.bits || isNaN x.bits) = true
  · rw [if_pos hn, if_pos hn]
  · rw [if_neg hn, if_neg hn]
    by_cases hx : isInf x.bits = true <;> by_cases hy : isInf y.bits = true
    · rw [if_pos hx, if_pos hy, hx, hy]
      simp only [Bool.true_and]
      by_cases hs : neg x.bits = neg y.bits
      · have inf : ∀ z : BitVec 32, isInf z = true → z.toNat = 255 * 2 ^ 23 + if neg z then 2 ^ 31 else 0 := by
          intro z hz
          unfold isInf expo frac at hz
          simp only [Bool.and_eq_true, beq_iff_eq] at hz
          have := z.isLt
          unfold neg
          by_cases h : 2 ^ 31 ≤ z.toNat
          · simp only [h, decide_true, if_true]; omega
          · simp only [h, decide_false, Bool.false_eq_true, if_false]; omega
        have : x.bits = y.bits := by
          apply BitVec.eq_of_toNat_eq
          rw [inf _ hx, inf _ hy, hs]
        have hxy : x = y := by cases x; cases y; simp_all
        rw [hxy]
      · have h1 : (neg x.bits != neg y.bits) = true := by simpa using hs
        have h2 : (neg y.bits != neg x.bits) = true := by simpa using fun h => hs h.symm
        rw [h1, h2, if_pos rfl, if_pos rfl]
    · rw [if_pos hx, if_neg hy, if_pos hx]
      simp [hy]
    · rw [if_neg hx, if_pos hy, if_pos hy]
      simp [hx]
    · rw [if_neg hx, if_neg hy, if_neg hy, if_neg hx]

theorem mul_comm (x y : F32) : x * y = y * x := by
  show F32.mul x y = F32.mul y x
  unfold F32.mul
  rw [Bool.or_comm (isNaN x.bits), Bool.or_comm (isInf x.bits), Nat.mul_comm x.units, show (neg x.bits != neg y.bits) = (neg y.bits != neg x.bits) from by
    cases neg x.bits <;> cases neg y.bits <;> rfl]
  have : (value x.bits = 0 ∨ value y.bits = 0) ↔ (value y.bits = 0 ∨ value x.bits = 0) := Or.comm
  simp only [this]

/-- Sum and product do not depend on the order of the operands, for all codes and all biases. -/
theorem C140_comm (a b : BitVec 8) (p q r : Int) : quarterAdd a p b q r = quarterAdd b q a p r ∧ quarterMultiply a p b q r = quarterMultiply b q a p r := by
  unfold quarterAdd quarterMultiply
  exact ⟨by simp only [add_comm], by simp only [mul_comm]⟩

theorem operands (op : Op) (a b : BitVec 8) (p q : Nat) (hp : Bias p) (hq : Bias q) (ha : IsNumber a) (hb : IsNumber b) :
    Rounding.Finite ⟨quarterToFloat a p⟩ ∧ Rounding.Finite ⟨quarterToFloat b q⟩ ∧ |op.exact (num a p) (num b q)| ≤ 2 ^ 127 := by
  refine ⟨(decode_facts a p hp ha).1, (decode_facts b q hq hb).1, ?_⟩
  refine exact_abs_le op _ _ (num_abs_le a p hp ha) (num_abs_le b q hq hb) ?_
  by_cases h : num b q = 0
  · exact Or.inl h
  · exact Or.inr (num_abs_ge b q hq hb h)

theorem positive_floor (r : Nat) : 0 < 17 / 16 * lowest r := by unfold lowest; positivity

/-- A result in the normal range of the result's bias is off by at most 12.6 percent of its size. -/
theorem C140_accurate (op : Op) (a b : BitVec 8) (p q r : Nat) (hp : Bias p) (hq : Bias q) (hr : Bias r) (ha : IsNumber a) (hb : IsNumber b)
    (hlo : 17 / 16 * lowest r ≤ |op.exact (num a p) (num b q)|) (hhi : |op.exact (num a p) (num b q)| ≤ largest r) :
    |num (op.code a p b q r) r - op.exact (num a p) (num b q)| ≤ 126 / 1000 * |op.exact (num a p) (num b q)| := by
  obtain ⟨fa, fb, -⟩ := operands op a b p q hp hq ha hb
  have h0 : op.exact (num a p) (num b q) ≠ 0 := abs_pos.mp (lt_of_lt_of_le (positive_floor r) hlo)
  rw [code_eq]
  exact store_near _ _ r hr (op_rounds op _ _ fa fb h0) hlo hhi

/-- A result beyond the largest number becomes the largest number, with the sign of the result. -/
theorem C140_saturates (op : Op) (a b : BitVec 8) (p q r : Nat) (hp : Bias p) (hq : Bias q) (hr : Bias r) (ha : IsNumber a) (hb : IsNumber b)
    (h : largest r ≤ |op.exact (num a p) (num b q)|) :
    op.code a p b q r = if op.exact (num a p) (num b q) < 0 then QUARTER_MIN else QUARTER_MAX := by
  obtain ⟨fa, fb, hX⟩ := operands op a b p q hp hq ha hb
  have h0 : op.exact (num a p) (num b q) ≠ 0 := abs_pos.mp (lt_of_lt_of_le (by unfold largest; positivity) h)
  rw [code_eq]
  exact store_big _ _ r hr (op_rounds op _ _ fa fb h0) hX h

theorem units_zero (a : F32) (h : real a = 0) : a.units = 0 := by
  have := abs_real a
  rw [h, abs_zero, eq_comm, div_eq_zero_iff] at this
  rcases this with h | h
  · exact_mod_cast h
  · exact absurd h (by positivity)

theorem num_zero (a : BitVec 8) (p : Nat) (hp : Bias p) (ha : IsNumber a) (h : num a p = 0) : quarterToFloat a p = 0#32 := by
  rcases (decode_facts a p hp ha).2.2 with h' | h'
  · exact h'
  · rw [units_zero _ h] at h'; norm_num at h'

/-- A result zero is a float zero, positive for sums and differences. -/
theorem zero_result (op : Op) (a b : BitVec 8) (p q : Nat) (hp : Bias p) (hq : Bias q) (ha : IsNumber a) (hb : IsNumber b)
    (hd : op = .div → num b q ≠ 0) (h : op.exact (num a p) (num b q) = 0) :
    Rounding.Finite (op.float ⟨quarterToFloat a p⟩ ⟨quarterToFloat b q⟩) ∧ (op.float ⟨quarterToFloat a p⟩ ⟨quarterToFloat b q⟩).units = 0 ∧
      (op = .add ∨ op = .sub → (op.float ⟨quarterToFloat a p⟩ ⟨quarterToFloat b q⟩).bits = 0#32) := by
  obtain ⟨fa, fb, -⟩ := operands op a b p q hp hq ha hb
  obtain ⟨a1, a2⟩ := finite_not _ fa
  obtain ⟨b1, b2⟩ := finite_not _ fb
  have small : ∀ x : F32, Rounding.Finite x → |real x| ≤ η → x.units = 0 := by
    intro x _ hx
    unfold η at hx
    rw [abs_real, div_le_iff₀ (by positivity)] at hx
    have e : (1 : ℝ) / 2 ^ 150 * 2 ^ 149 = 1 / 2 := by norm_num
    rw [e] at hx
    have : (x.units : ℝ) < 1 := by linarith
    have : x.units < 1 := by exact_mod_cast this
    omega
  have addzero : ∀ y : F32, Rounding.Finite y → (value (quarterToFloat a p) + value y.bits = 0) →
      (neg (quarterToFloat a p) = true → neg y.bits = true → False) → F32.add ⟨quarterToFloat a p⟩ y = ⟨0#32⟩ := by
    intro y hy hs hn
    obtain ⟨y1, y2⟩ := finite_not _ hy
    unfold F32.add
    simp only at a1 a2
    rw [a1, a2, y1, y2]
    simp only [Bool.or_self, Bool.false_eq_true, if_false, hs, if_true]
    congr 1
    rw [if_neg]
    simpa using hn
  have negzero : ∀ z : BitVec 32, value z = 0 → neg z = true → z = 0x80000000#32 := by
    intro z hz hn
    have hm := (FloatBits.value_eq_zero_iff z).mp hz
    apply BitVec.eq_of_toNat_eq
    have := z.isLt
    unfold neg at hn
    simp only [decide_eq_true_eq] at hn
    show z.toNat = 2 ^ 31
    omega
  have value_num : ∀ (c : BitVec 8) (s : Nat), value (quarterToFloat c s) = 0 → num c s = 0 := by
    intro c s h
    unfold num real
    rw [h]; simp
  cases op
  · have hsum : value (quarterToFloat a p) + value (quarterToFloat b q) = 0 := by
      have e : num a p + num b q = ((value (quarterToFloat a p) + value (quarterToFloat b q) : Int) : ℝ) / 2 ^ 149 := by
        unfold num real; push_cast; ring
      have h : num a p + num b q = 0 := h
      rw [e, div_eq_zero_iff] at h
      rcases h with h | h
      · exact_mod_cast h
      · exact absurd h (by positivity)
    have e := addzero ⟨quarterToFloat b q⟩ fb hsum (by
      intro n1 n2
      have v1 : value (quarterToFloat a p) ≤ 0 := by unfold value; rw [if_pos n1]; omega
      have v2 : value (quarterToFloat b q) ≤ 0 := by unfold value; simp only at n2; rw [if_pos n2]; omega
      have z1 : value (quarterToFloat a p) = 0 := by
        generalize value (quarterToFloat a p) = v at *
        generalize value (quarterToFloat b q) = w at *
        omega
      rw [num_zero a p hp ha (value_num a p z1)] at n1
      exact absurd n1 (by decide))
    show Rounding.Finite (F32.add _ _) ∧ (F32.add _ _).units = 0 ∧ (_ → (F32.add _ _).bits = _)
    rw [e]
    exact ⟨by decide, by decide, fun _ => rfl⟩
  · have hsum : value (quarterToFloat a p) = value (quarterToFloat b q) := by
      have e : num a p - num b q = ((value (quarterToFloat a p) - value (quarterToFloat b q) : Int) : ℝ) / 2 ^ 149 := by
        unfold num real; push_cast; ring
      have h : num a p - num b q = 0 := h
      rw [e, div_eq_zero_iff] at h
      rcases h with h | h
      · have : value (quarterToFloat a p) - value (quarterToFloat b q) = 0 := by exact_mod_cast h
        exact Int.sub_eq_zero.mp this
      · exact absurd h (by positivity)
    have nv : value (F32.negate ⟨quarterToFloat b q⟩).bits = -value (quarterToFloat b q) := negate_val ⟨quarterToFloat b q⟩
    have e := addzero (F32.negate ⟨quarterToFloat b q⟩) ((negate_finite _).mpr fb) (by rw [nv, hsum, Int.add_right_neg]) (by
      intro n1 n2
      have n3 : neg (quarterToFloat b q) = false := by
        have := (xor_neg (quarterToFloat b q)).1
        have n2 : neg (quarterToFloat b q ^^^ 0x80000000#32) = true := n2
        rw [n2] at this
        simpa using this
      have v1 : value (quarterToFloat a p) ≤ 0 := by unfold value; rw [if_pos n1]; omega
      have v2 : 0 ≤ value (quarterToFloat b q) := by unfold value; rw [n3]; simp
      have z1 : value (quarterToFloat a p) = 0 := by
        generalize value (quarterToFloat a p) = v at *
        generalize value (quarterToFloat b q) = w at *
        omega
      rw [num_zero a p hp ha (value_num a p z1)] at n1
      exact absurd n1 (by decide))
    show Rounding.Finite (F32.add _ (F32.negate _)) ∧ (F32.add _ (F32.negate _)).units = 0 ∧ (_ → (F32.add _ (F32.negate _)).bits = _)
    rw [e]
    exact ⟨by decide, by decide, fun _ => rfl⟩
  · have h : num a p * num b q = 0 := h
    have hh : real ⟨quarterToFloat a p⟩ * real ⟨quarterToFloat b q⟩ = 0 := h
    obtain ⟨m1, m2⟩ := mul_spec _ _ fa fb (by rw [hh, abs_zero]; positivity)
    rw [hh, abs_zero, mul_zero, zero_add, sub_zero] at m2
    exact ⟨m1, small _ m1 m2, by rintro (h | h) <;> cases h⟩
  · have hb0 := hd rfl
    have h : num a p / num b q = 0 := h
    have ha0 : num a p = 0 := (div_eq_zero_iff.mp h).resolve_right hb0
    have hu : (⟨quarterToFloat b q⟩ : F32).units ≠ 0 := by
      intro hz
      apply hb0
      have := abs_real ⟨quarterToFloat b q⟩
      rw [hz] at this
      unfold num
      simpa using this
    have e : F32.div ⟨quarterToFloat a p⟩ ⟨quarterToFloat b q⟩ =
        F32.rounded (neg (quarterToFloat a p) != neg (quarterToFloat b q)) 0 (⟨quarterToFloat b q⟩ : F32).units := by
      unfold F32.div
      simp only at a1 a2 b1 b2
      rw [a1, a2, b1, b2]
      simp only [Bool.or_self, Bool.false_eq_true, if_false]
      rw [if_neg hu, units_zero _ ha0, Nat.zero_mul]
    show Rounding.Finite (F32.div _ _) ∧ (F32.div _ _).units = 0 ∧ _
    rw [e]
    obtain ⟨r1, r2⟩ := rounded_real (neg (quarterToFloat a p) != neg (quarterToFloat b q)) 0 _ (Nat.pos_of_ne_zero hu) (by simp)
    refine ⟨r1, small _ r1 ?_, by rintro (h | h) <;> cases h⟩
    refine le_trans (le_of_eq ?_) (le_trans r2 ?_)
    · simp
    · have := η_pos
      simp only [Nat.cast_zero, zero_div, mul_zero, zero_add]
      split <;> linarith

/-- The float that is stored. -/
theorem small_float (op : Op) (a b : BitVec 8) (p q r : Nat) (hp : Bias p) (hq : Bias q) (hr : Bias r) (ha : IsNumber a) (hb : IsNumber b)
    (hd : op = .div → num b q ≠ 0) (h : |op.exact (num a p) (num b q)| ≤ lowest r) :
    Rounding.Finite (op.float ⟨quarterToFloat a p⟩ ⟨quarterToFloat b q⟩) ∧ (op.float ⟨quarterToFloat a p⟩ ⟨quarterToFloat b q⟩).units ≤ 2 ^ (149 - r) := by
  obtain ⟨fa, fb, hX⟩ := operands op a b p q hp hq ha hb
  by_cases h0 : op.exact (num a p) (num b q) = 0
  · obtain ⟨z1, z2, -⟩ := zero_result op a b p q hp hq ha hb hd h0
    exact ⟨z1, by rw [z2]; exact Nat.zero_le _⟩
  · have hR := op_rounds op _ _ fa fb h0
    obtain ⟨g1, g2⟩ := lowest_float r hr
    refine ⟨(rounds_real _ _ hR hX).1, ?_⟩
    rw [← g2]
    exact rounds_le _ _ hR _ g1 (by rw [g2, ← lowest_units r hr]; exact h)

/-- A result of at most the lowest power of two becomes zero or a positive number of about half that power, whatever its sign. -/
theorem C140_small_partial (op : Op) (a b : BitVec 8) (p q r : Nat) (hp : Bias p) (hq : Bias q) (hr : Bias r) (ha : IsNumber a) (hb : IsNumber b)
    (hd : op = .div → num b q ≠ 0) (h : |op.exact (num a p) (num b q)| ≤ lowest r) :
    num (op.code a p b q r) r = 0 ∨ num (op.code a p b q r) r = (1 / 2 + 1 / 2 ^ 23) * lowest r := by
  obtain ⟨h1, h2⟩ := small_float op a b p q r hp hq hr ha hb hd h
  rw [code_eq]
  exact store_small _ r hr h1 h2

/-- Operations on numbers never give an infinity or a NaN, except for a division by zero. -/
theorem C140_number (op : Op) (a b : BitVec 8) (p q r : Nat) (hp : Bias p) (hq : Bias q) (hr : Bias r) (ha : IsNumber a) (hb : IsNumber b)
    (hd : op = .div → num b q ≠ 0) : IsNumber (op.code a p b q r) := by
  obtain ⟨fa, fb, hX⟩ := operands op a b p q hp hq ha hb
  have hfin : Rounding.Finite (op.float ⟨quarterToFloat a p⟩ ⟨quarterToFloat b q⟩) := by
    by_cases h0 : op.exact (num a p) (num b q) = 0
    · exact (zero_result op a b p q hp hq ha hb hd h0).1
    · exact (rounds_real _ _ (op_rounds op _ _ fa fb h0) hX).1
  rw [code_eq]
  generalize op.float ⟨quarterToFloat a p⟩ ⟨quarterToFloat b q⟩ = x at *
  obtain ⟨hx1, hmag, hf, he, hs⟩ := fields x.bits
  unfold IsNumber
  rw [encode_finite x.bits r hr.1 hr.2 hfin]
  have h1 := encN_cases r (x.bits ≠ 0) (sgn x.bits) (expo x.bits) (frac x.bits) hs hf hr.1 hr.2
  have h2 := rnd_le _ hf
  have h3 := hr.2
  omega

theorem num_extreme (r : Nat) (hr : Bias r) : num QUARTER_MAX r = largest r ∧ num QUARTER_MIN r = -largest r := by
  obtain ⟨_, l2, l3⟩ := largest_float r hr
  rw [largest_units r hr]
  unfold num
  rw [real_units, real_units, l2, l3]
  have n1 : neg (quarterToFloat QUARTER_MAX r) = false ∧ neg (quarterToFloat QUARTER_MIN r) = true := by
    obtain ⟨r1, r2⟩ := hr
    interval_cases r <;> decide
  simp only
  rw [n1.1, n1.2]
  simp

/-- The sign is right, unless the result is too small. -/
theorem C140_sign_partial (op : Op) (a b : BitVec 8) (p q r : Nat) (hp : Bias p) (hq : Bias q) (hr : Bias r) (ha : IsNumber a) (hb : IsNumber b)
    (hlo : 17 / 16 * lowest r ≤ |op.exact (num a p) (num b q)|) :
    (0 < op.exact (num a p) (num b q) → 0 < num (op.code a p b q r) r) ∧ (op.exact (num a p) (num b q) < 0 → num (op.code a p b q r) r < 0) := by
  by_cases hhi : |op.exact (num a p) (num b q)| ≤ largest r
  · have := C140_accurate op a b p q r hp hq hr ha hb hlo hhi
    generalize num (op.code a p b q r) r = y at *
    generalize op.exact (num a p) (num b q) = X at *
    have h1 := (abs_le.mp this)
    constructor
    · intro h; rw [abs_of_pos h] at h1; linarith [h1.1]
    · intro h; rw [abs_of_neg h] at h1; linarith [h1.2]
  · rw [C140_saturates op a b p q r hp hq hr ha hb (not_le.mp hhi).le]
    obtain ⟨e1, e2⟩ := num_extreme r hr
    have hl : 0 < largest r := by unfold largest; positivity
    constructor
    · intro h; rw [if_neg (not_lt.mpr h.le), e1]; exact hl
    · intro h; rw [if_pos h, e2]; linarith

theorem zero_code (q : Int) : quarterToFloat 0#8 q = 0#32 := by
  unfold quarterToFloat
  simp [b2u, QUARTER_NAN, QUARTER_POS_INFINITY, QUARTER_NEG_INFINITY]

theorem one_code (q : Nat) (h1 : 1 ≤ q) (h : q ≤ 14) : quarterToFloat (oneCode q) q = one := by
  interval_cases q <;> decide +kernel

theorem ext_units (x y : F32) (h : x.units = y.units) (hn : neg x.bits = neg y.bits) : x = y := by
  have hm : mag x.bits = mag y.bits := by
    rw [units_mag, units_mag] at h
    exact le_antisymm (magOf_le_iff.mp h.le) (magOf_le_iff.mp h.ge)
  have hb : x.bits = y.bits := by
    apply BitVec.eq_of_toNat_eq
    have h1 := x.bits.isLt
    have h2 := y.bits.isLt
    unfold mag at hm
    have h3 : (2 ^ 31 ≤ x.bits.toNat) ↔ (2 ^ 31 ≤ y.bits.toNat) := by
      unfold neg at hn
      rwa [decide_eq_decide] at hn
    omega
  cases x; cases y; simp_all

theorem mul_one_eq (x : F32) (hx : Rounding.Finite x) : x * ⟨one⟩ = x := by
  obtain ⟨x1, x2⟩ := finite_not x hx
  have e : x * ⟨one⟩ = F32.rounded (neg x.bits) (x.units * 2 ^ 149) (2 ^ 149) := by
    show F32.mul x _ = _
    unfold F32.mul
    rw [x1, x2, show isNaN one = false by decide, show isInf one = false by decide, show neg one = false by decide,
      show F32.units ⟨one⟩ = 2 ^ 149 by decide +kernel]
    simp only [Bool.or_self, Bool.false_eq_true, if_false, Bool.bne_false]
  obtain ⟨-, h2, h3⟩ := rounded_exact (neg x.bits) x hx (2 ^ 149) (Nat.two_pow_pos _)
  rw [e]
  exact ext_units _ _ h2 h3

theorem div_one_eq (x : F32) (hx : Rounding.Finite x) : x / ⟨one⟩ = x := by
  obtain ⟨x1, x2⟩ := finite_not x hx
  have e : x / ⟨one⟩ = F32.rounded (neg x.bits) (x.units * 2 ^ 149) (2 ^ 149) := by
    show F32.div x _ = _
    unfold F32.div
    rw [x1, x2, show isNaN one = false by decide, show isInf one = false by decide, show neg one = false by decide,
      show F32.units ⟨one⟩ = 2 ^ 149 by decide +kernel]
    simp only [Bool.or_self, Bool.false_eq_true, if_false, Bool.bne_false]
    rw [if_neg (Nat.two_pow_pos 149).ne']
  obtain ⟨-, h2, h3⟩ := rounded_exact (neg x.bits) x hx (2 ^ 149) (Nat.two_pow_pos _)
  rw [e]
  exact ext_units _ _ h2 h3

theorem div_self_eq (x : F32) (hx : Rounding.Finite x) (h0 : x.units ≠ 0) : x / x = ⟨one⟩ := by
  obtain ⟨x1, x2⟩ := finite_not x hx
  have e : x / x = F32.rounded false ((⟨one⟩ : F32).units * x.units) x.units := by
    show F32.div x _ = _
    unfold F32.div
    rw [x1, x2, show F32.units ⟨one⟩ = 2 ^ 149 by decide +kernel]
    simp only [Bool.or_self, Bool.false_eq_true, if_false, bne_self_eq_false]
    rw [if_neg h0, Nat.mul_comm]
  obtain ⟨-, h2, h3⟩ := rounded_exact false ⟨one⟩ (by decide) x.units (Nat.pos_of_ne_zero h0)
  rw [e]
  exact ext_units _ _ h2 (by rw [h3]; decide)

/-- Adding a zero, if not both are negative. -/
theorem add_zero_eq (x y : F32) (hx : Rounding.Finite x) (hy : Rounding.Finite y) (hy0 : value y.bits = 0) (h : value x.bits = 0 → x.bits = 0#32) : x + y = x := by
  obtain ⟨x1, x2⟩ := finite_not x hx
  obtain ⟨y1, y2⟩ := finite_not y hy
  show F32.add x y = x
  unfold F32.add
  rw [x1, x2, y1, y2, hy0, Int.add_zero]
  simp only [Bool.or_self, Bool.false_eq_true, if_false]
  by_cases h0 : value x.bits = 0
  · rw [if_pos h0]
    have hb := h h0
    rw [hb, show neg 0#32 = false by decide, Bool.false_and, if_neg (by decide)]
    cases x; simp_all
  · rw [if_neg h0]
    have e : (value x.bits).natAbs = x.units * 1 := by rw [abs_value, Nat.mul_one]
    obtain ⟨-, h2, h3⟩ := rounded_exact (decide (value x.bits < 0)) x hx 1 (by omega)
    rw [e]
    refine ext_units _ _ h2 ?_
    rw [h3, value_units]
    rw [value_units] at h0
    cases neg x.bits
    · simp
    · simp at h0 ⊢; omega

/-- Zero and one are neutral, for all codes that are their own round trip (C03), the infinities and NaN included. -/
theorem C140_neutral (a : BitVec 8) (p q : Nat) (z : Int) (hp : Bias p) (hq1 : 1 ≤ q) (hq : q ≤ 14) (ha : reserved a = false) (h80 : a = 0x80#8 → p ≤ 11) :
    quarterAdd a p 0#8 z p = a ∧ quarterAdd 0#8 z a p p = a ∧ quarterSubtract a p 0#8 z p = a ∧
    quarterMultiply a p (oneCode q) q p = a ∧ quarterMultiply (oneCode q) q a p p = a ∧ quarterDivide a p (oneCode q) q p = a := by
  have back : floatToQuarter (quarterToFloat a p) p = a := (C03_code_iff_partial a p hp.1 hp.2).mpr ⟨ha, h80⟩
  have t : floatToQuarter (F32.add ⟨quarterToFloat a p⟩ ⟨0#32⟩).bits p = a ∧ floatToQuarter (F32.sub ⟨quarterToFloat a p⟩ ⟨0#32⟩).bits p = a ∧
      floatToQuarter (F32.mul ⟨quarterToFloat a p⟩ ⟨one⟩).bits p = a ∧ floatToQuarter (F32.div ⟨quarterToFloat a p⟩ ⟨one⟩).bits p = a := by
    by_cases hn : IsNumber a
    · have hf := (decode_facts a p hp hn).1
      have hz : value (quarterToFloat a p) = 0 → quarterToFloat a p = 0#32 := fun h =>
        num_zero a p hp hn (by unfold num real; rw [h]; simp)
      have e1 : F32.add ⟨quarterToFloat a p⟩ ⟨0#32⟩ = ⟨quarterToFloat a p⟩ := add_zero_eq _ _ hf (by decide) (by decide) hz
      have e2 : F32.sub ⟨quarterToFloat a p⟩ ⟨0#32⟩ = ⟨quarterToFloat a p⟩ := add_zero_eq _ (F32.negate ⟨0#32⟩) hf (by decide) (by decide) hz
      have e3 : F32.mul ⟨quarterToFloat a p⟩ ⟨one⟩ = ⟨quarterToFloat a p⟩ := mul_one_eq _ hf
      have e4 : F32.div ⟨quarterToFloat a p⟩ ⟨one⟩ = ⟨quarterToFloat a p⟩ := div_one_eq _ hf
      rw [e1, e2, e3, e4]
      exact ⟨back, back, back, back⟩
    · have hs : a = QUARTER_NAN ∨ a = QUARTER_POS_INFINITY ∨ a = QUARTER_NEG_INFINITY := by
        have key : ∀ a : BitVec 8, reserved a = false → ¬ IsNumber a → a = QUARTER_NAN ∨ a = QUARTER_POS_INFINITY ∨ a = QUARTER_NEG_INFINITY := by
          decide +kernel
        exact key a ha hn
      obtain ⟨p1, p2⟩ := hp
      clear back h80 ha hn
      rcases hs with rfl | rfl | rfl <;> interval_cases p <;> decide +kernel
  obtain ⟨t1, t2, t3, t4⟩ := t
  have k1 : quarterAdd a p 0#8 z p = a := by unfold quarterAdd; rw [zero_code]; exact t1
  have k2 : quarterMultiply a p (oneCode q) q p = a := by unfold quarterMultiply; rw [one_code q hq1 hq]; exact t3
  refine ⟨k1, (C140_comm _ _ _ _ _).1.trans k1, ?_, k2, (C140_comm _ _ _ _ _).2.trans k2, ?_⟩
  · unfold quarterSubtract; rw [zero_code]; exact t2
  · unfold quarterDivide; rw [one_code q hq1 hq]; exact t4

/-- A number minus itself is zero; a number other than zero divided by itself is one. -/
theorem C140_self (a : BitVec 8) (p r : Nat) (hp : Bias p) (hr : Bias r) (ha : IsNumber a) :
    quarterSubtract a p a p r = 0#8 ∧ (num a p ≠ 0 → r ≤ 14 → quarterDivide a p a p r = oneCode r) := by
  have t1 := (zero_result .sub a a p p hp hp ha ha (by intro h; cases h) (sub_self _)).2.2 (Or.inr rfl)
  have t1 : ((⟨quarterToFloat a p⟩ : F32) - ⟨quarterToFloat a p⟩).bits = 0#32 := t1
  obtain ⟨r1, r2⟩ := hr
  constructor
  · unfold quarterSubtract
    simp only
    rw [t1]
    clear t1
    interval_cases r <;> decide +kernel
  · intro h0 h14
    have t2 := div_self_eq ⟨quarterToFloat a p⟩ (decode_facts a p hp ha).1 (by
      intro hz
      apply h0
      have := abs_real ⟨quarterToFloat a p⟩
      rw [hz] at this
      unfold num
      simpa using this)
    unfold quarterDivide
    simp only
    rw [t2]
    clear t1 t2
    interval_cases r <;> decide +kernel

/-! ### Order -/

theorem num_le (a b : BitVec 8) (p q : Nat) : num a p ≤ num b q ↔ val ⟨quarterToFloat a p⟩ ≤ val ⟨quarterToFloat b q⟩ := by
  unfold num real val
  rw [div_le_div_iff_of_pos_right (by positivity)]
  exact_mod_cast Iff.rfl

theorem nonneg_sum (op : Op) (a b : BitVec 8) (p q : Nat) (hp : Bias p) (hq : Bias q) (ha : IsNumber a) (hb : IsNumber b)
    (hop : op = .add ∨ op = .sub ∨ op.exact (num a p) (num b q) ≠ 0) (h : 0 ≤ op.exact (num a p) (num b q)) :
    neg (op.float ⟨quarterToFloat a p⟩ ⟨quarterToFloat b q⟩).bits = false := by
  obtain ⟨fa, fb, hX⟩ := operands op a b p q hp hq ha hb
  by_cases h0 : op.exact (num a p) (num b q) = 0
  · have hop' : op = .add ∨ op = .sub := by
      rcases hop with h | h | h
      · exact Or.inl h
      · exact Or.inr h
      · exact absurd h0 h
    rw [(zero_result op a b p q hp hq ha hb (by rintro rfl; simp at hop') h0).2.2 hop']
    decide
  · rw [rounds_neg _ _ (op_rounds op _ _ fa fb h0)]
    have : ¬ op.exact (num a p) (num b q) < 0 := not_lt.mpr h
    exact decide_eq_false this

/-- Adding to a larger number gives a larger or equal number, as long as the sums are not negative. -/
theorem C140_order_partial (a a' c : BitVec 8) (p p' q r : Nat) (hp : Bias p) (hp' : Bias p') (hq : Bias q) (hr : Bias r)
    (ha : IsNumber a) (ha' : IsNumber a') (hc : IsNumber c) (h : num a p ≤ num a' p') (h0 : 0 ≤ num a p + num c q) :
    num (quarterAdd a p c q r) r ≤ num (quarterAdd a' p' c q r) r := by
  obtain ⟨fa, fc, hX⟩ := operands .add a c p q hp hq ha hc
  obtain ⟨fa', -, hX'⟩ := operands .add a' c p' q hp' hq ha' hc
  have n1 := nonneg_sum .add a c p q hp hq ha hc (Or.inl rfl) h0
  have n2 := nonneg_sum .add a' c p' q hp' hq ha' hc (Or.inl rfl) (by
    show 0 ≤ num a' p' + num c q
    linarith)
  have g1 := (add_spec _ _ fa fc hX).1
  have g2 := (add_spec _ _ fa' fc hX').1
  have hv : val ((⟨quarterToFloat a p⟩ : F32) + ⟨quarterToFloat c q⟩) ≤ val ((⟨quarterToFloat a' p'⟩ : F32) + ⟨quarterToFloat c q⟩) := by
    rw [add_comm ⟨quarterToFloat a p⟩, add_comm ⟨quarterToFloat a' p'⟩]
    exact add_mono _ _ _ fc (finite_num _ fa) (finite_num _ fa') ((num_le _ _ _ _).mp h)
  rw [num_le]
  exact C05_monotone _ _ r hr.1 hr.2 g1 g2 n1 n2 hv

/-- The sum of the codes 0x09 and 0x0A in the wrong order of subtraction: the smaller minus the larger is positive, at every bias. -/
theorem C140_order_violated (b : Nat) (hb : Bias b) :
    ∃ a c, IsNumber a ∧ IsNumber c ∧ num a b < num c b ∧ 0 < num (quarterSubtract a b c b b) b := by
  refine ⟨0x09#8, 0x0A#8, by decide, by decide, ?_⟩
  rw [← not_le, num_le]
  have z : num 0#8 b = 0 := by unfold num real; rw [zero_code, show value 0#32 = 0 by decide]; simp
  rw [← z, ← not_le, num_le]
  obtain ⟨b1, b2⟩ := hb
  interval_cases b <;> decide +kernel

/-- Zero times a negative number is a positive number, at every bias. -/
theorem C140_zero_violated (b : Nat) (hb : Bias b) :
    ∃ a, IsNumber a ∧ num a b < 0 ∧ num 0#8 b = 0 ∧ 0 < num (quarterMultiply 0#8 b a b b) b := by
  refine ⟨QUARTER_MIN, by decide, ?_⟩
  have z : num 0#8 b = 0 := by unfold num real; rw [zero_code, show value 0#32 = 0 by decide]; simp
  refine ⟨?_, z, ?_⟩
  · rw [(num_extreme b hb).2]
    have : 0 < largest b := by unfold largest; positivity
    linarith
  · rw [← z, ← not_le, num_le]
    obtain ⟨b1, b2⟩ := hb
    interval_cases b <;> decide +kernel

/-- A difference that is exactly the lowest power of two comes out as less than 51 percent of it, at every bias. -/
theorem C140_lowest_violated (b : Nat) (hb : Bias b) :
    ∃ a c, IsNumber a ∧ IsNumber c ∧ num a b - num c b = lowest b ∧ num (quarterSubtract a b c b b) b ≤ 51 / 100 * lowest b := by
  have e : num 0x09#8 b - num 0x02#8 b = lowest b := by
    have h1 : value (quarterToFloat 0x09#8 b) - value (quarterToFloat 0x02#8 b) = ((2 ^ (149 - b) : Nat) : Int) := by
      obtain ⟨b1, b2⟩ := hb
      interval_cases b <;> decide +kernel
    rw [lowest_units b hb]
    have h2 : num 0x09#8 b - num 0x02#8 b = ((value (quarterToFloat 0x09#8 b) - value (quarterToFloat 0x02#8 b) : Int) : ℝ) / 2 ^ 149 := by
      unfold num real; push_cast; ring
    rw [h2, h1, Int.cast_natCast]
  refine ⟨0x09#8, 0x02#8, by decide, by decide, e, ?_⟩
  have hl : 0 < lowest b := by unfold lowest; positivity
  have h := C140_small_partial .sub 0x09#8 0x02#8 b b b hb hb hb (by decide) (by decide) (by intro h; cases h) (by
    show |num 0x09#8 b - num 0x02#8 b| ≤ _
    rw [e, abs_of_pos hl])
  have hc : Op.code .sub 0x09#8 b 0x02#8 b b = quarterSubtract 0x09#8 b 0x02#8 b b := rfl
  rw [hc] at h
  rcases h with h | h
  · rw [h]; linarith
  · rw [h]
    have : (1 : ℝ) / 2 + 1 / 2 ^ 23 ≤ 51 / 100 := by norm_num
    nlinarith

/-- Infinities and NaN: NaN in gives NaN out; infinity minus infinity and zero by zero are NaN; one by zero is infinite. -/
theorem C140_specials (a : BitVec 8) (p q r : Nat) (hp : Bias p) (hq : Bias q) (hr : Bias r) (op : Op) :
    op.code QUARTER_NAN p a q r = QUARTER_NAN ∧ op.code a q QUARTER_NAN p r = QUARTER_NAN ∧
    quarterSubtract QUARTER_POS_INFINITY p QUARTER_POS_INFINITY q r = QUARTER_NAN ∧ quarterDivide 0#8 p 0#8 q r = QUARTER_NAN ∧
    (IsNumber a → quarterAdd QUARTER_POS_INFINITY p a q r = QUARTER_POS_INFINITY ∧ quarterAdd QUARTER_NEG_INFINITY p a q r = QUARTER_NEG_INFINITY) ∧
    (IsNumber a → 0 < num a q → quarterDivide a q 0#8 p r = QUARTER_POS_INFINITY) := by
  have dn : ∀ s : Nat, quarterToFloat QUARTER_NAN s = FLOAT_NEG_NAN := by intro s; unfold quarterToFloat; simp [b2u, QUARTER_NAN, QUARTER_POS_INFINITY, QUARTER_NEG_INFINITY]
  have di : ∀ s : Nat, quarterToFloat QUARTER_POS_INFINITY s = FLOAT_INF := by
    intro s; unfold quarterToFloat; simp [b2u, QUARTER_NAN, QUARTER_POS_INFINITY, QUARTER_NEG_INFINITY]
  have dm : ∀ s : Nat, quarterToFloat QUARTER_NEG_INFINITY s = FLOAT_NEG_INF := by
    intro s; unfold quarterToFloat; simp [b2u, QUARTER_NAN, QUARTER_POS_INFINITY, QUARTER_NEG_INFINITY]
  have en : floatToQuarter F32.nan.bits r = QUARTER_NAN := by obtain ⟨r1, r2⟩ := hr; interval_cases r <;> decide +kernel
  have ei : floatToQuarter FLOAT_INF r = QUARTER_POS_INFINITY := by obtain ⟨r1, r2⟩ := hr; interval_cases r <;> decide +kernel
  have em : floatToQuarter FLOAT_NEG_INF r = QUARTER_NEG_INFINITY := by obtain ⟨r1, r2⟩ := hr; interval_cases r <;> decide +kernel
  have nn : isNaN FLOAT_NEG_NAN = true := by decide
  have addn : ∀ x y : F32, isNaN x.bits = true ∨ isNaN y.bits = true → F32.add x y = F32.nan := by
    intro x y h
    unfold F32.add
    rw [if_pos (by rcases h with h | h <;> simp [h])]
  have muln : ∀ x y : F32, isNaN x.bits = true ∨ isNaN y.bits = true → F32.mul x y = F32.nan := by
    intro x y h
    unfold F32.mul
    rw [if_pos (by rcases h with h | h <;> simp [h])]
  have divn : ∀ x y : F32, isNaN x.bits = true ∨ isNaN y.bits = true → F32.div x y = F32.nan := by
    intro x y h
    unfold F32.div
    rw [if_pos (by rcases h with h | h <;> simp [h])]
  have negn : ∀ x : F32, isNaN x.bits = true → isNaN x.negate.bits = true := by
    intro x hx
    by_contra hc
    have : Num x.negate := by unfold Num; simpa using hc
    have := (negate_num x).mp this
    unfold Num at this
    rw [hx] at this
    cases this
  have opn : ∀ x y : F32, isNaN x.bits = true ∨ isNaN y.bits = true → op.float x y = F32.nan := by
    intro x y h
    cases op
    · exact addn x y h
    · exact addn x _ (h.imp id (negn y))
    · exact muln x y h
    · exact divn x y h
  refine ⟨?_, ?_, ?_, ?_, ?_, ?_⟩
  · rw [code_eq, dn, opn ⟨FLOAT_NEG_NAN⟩ _ (Or.inl nn), en]
  · rw [code_eq, dn, opn _ ⟨FLOAT_NEG_NAN⟩ (Or.inr nn), en]
  · unfold quarterSubtract
    rw [di, di]
    simp only
    rw [show ((⟨FLOAT_INF⟩ : F32) - ⟨FLOAT_INF⟩) = F32.nan by decide +kernel, en]
  · unfold quarterDivide
    rw [zero_code, zero_code]
    simp only
    rw [show ((⟨0#32⟩ : F32) / ⟨0#32⟩) = F32.nan by decide +kernel, en]
  · intro ha
    obtain ⟨a1, a2⟩ := finite_not _ (decode_facts a q hq ha).1
    simp only at a1 a2
    have inf : ∀ x : F32, isNaN x.bits = false → isInf x.bits = true → x + ⟨quarterToFloat a q⟩ = x := by
      intro x h1 h2
      show F32.add x _ = x
      unfold F32.add
      simp only
      rw [h1, h2, a1, a2]
      simp
    unfold quarterAdd
    rw [di, dm]
    simp only
    rw [inf ⟨FLOAT_INF⟩ (by decide) (by decide), inf ⟨FLOAT_NEG_INF⟩ (by decide) (by decide)]
    exact ⟨ei, em⟩
  · intro ha h0
    obtain ⟨a1, a2⟩ := finite_not _ (decode_facts a q hq ha).1
    simp only at a1 a2
    have hu : (⟨quarterToFloat a q⟩ : F32).units ≠ 0 := by
      intro hz
      have := abs_real ⟨quarterToFloat a q⟩
      rw [hz] at this
      unfold num at h0
      simp at this
      linarith
    have hn : neg (quarterToFloat a q) = false := by
      by_contra hc
      have hc : neg (quarterToFloat a q) = true := by simpa using hc
      have : value (quarterToFloat a q) ≤ 0 := by unfold value; rw [if_pos hc]; omega
      have h2 : (value (quarterToFloat a q) : ℝ) ≤ 0 := by exact_mod_cast this
      have h3 : num a q ≤ 0 := by unfold num real; exact div_nonpos_of_nonpos_of_nonneg h2 (by positivity)
      linarith
    unfold quarterDivide
    rw [zero_code]
    simp only
    have e : (⟨quarterToFloat a q⟩ : F32) / ⟨0#32⟩ = ⟨FLOAT_INF⟩ := by
      show F32.div _ _ = _
      unfold F32.div
      simp only
      rw [a1, a2, hn]
      rw [if_neg (by decide), if_neg (by decide), if_neg (by decide), if_pos (by decide), if_neg hu]
      rfl
    rw [e]
    exact ei

/-- The range of a bias is twice its largest number. -/
theorem C140_range (b : Nat) (hb : Bias b) : real (calculateBiasRange b) = 2 * largest b := by
  have h : value (calculateBiasRange b).bits = ((2 * (15 * 2 ^ (160 - b)) : Nat) : Int) := by
    obtain ⟨b1, b2⟩ := hb
    interval_cases b <;> decide +kernel
  rw [largest_units b hb]
  unfold real
  rw [h, Int.cast_natCast, Nat.cast_mul 2]
  push_cast
  ring

-- Non-vacuity: at bias 8, 1.5 (0x44) plus 0.40625 is 1.90625, stored as 1.875; 100 times 100 saturates; a result in the normal range.
example : IsNumber 0x44#8 ∧ IsNumber 0x35#8 ∧ Bias 8 ∧ quarterAdd 0x44#8 8 0x35#8 8 8 = 0x47#8 ∧ quarterMultiply 0x6C#8 8 0x6C#8 8 8 = QUARTER_MAX := by decide +kernel
example : num 0x44#8 8 = 3 / 2 := by
  unfold num real
  rw [show value (quarterToFloat 0x44#8 (8 : Nat)) = 3 * 2 ^ 148 by decide +kernel]
  norm_num
example : reserved 0x44#8 = false ∧ oneCode 8 = 0x40#8 := by decide

end Verif.QuarterArith
