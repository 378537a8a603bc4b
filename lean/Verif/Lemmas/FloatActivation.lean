import Verif.Lemmas.FloatOrder
import Verif.Spec.FloatActivation

/-!
The activation functions on 32-bit floats.
-/
namespace Verif.FloatActivation
open FloatBits Rounding FloatOrder

theorem within_iff (l h a : F32) (hl : Num l) (hh : Num h) : Within l h a ↔ Num a ∧ val l ≤ val a ∧ val a ≤ val h := by
  unfold Within
  rw [ge_iff, ge_iff]
  tauto

theorem val_zero : val 0 = 0 := by decide
theorem num_zero : Num 0 := by decide
theorem num_one : Num one := by decide
theorem finite_one : Rounding.Finite one := by decide
theorem num_inf : Num inf := by decide
theorem num_minusInf : Num minusInf := by decide
theorem num_minusOne : Num minusOne := by decide
theorem val_one : val one = 2 ^ 149 := by decide +kernel
theorem units_one : F32.units one = 2 ^ 149 := by decide +kernel
theorem val_minusOne : val minusOne = -val one := by decide +kernel
theorem one_pos : 0 < val one := by decide +kernel

theorem anything (a : F32) (h : Num a) : Within minusInf inf a := by
  rw [within_iff _ _ _ num_minusInf num_inf]
  have e1 : val inf = pattern 0x7F800000 := by decide +kernel
  have e2 : val minusInf = -(pattern 0x7F800000 : Int) := by decide +kernel
  rw [e1, e2]
  exact ⟨h, neg_val_le a h, val_le a h⟩

/-- `-1.0f * x` -/
theorem minus (x : F32) (hx : Num x) : Num (minusOne * x) ∧ val (minusOne * x) = -val x := by
  show Num (F32.mul minusOne x) ∧ val (F32.mul minusOne x) = -val x
  have o1 : isNaN minusOne.bits = false := by decide
  have o2 : isInf minusOne.bits = false := by decide
  have o3 : neg minusOne.bits = true := by decide
  have o4 : F32.units minusOne = 2 ^ 149 := by decide +kernel
  have o5 : value minusOne.bits ≠ 0 := by decide +kernel
  rcases num_cases x hx with ⟨hf, hi⟩ | ⟨hi, hu⟩
  · have e : F32.mul minusOne x = F32.rounded (!neg x.bits) (x.units * 2 ^ 149) (2 ^ 149) := by
      unfold F32.mul
      rw [o1, o2, o3, o4, show isNaN x.bits = false from hx, hi, Nat.mul_comm (2 ^ 149)]
      simp only [Bool.or_self, Bool.false_eq_true, if_false, Bool.true_bne]
    obtain ⟨g1, g2, g3⟩ := rounded_exact (!neg x.bits) x hf (2 ^ 149) (Nat.two_pow_pos _)
    rw [e]
    refine ⟨finite_num _ g1, ?_⟩
    rw [val_units, g2, g3, val_units x]
    cases neg x.bits <;> simp
  · have hvx : value x.bits ≠ 0 := by
      intro h
      have := val_abs x
      unfold val at this
      rw [h, hu] at this
      exact absurd this (by decide +kernel)
    have e : F32.mul minusOne x = ⟨if !neg x.bits then 0xFF800000#32 else 0x7F800000#32⟩ := by
      unfold F32.mul
      rw [o1, o2, o3, show isNaN x.bits = false from hx, hi]
      simp only [Bool.or_self, Bool.false_eq_true, if_false, Bool.true_bne, Bool.false_or, if_true]
      rw [if_neg (by rintro (h | h); exacts [o5 h, hvx h])]
    rw [e]
    have ex := val_units x
    rw [hu] at ex
    rw [ex]
    cases neg x.bits <;> exact ⟨by decide, by decide +kernel⟩

theorem nan_mul (a b : F32) (h : ¬ Num a ∨ ¬ Num b) : ¬ Num (a * b) := by
  show ¬ Num (F32.mul a b)
  unfold F32.mul
  have : (isNaN a.bits || isNaN b.bits) = true := by
    unfold Num at h
    cases h1 : isNaN a.bits <;> cases h2 : isNaN b.bits <;> simp_all
  rw [if_pos this]
  decide

theorem nan_add (a b : F32) (h : ¬ Num a ∨ ¬ Num b) : ¬ Num (a + b) := by
  show ¬ Num (F32.add a b)
  unfold F32.add
  have : (isNaN a.bits || isNaN b.bits) = true := by
    unfold Num at h
    cases h1 : isNaN a.bits <;> cases h2 : isNaN b.bits <;> simp_all
  rw [if_pos this]
  decide

theorem nan_div (a b : F32) (h : ¬ Num a ∨ ¬ Num b) : ¬ Num (a / b) := by
  show ¬ Num (F32.div a b)
  unfold F32.div
  have : (isNaN a.bits || isNaN b.bits) = true := by
    unfold Num at h
    cases h1 : isNaN a.bits <;> cases h2 : isNaN b.bits <;> simp_all
  rw [if_pos this]
  decide

theorem nan_sub (a b : F32) (h : ¬ Num a ∨ ¬ Num b) : ¬ Num (a - b) := nan_add a (F32.negate b) (by rw [negate_num]; exact h)

/-- `c - x` for a finite `c` -/
theorem sub_num (c x : F32) (hc : Rounding.Finite c) (hx : Num x) : Num (c - x) := (add_facts c (F32.negate x) hc ((negate_num x).mpr hx)).1

theorem sub_anti (c x y : F32) (hc : Rounding.Finite c) (hx : Num x) (hy : Num y) (h : val x ≤ val y) : val (c - y) ≤ val (c - x) :=
  add_mono c (F32.negate y) (F32.negate x) hc ((negate_num y).mpr hy) ((negate_num x).mpr hx) (by rw [negate_val, negate_val]; omega)

theorem finite_of_le (a b : F32) (ha : Num a) (hb : Rounding.Finite b) (h : a.units ≤ b.units) : Rounding.Finite a := by
  rcases num_cases a ha with ⟨h, -⟩ | ⟨-, hu⟩
  · exact h
  · have := finite_lt b hb
    rw [hu] at h
    exact absurd h (by generalize pattern 0x7F800000 = p at *; omega)

theorem add_comm_finite (a b : F32) (ha : Rounding.Finite a) (hb : Rounding.Finite b) : a + b = b + a := by
  show F32.add a b = F32.add b a
  obtain ⟨a1, a2⟩ := finite_not a ha
  obtain ⟨b1, b2⟩ := finite_not b hb
  unfold F32.add
  rw [a1, a2, b1, b2, Int.add_comm (value a.bits), Bool.and_comm (neg a.bits)]
  simp only [Bool.or_self, Bool.false_eq_true, if_false]

/-! ### The logistic function -/

theorem denominator (m : Libm) (hm : Sound m) (x : F32) (hx : Num x) :
    Num (one + m.exp (minusOne * x)) ∧ val one ≤ val (one + m.exp (minusOne * x)) := by
  obtain ⟨x1, x2⟩ := minus x hx
  obtain ⟨e1, e2, e3⟩ := (within_iff _ _ _ num_zero num_inf).mp (hm.exp_range _ x1)
  refine ⟨(add_facts one _ finite_one e1).1, ?_⟩
  have h := add_mono one 0 _ finite_one num_zero e1 e2
  have e : val (one + 0) = val one := by decide +kernel
  rw [e] at h
  exact h

theorem logistic_range (m : Libm) (hm : Sound m) (x : F32) (hx : Num x) :
    Num (logistic m x) ∧ 0 ≤ val (logistic m x) ∧ val (logistic m x) ≤ val one := by
  obtain ⟨d1, d2⟩ := denominator m hm x hx
  obtain ⟨f1, f2, -, -⟩ := div_facts _ d1 d2
  refine ⟨f1, f2, ?_⟩
  have h := div_anti one _ num_one d1 (le_refl _) d2
  have e : val (one / one) = val one := by decide +kernel
  rw [e] at h
  exact h

theorem logistic_mono (m : Libm) (hm : Sound m) (x y : F32) (hx : Num x) (hy : Num y) (h : val x ≤ val y) :
    val (logistic m x) ≤ val (logistic m y) := by
  obtain ⟨d1, d2⟩ := denominator m hm x hx
  obtain ⟨c1, c2⟩ := denominator m hm y hy
  refine div_anti _ _ c1 d1 c2 ?_
  obtain ⟨x1, x2⟩ := minus x hx
  obtain ⟨y1, y2⟩ := minus y hy
  have := (ge_iff _ _).mp (hm.exp_order (minusOne * y) (minusOne * x) ((ge_iff _ _).mpr ⟨x1, y1, by rw [x2, y2]; omega⟩))
  exact add_mono one _ _ finite_one this.2.1 this.1 this.2.2

theorem logistic_nan (m : Libm) (hm : Sound m) (x : F32) (hx : ¬ Num x) : ¬ Num (logistic m x) :=
  nan_div _ _ (Or.inr (nan_add _ _ (Or.inr (hm.exp_nan _ (nan_mul _ _ (Or.inr hx))))))

theorem logistic_zero (m : Libm) (hm : Sound m) (x : F32) (hx : Num x) (h : val x = 0) : logistic m x = half := by
  obtain ⟨x1, x2⟩ := minus x hx
  rw [h] at x2
  unfold logistic
  rw [hm.exp_zero _ ((ge_iff _ _).mpr ⟨x1, num_zero, by rw [x2, val_zero]; omega⟩) ((ge_iff _ _).mpr ⟨num_zero, x1, by rw [x2, val_zero]; omega⟩)]
  decide +kernel

/-! ### Slopes of functions between 0 and 1, and between -1 and 1 -/

theorem units_val (a : F32) (h : 0 ≤ val a) : val a = a.units := by
  have e := val_units a
  split at e <;> omega

/-- `1.f - s`: at most half a step away. -/
theorem complement (s : F32) (hs : Num s) (h0 : 0 ≤ val s) (h1 : val s ≤ val one) :
    Num (one - s) ∧ 0 ≤ val (one - s) ∧ val (one - s) ≤ val one := by
  have g1 := sub_anti one 0 s finite_one num_zero hs (by rw [val_zero]; exact h0)
  have g2 := sub_anti one s one finite_one hs num_one h1
  have e1 : val (one - 0) = val one := by decide +kernel
  have e2 : val (one - one) = 0 := by decide +kernel
  rw [e1] at g1
  rw [e2] at g2
  exact ⟨sub_num one s finite_one hs, g2, g1⟩

theorem complement_near (s : F32) (hs : Num s) (h0 : 0 < val s) (h1 : val s < val one) :
    ∃ k, (one - s).units ≤ 2 ^ 149 - s.units + 2 ^ k ∧ s.units * 2 ^ k ≤ 2 ^ 272 := by
  have hv := units_val s h0.le
  rw [val_one] at h1
  have hsu : 0 < s.units ∧ s.units < 2 ^ 149 := by
    rw [hv] at h0 h1
    exact ⟨by exact_mod_cast h0, by exact_mod_cast h1⟩
  have hfin : Rounding.Finite s := finite_of_le s one hs finite_one (by rw [units_one]; omega)
  obtain ⟨n, hN⟩ : ∃ n, 2 ^ 149 - s.units = n := ⟨_, rfl⟩
  have hn : val one + val (F32.negate s) = (n : Int) := by
    rw [negate_val, val_one, hv, ← hN, Nat.cast_sub hsu.2.le]
    push_cast
    ring
  have hn149 : n + s.units = 2 ^ 149 := by omega
  have hfin' := (negate_finite s).mpr hfin
  obtain ⟨-, -, -, a4⟩ := add_facts one (F32.negate s) finite_one (finite_num _ hfin')
  have a4 := a4 (finite_not _ hfin').2
  rw [hn] at a4
  have hpos : 0 < n := by omega
  have a4 := a4 (by omega)
  have hneg : decide ((n : Int) < 0) = false := by simp
  rw [hneg, Int.natAbs_natCast] at a4
  have hsub : one - s = one + F32.negate s := rfl
  rw [hsub, a4, hN]
  have hmax : n ≤ 1 * top := by
    have h1 := top_ge
    have h2 : 2 ^ 149 ≤ 2 ^ 276 := Nat.pow_le_pow_right (by omega) (by omega)
    rw [Nat.one_mul]
    exact le_trans (le_trans (by omega) h2) h1
  obtain ⟨mm, sh, r1, r2, r3, r4, r5, r6, r7, -⟩ := roundUnits_spec n 1 (by omega) hmax
  obtain ⟨g1, g2, g3⟩ := units_of _ sh mm false r2 r3 r4 (toNat_of sh mm false r4)
  have hu : (F32.rounded false n 1).units = mm * 2 ^ sh := by
    unfold F32.rounded F32.units
    rw [r1]
    exact g1
  rw [hu]
  rw [Nat.one_mul] at r5 r7
  have e272 : (2 : Nat) ^ 272 = 2 ^ 124 * 2 ^ 148 := by rw [← pow_add]
  have e149 : (2 : Nat) ^ 149 = 2 * 2 ^ 148 := by rw [← pow_succ']
  rcases Nat.eq_zero_or_pos sh with h | h
  · refine ⟨0, ?_, ?_⟩
    · rw [h, pow_zero, Nat.mul_one] at r5
      rw [h, pow_zero, Nat.mul_one]
      omega
    · rw [pow_zero, Nat.mul_one, e272]
      have : 2 * 2 ^ 148 ≤ 2 ^ 124 * 2 ^ 148 := Nat.mul_le_mul_right _ (by norm_num)
      omega
  · obtain ⟨k, rfl⟩ : ∃ k, sh = k + 1 := ⟨sh - 1, by omega⟩
    have r7 := r7 h
    rw [pow_succ] at r5 r7
    refine ⟨k, ?_, ?_⟩
    · rw [pow_succ]
      generalize mm * (2 ^ k * 2) = z at *
      generalize 2 ^ k = w at *
      omega
    · have hk : k ≤ 124 := by
        by_contra hne
        have h1 : 2 ^ 125 ≤ 2 ^ k := Nat.pow_le_pow_right (by omega) (by omega)
        have h2 : (2 : Nat) ^ 149 = 2 ^ 24 * 2 ^ 125 := by rw [← pow_add]
        have h3 : n < 2 ^ 24 * 2 ^ 125 := by rw [← h2]; omega
        have h4 : 2 ^ 24 * 2 ^ 125 ≤ 2 ^ 23 * (2 ^ k * 2) := by
          rw [show 2 ^ 23 * (2 ^ k * 2) = 2 ^ 24 * 2 ^ k by ring]
          exact Nat.mul_le_mul_left _ h1
        exact absurd (lt_of_lt_of_le h3 (le_trans h4 r7)) (lt_irrefl _)
      rw [e272]
      rcases Nat.lt_or_ge k 124 with hlt | hge
      · have h1 : 2 ^ k ≤ 2 ^ 123 := Nat.pow_le_pow_right (by omega) (by omega)
        calc s.units * 2 ^ k ≤ 2 ^ 149 * 2 ^ 123 := Nat.mul_le_mul hsu.2.le h1
          _ = 2 ^ 124 * 2 ^ 148 := by rw [← pow_add, ← pow_add]
      · have hk : k = 124 := by omega
        subst hk
        have h2 : (2 : Nat) ^ 148 = 2 ^ 24 * 2 ^ 124 := by rw [← pow_add]
        have h3 : s.units ≤ 2 ^ 148 := by
          rw [e149] at hn149
          generalize (2 : Nat) ^ 148 = x at *
          generalize (2 : Nat) ^ 124 = v at *
          omega
        rw [Nat.mul_comm]
        exact Nat.mul_le_mul_left _ h3

theorem val_mul_nonneg (a b : F32) (ha : Rounding.Finite a) (hb : Rounding.Finite b) (h : (neg a.bits != neg b.bits) = false) :
    a * b = F32.rounded false (a.units * b.units) (2 ^ 149) := by
  show F32.mul a b = _
  obtain ⟨a1, a2⟩ := finite_not a ha
  obtain ⟨b1, b2⟩ := finite_not b hb
  unfold F32.mul
  rw [a1, a2, b1, b2, h]
  simp only [Bool.or_self, Bool.false_eq_true, if_false]

/-- `s * (1.f - s)` is at most 1/4 in floats, too. -/
theorem bump (s : F32) (hs : Num s) (h0 : 0 ≤ val s) (h1 : val s ≤ val one) : Within 0 quarter (s * (one - s)) := by
  rw [within_iff _ _ _ num_zero (by decide)]
  obtain ⟨c1, c2, c3⟩ := complement s hs h0 h1
  have fs : Rounding.Finite s := finite_of_le s one hs finite_one (by
    have e1 := units_val s h0
    have e2 := units_val one one_pos.le
    omega)
  have fc : Rounding.Finite (one - s) := finite_of_le _ one c1 finite_one (by
    have e1 := units_val _ c2
    have e2 := units_val one one_pos.le
    omega)
  by_cases hz : s.units = 0 ∨ (one - s).units = 0
  · obtain ⟨a1, a2⟩ := finite_not s fs
    obtain ⟨b1, b2⟩ := finite_not _ fc
    have e : s * (one - s) = F32.rounded (neg s.bits != neg (one - s).bits) (F32.units 0 * 2 ^ 149) (2 ^ 149) := by
      show F32.mul s (one - s) = _
      unfold F32.mul
      rw [a1, a2, b1, b2]
      simp only [Bool.or_self, Bool.false_eq_true, if_false]
      have : s.units * (one - s).units = F32.units 0 * 2 ^ 149 := by
        rw [show F32.units 0 = 0 by decide, Nat.zero_mul]
        rcases hz with h | h <;> rw [h] <;> simp
      rw [this]
    obtain ⟨g1, g2, g3⟩ := rounded_exact (neg s.bits != neg (one - s).bits) 0 (by decide) (2 ^ 149) (Nat.two_pow_pos _)
    have hv : val (s * (one - s)) = 0 := by
      rw [e, val_units, g2, show F32.units 0 = 0 by decide]
      simp
    rw [hv]
    exact ⟨by rw [e]; exact rounded_num _ _ _, by rw [val_zero], by decide +kernel⟩
  · have hs0 : 0 < val s := by
      have := units_val s h0
      omega
    have hc0 : 0 < val (one - s) := by
      have := units_val _ c2
      omega
    have hs1 : val s < val one := by
      rcases lt_or_eq_of_le h1 with h | h
      · exact h
      · exfalso
        have g := sub_anti one one s finite_one num_one hs h.ge
        have e2 : val (one - one) = 0 := by decide +kernel
        omega
    have sign : ∀ a : F32, 0 < val a → neg a.bits = false := by
      intro a ha
      have e := val_units a
      split at e
      · omega
      · rename_i h; simpa using h
    rw [val_mul_nonneg s _ fs fc (by rw [sign s hs0, sign _ hc0]; rfl)]
    obtain ⟨k, k1, k2⟩ := complement_near s hs hs0 hs1
    refine ⟨rounded_num _ _ _, by rw [val_zero, val_units, rounded_neg]; simp, ?_⟩
    have hb : s.units * (one - s).units ≤ 2 ^ 296 + 2 ^ 272 := by
      have h1 : s.units * (one - s).units ≤ s.units * (2 ^ 149 - s.units) + s.units * 2 ^ k := by
        rw [← Nat.mul_add]; exact Nat.mul_le_mul_left _ k1
      have h2 : s.units * (2 ^ 149 - s.units) ≤ 2 ^ 296 := by
        have e : (2 : Nat) ^ 296 = 2 ^ 148 * 2 ^ 148 := by rw [← pow_add]
        have e' : (2 : Nat) ^ 149 = 2 ^ 148 + 2 ^ 148 := by rw [← two_mul, ← pow_succ']
        rw [e, e']
        generalize (2 : Nat) ^ 148 = q
        rcases Nat.le_total s.units (q + q) with h | h
        · obtain ⟨d, hd⟩ := Nat.exists_eq_add_of_le h
          have : q + q - s.units = d := by omega
          rw [this]
          have hq : (q : Int) + q = s.units + d := by exact_mod_cast hd
          have : (s.units : Int) * d ≤ q * q := by nlinarith [sq_nonneg ((s.units : Int) - d)]
          exact_mod_cast this
        · rw [Nat.sub_eq_zero_of_le h]; simp
      omega
    have hm := rounded_mono false false (s.units * (one - s).units) (2 ^ 149) (2 ^ 296 + 2 ^ 272) (2 ^ 149) (Nat.two_pow_pos _) (Nat.two_pow_pos _)
      (Nat.mul_le_mul_right _ hb)
    have hq : (F32.rounded false (2 ^ 296 + 2 ^ 272) (2 ^ 149)).units = F32.units quarter := by decide +kernel
    rw [hq] at hm
    rw [val_units, rounded_neg, units_val quarter (by decide +kernel)]
    simp only [Bool.false_eq_true, if_false]
    exact_mod_cast hm

/-- `1 - th * th` -/
theorem arch (t : F32) (ht : Num t) (h0 : val minusOne ≤ val t) (h1 : val t ≤ val one) : Within 0 one (one - t * t) := by
  rw [within_iff _ _ _ num_zero num_one]
  have hu : t.units ≤ F32.units one := by
    have e1 := val_units t
    have e2 := units_val one one_pos.le
    rw [val_minusOne] at h0
    split at e1 <;> omega
  have ft : Rounding.Finite t := finite_of_le t one ht finite_one hu
  have e := val_mul_nonneg t t ft ft (by simp)
  have hv : 0 ≤ val (t * t) := by rw [e, val_units, rounded_neg]; simp
  have hn : Num (t * t) := by rw [e]; exact rounded_num _ _ _
  have hle : val (t * t) ≤ val one := by
    rw [units_val _ hv, units_val one one_pos.le, e]
    have := rounded_le false (t.units * t.units) (2 ^ 149) (Nat.two_pow_pos _) one finite_one (by
      calc t.units * t.units ≤ F32.units one * F32.units one := Nat.mul_le_mul hu hu
        _ = F32.units one * 2 ^ 149 := by rw [units_one])
    exact_mod_cast this
  obtain ⟨c1, c2, c3⟩ := complement (t * t) hn hv hle
  exact ⟨c1, by rw [val_zero]; exact c2, c3⟩

/-! ### The approximated sigmoid -/

theorem approx_quotient (x : F32) (hx : Rounding.Finite x) :
    Num (x / (one + x.abs)) ∧ val minusOne ≤ val (x / (one + x.abs)) ∧ val (x / (one + x.abs)) ≤ val one := by
  obtain ⟨a1, a2, a3, a4⟩ := abs_facts x
  have fa := a4.mpr hx
  have ha : val x.abs = x.units := by rw [val_units, a1, a2]; simp
  obtain ⟨d1, -, -, d4⟩ := add_facts one x.abs finite_one (finite_num _ fa)
  have hsum : val one + val x.abs = ((2 ^ 149 + x.units : Nat) : Int) := by rw [val_one, ha]; push_cast; ring
  have hne : val one + val x.abs ≠ 0 := by
    have := one_pos
    rw [ha]
    omega
  have d4 := d4 (finite_not _ fa).2 hne
  rw [hsum, Int.natAbs_natCast, show decide (((2 ^ 149 + x.units : Nat) : Int) < 0) = false from by
    rw [decide_eq_false_iff_not]; exact not_lt.mpr (Int.natCast_nonneg _)] at d4
  have hD : x.units ≤ (one + x.abs).units := by
    rw [d4, ← a2]
    exact le_rounded false _ 1 (by omega) x.abs fa (by omega)
  have hD1 : F32.units one ≤ (one + x.abs).units := by
    rw [d4]
    exact le_rounded false _ 1 (by omega) one finite_one (by rw [units_one]; omega)
  have hdn : neg (one + x.abs).bits = false := by rw [d4]; exact rounded_neg _ _ _
  obtain ⟨x1, x2⟩ := finite_not x hx
  clear d4 hsum hne
  generalize one + x.abs = D at *
  have hD0 : 0 < D.units := by
    rw [units_one] at hD1
    have := Nat.two_pow_pos 149
    omega
  have key : Num (x / D) ∧ (x / D).units ≤ F32.units one := by
    show Num (F32.div x D) ∧ (F32.div x D).units ≤ _
    rcases num_cases D d1 with ⟨hf, hi⟩ | ⟨hi, hu⟩
    · have e : F32.div x D = F32.rounded (neg x.bits != false) (x.units * 2 ^ 149) D.units := by
        unfold F32.div
        rw [x1, x2, show isNaN D.bits = false from d1, hi, hdn]
        simp only [Bool.or_self, Bool.false_eq_true, if_false]
        rw [if_neg (by omega)]
      rw [e]
      refine ⟨rounded_num _ _ _, rounded_le _ _ _ hD0 one finite_one ?_⟩
      rw [units_one, Nat.mul_comm]
      exact Nat.mul_le_mul_left _ hD
    · have e : F32.div x D = ⟨if neg x.bits then 0x80000000#32 else 0#32⟩ := by
        unfold F32.div
        rw [x1, x2, show isNaN D.bits = false from d1, hi, hdn]
        simp only [Bool.or_self, Bool.false_eq_true, if_false, if_true, Bool.bne_false]
      rw [e]
      cases neg x.bits
      · exact ⟨by decide, by decide +kernel⟩
      · exact ⟨by decide, by decide +kernel⟩
  refine ⟨key.1, ?_⟩
  have e1 := val_units (x / D)
  have e2 := units_val one one_pos.le
  rw [val_minusOne]
  have := key.2
  split at e1 <;> omega

theorem approx_range (x : F32) (hx : Rounding.Finite x) :
    Num (half * (x / (one + x.abs) + one)) ∧ 0 ≤ val (half * (x / (one + x.abs) + one)) ∧ val (half * (x / (one + x.abs) + one)) ≤ val one := by
  obtain ⟨q1, q2, q3⟩ := approx_quotient x hx
  generalize x / (one + x.abs) = q at *
  have fq : Rounding.Finite q := finite_of_le q one q1 finite_one (by
    have e1 := val_units q
    have e2 := units_val one one_pos.le
    rw [val_minusOne] at q2
    split at e1 <;> omega)
  rw [add_comm_finite q one fq finite_one]
  have s1 := (add_facts one q finite_one q1).1
  have l := add_mono one minusOne q finite_one num_minusOne q1 q2
  have u := add_mono one q one finite_one q1 num_one q3
  have hn : neg half.bits = false := by decide
  have hp : 0 < half.units := by decide +kernel
  have n0 : Num (one + minusOne) := by decide +kernel
  have n2 : Num (one + one) := by decide +kernel
  have hf : Rounding.Finite half := by decide
  have l' := mul_mono half (one + minusOne) (one + q) hf hn hp n0 s1 l
  have u' := mul_mono half (one + q) (one + one) hf hn hp s1 n2 u
  have e0 : val (half * (one + minusOne)) = 0 := by decide +kernel
  have e1 : val (half * (one + one)) = val one := by decide +kernel
  rw [e0] at l'
  rw [e1] at u'
  exact ⟨(mul_pos_facts half _ hf hn hp s1).1, l', u'⟩

/-! ### The approximated hyperbolic tangent -/

theorem two_facts : Rounding.Finite two ∧ neg two.bits = false ∧ 0 < two.units := by decide +kernel

theorem minus_one_sub (z : F32) : z - one = z + minusOne := by
  show F32.add z (F32.negate one) = F32.add z minusOne
  rw [show F32.negate one = minusOne by decide]

theorem tanhApprox_eq (s : F32) (hs : Num s) (h0 : 0 ≤ val s) (h1 : val s ≤ val one) :
    Rounding.Finite (two * s) ∧ two * s - one = minusOne + two * s := by
  obtain ⟨t1, t2, t3⟩ := two_facts
  have f := mul_pos_facts two s t1 t2 t3 hs
  have u := mul_mono two s one t1 t2 t3 hs num_one h1
  have l := mul_mono two 0 s t1 t2 t3 num_zero hs (by rw [val_zero]; exact h0)
  have e1 : val (two * one) = val two := by decide +kernel
  have e0 : val (two * 0) = 0 := by decide +kernel
  rw [e1] at u
  rw [e0] at l
  have ff : Rounding.Finite (two * s) := finite_of_le _ two f.1 t1 (by
    have a1 := units_val _ l
    have a2 := units_val two (by decide +kernel)
    omega)
  exact ⟨ff, by rw [minus_one_sub, add_comm_finite _ _ ff (by decide)]⟩

theorem tanhApprox_range (s : F32) (hs : Num s) (h0 : 0 ≤ val s) (h1 : val s ≤ val one) :
    Num (two * s - one) ∧ val minusOne ≤ val (two * s - one) ∧ val (two * s - one) ≤ val one := by
  obtain ⟨ff, e⟩ := tanhApprox_eq s hs h0 h1
  obtain ⟨t1, t2, t3⟩ := two_facts
  rw [e]
  have u := mul_mono two s one t1 t2 t3 hs num_one h1
  have l := mul_mono two 0 s t1 t2 t3 num_zero hs (by rw [val_zero]; exact h0)
  have fm : Rounding.Finite minusOne := by decide
  have u' := add_mono minusOne _ _ fm (finite_num _ ff) (by decide +kernel) u
  have l' := add_mono minusOne _ _ fm (by decide +kernel) (finite_num _ ff) l
  have e1 : val (minusOne + two * one) = val one := by decide +kernel
  have e0 : val (minusOne + two * 0) = val minusOne := by decide +kernel
  rw [e1] at u'
  rw [e0] at l'
  exact ⟨(add_facts minusOne _ fm (finite_num _ ff)).1, l', u'⟩

theorem tanhApprox_mono (s t : F32) (hs : Num s) (ht : Num t) (h0 : 0 ≤ val s) (h : val s ≤ val t) (h1 : val t ≤ val one) :
    val (two * s - one) ≤ val (two * t - one) := by
  obtain ⟨fs, es⟩ := tanhApprox_eq s hs h0 (le_trans h h1)
  obtain ⟨ft, et⟩ := tanhApprox_eq t ht (le_trans h0 h) h1
  obtain ⟨t1, t2, t3⟩ := two_facts
  rw [es, et]
  exact add_mono minusOne _ _ (by decide) (finite_num _ fs) (finite_num _ ft) (mul_mono two s t t1 t2 t3 hs ht h)

/-! ### The leaky rectifier -/

theorem val_real (a b : F32) (h : real a = real b) : val a = val b := by
  unfold real at h
  have := (div_left_inj' (show (2 : ℝ) ^ 149 ≠ 0 by positivity)).mp h
  exact_mod_cast this

theorem leaky_facts (m : Libm) (x : F32) (hx : Rounding.Finite x) :
    Rounding.Finite (hundredth * x) ∧ Rounding.Finite (Act.leaky.value m x) ∧ (val x < 0 → val (Act.leaky.value m x) = val (hundredth * x)) ∧
      (0 ≤ val x → val (Act.leaky.value m x) = val x) := by
  have hh : Rounding.Finite hundredth ∧ neg hundredth.bits = false ∧ 0 < hundredth.units := by decide +kernel
  have hp := mul_pos_facts hundredth x hh.1 hh.2.1 hh.2.2 (finite_num _ hx)
  have fp : Rounding.Finite (hundredth * x) := finite_of_le _ x hp.1 hx (by
    rw [hp.2.2.1 (finite_not x hx).2]
    refine rounded_le _ _ _ (Nat.two_pow_pos _) x hx ?_
    rw [Nat.mul_comm]
    exact Nat.mul_le_mul_left _ (by decide +kernel))
  obtain ⟨o1, o2⟩ := one_mul_real (hundredth * x) fp
  obtain ⟨o3, o4⟩ := one_mul_real x hx
  obtain ⟨z1, z2⟩ := zero_mul_real (hundredth * x) fp
  obtain ⟨z3, z4⟩ := zero_mul_real x hx
  have e : Act.leaky.value m x = F32.flag (F32.lt x 0) * (hundredth * x) + F32.flag (F32.ge x 0) * x := rfl
  refine ⟨fp, ?_⟩
  rw [e]
  by_cases h : val x < 0
  · have h1 : F32.lt x 0 = true := (lt_iff _ _).mpr ⟨finite_num _ hx, num_zero, by rw [val_zero]; exact h⟩
    have h2 : F32.ge x 0 = false := by
      rw [Bool.eq_false_iff]
      intro hge
      have := (ge_iff _ _).mp hge
      rw [val_zero] at this
      omega
    rw [h1, h2]
    obtain ⟨q5, q6⟩ := add_exact _ _ (hundredth * x) o1 z3 fp (by rw [o2, z4, add_zero])
    exact ⟨q5, fun _ => val_real _ _ q6, fun h' => by omega⟩
  · have h1 : F32.lt x 0 = false := by
      rw [Bool.eq_false_iff]
      intro hlt
      have := (lt_iff _ _).mp hlt
      rw [val_zero] at this
      omega
    have h2 : F32.ge x 0 = true := (ge_iff _ _).mpr ⟨finite_num _ hx, num_zero, by rw [val_zero]; omega⟩
    rw [h1, h2]
    obtain ⟨q5, q6⟩ := add_exact _ _ x z1 o3 hx (by rw [o4, z2, zero_add])
    exact ⟨q5, fun h' => by omega, fun _ => val_real _ _ q6⟩

theorem leaky_mono (m : Libm) (x y : F32) (hx : Rounding.Finite x) (hy : Rounding.Finite y) (h : val x ≤ val y) :
    val (Act.leaky.value m x) ≤ val (Act.leaky.value m y) := by
  obtain ⟨x0, x1, x2, x3⟩ := leaky_facts m x hx
  obtain ⟨y0, y1, y2, y3⟩ := leaky_facts m y hy
  have hh : Rounding.Finite hundredth ∧ neg hundredth.bits = false ∧ 0 < hundredth.units := by decide +kernel
  by_cases hn : val x < 0
  · rw [x2 hn]
    by_cases hm : val y < 0
    · rw [y2 hm]
      exact mul_mono _ x y hh.1 hh.2.1 hh.2.2 (finite_num _ hx) (finite_num _ hy) h
    · rw [y3 (by omega)]
      have := mul_mono _ x 0 hh.1 hh.2.1 hh.2.2 (finite_num _ hx) num_zero (by rw [val_zero]; omega)
      have e : val (hundredth * 0) = 0 := by decide +kernel
      omega
  · rw [x3 (by omega), y3 (by omega)]
    exact h

theorem val_inj (a b : F32) (h : val a = val b) (h0 : 0 < val b) : a = b := by
  have ha := val_units a
  have hb := val_units b
  have hu : a.units = b.units := by split at ha <;> split at hb <;> omega
  have hn : neg a.bits = false ∧ neg b.bits = false := by
    constructor
    · split at ha
      · omega
      · rename_i h; simpa using h
    · split at hb
      · omega
      · rename_i h; simpa using h
  rw [units_pattern, units_pattern] at hu
  have hm := pattern_strict.injective hu
  unfold neg at hn
  unfold mag at hm
  simp only [decide_eq_false_iff_not, not_le] at hn
  cases a
  cases b
  congr 1
  apply BitVec.eq_of_toNat_eq
  simp only at *
  omega

end Verif.FloatActivation
