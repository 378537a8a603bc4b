import Verif.Lemmas.FloatActivation
import Verif.Spec.FloatLoss

/-!
The cross-entropy losses on 32-bit floats.
-/
namespace Verif.FloatLoss
open FloatBits Rounding FloatOrder FloatActivation

theorem upper_one : upper = one := by decide +kernel

theorem finite_within (l h a : F32) (hl : Rounding.Finite l) (hh : Rounding.Finite h) (ha : Within l h a) : Rounding.Finite a := by
  obtain ⟨h1, h2, h3⟩ := (within_iff _ _ _ (finite_num _ hl) (finite_num _ hh)).mp ha
  rcases num_cases a h1 with ⟨hf, -⟩ | ⟨-, hu⟩
  · exact hf
  · have g1 := finite_lt l hl
    have g2 := finite_lt h hh
    have e1 := val_units l
    have e2 := val_units h
    have e3 := val_units a
    rw [hu] at e3
    generalize pattern 0x7F800000 = p at *
    exfalso
    split at e1 <;> split at e2 <;> split at e3 <;> omega

theorem clamp_facts (v : F32) (hv : Num v) : Within epsilon one (clamp v epsilon upper) ∧
    (val epsilon ≤ val v → val v ≤ val one → clamp v epsilon upper = v) := by
  have he : Num epsilon := by decide
  have h1 : val epsilon ≤ val one := by decide +kernel
  unfold clamp
  rw [upper_one, within_iff _ _ _ he num_one]
  by_cases hlt : F32.lt v epsilon = true
  · rw [if_pos hlt]
    have := ((lt_iff _ _).mp hlt).2.2
    exact ⟨⟨he, le_refl _, h1⟩, fun h => by omega⟩
  · have hge : val epsilon ≤ val v := by
      by_contra hne
      exact hlt ((lt_iff _ _).mpr ⟨hv, he, not_le.mp hne⟩)
    rw [if_neg hlt]
    by_cases hgt : F32.lt one v = true
    · rw [if_pos hgt]
      have := ((lt_iff _ _).mp hgt).2.2
      exact ⟨⟨num_one, h1, le_refl _⟩, fun _ h => by omega⟩
    · have hle : val v ≤ val one := by
        by_contra hne
        exact hgt ((lt_iff _ _).mpr ⟨num_one, hv, not_le.mp hne⟩)
      rw [if_neg hgt]
      exact ⟨⟨hv, hge, hle⟩, fun _ _ => rfl⟩

theorem limited_eq (v : F32) (hv : Num v) : limited v = clamp v epsilon upper := by
  have he : Num epsilon := by decide
  have h1 : val epsilon ≤ val one := by decide +kernel
  have hpos : 0 < val one := one_pos
  unfold limited
  rw [show (⟨0x322BCC77#32⟩ : F32) = epsilon from rfl]
  by_cases hge : F32.ge v one = true
  · rw [if_pos hge]
    have := ((ge_iff _ _).mp hge).2.2
    unfold clamp
    rw [upper_one, if_neg (fun h => by have := ((lt_iff _ _).mp h).2.2; omega)]
    by_cases hlt : F32.lt one v = true
    · rw [if_pos hlt]
    · rw [if_neg hlt]
      have hle : val v ≤ val one := by
        by_contra hne
        exact hlt ((lt_iff _ _).mpr ⟨num_one, hv, not_le.mp hne⟩)
      exact (val_inj _ _ (by omega) hpos).symm
  · rw [if_neg hge]
    have hlt : val v < val one := by
      by_contra hne
      exact hge ((ge_iff _ _).mpr ⟨hv, num_one, not_lt.mp hne⟩)
    by_cases h : F32.ge v epsilon = true
    · rw [if_pos h]
      exact ((clamp_facts v hv).2 ((ge_iff _ _).mp h).2.2 hlt.le).symm
    · rw [if_neg h]
      have : F32.lt v epsilon = true := by
        refine (lt_iff _ _).mpr ⟨hv, he, ?_⟩
        by_contra hne
        exact h ((ge_iff _ _).mpr ⟨hv, he, not_lt.mp hne⟩)
      unfold clamp
      rw [if_pos this]

theorem clamp_mono (v w : F32) (hv : Num v) (hw : Num w) (h : val v ≤ val w) : val (clamp v epsilon upper) ≤ val (clamp w epsilon upper) := by
  have he : Num epsilon := by decide
  obtain ⟨v1, v2, v3⟩ := (within_iff _ _ _ he num_one).mp (clamp_facts v hv).1
  obtain ⟨w1, w2, w3⟩ := (within_iff _ _ _ he num_one).mp (clamp_facts w hw).1
  by_cases hlt : F32.lt v epsilon = true
  · have e : clamp v epsilon upper = epsilon := by unfold clamp; rw [if_pos hlt]
    rw [e]
    exact w2
  · have hge : val epsilon ≤ val v := by
      by_contra hne
      exact hlt ((lt_iff _ _).mpr ⟨hv, he, not_le.mp hne⟩)
    by_cases hgt : val w ≤ val one
    · rw [(clamp_facts v hv).2 hge (le_trans h hgt), (clamp_facts w hw).2 (le_trans hge h) hgt]
      exact h
    · have hl : F32.lt w epsilon = false := by
        rw [Bool.eq_false_iff]
        intro hl
        have := ((lt_iff _ _).mp hl).2.2
        omega
      have hg : F32.lt one w = true := (lt_iff _ _).mpr ⟨num_one, hw, not_le.mp hgt⟩
      have e : clamp w epsilon upper = one := by unfold clamp; rw [hl, upper_one, hg]; rfl
      rw [e]
      exact v3

theorem clamp_clamp (v : F32) (hv : Num v) : clamp (clamp v epsilon upper) epsilon upper = clamp v epsilon upper := by
  have he : Num epsilon := by decide
  obtain ⟨v1, v2, v3⟩ := (within_iff _ _ _ he num_one).mp (clamp_facts v hv).1
  exact (clamp_facts _ v1).2 v2 v3

/-- The logarithm of the clipped number. -/
theorem log_facts (log : F32 → F32) (hl : SoundLog log) (v : F32) (hv : Num v) :
    logView log (clamp v epsilon upper) = log (clamp v epsilon upper) ∧ Num (log (clamp v epsilon upper)) ∧
      val minusNineteen ≤ val (log (clamp v epsilon upper)) ∧ val (log (clamp v epsilon upper)) ≤ 0 ∧ Rounding.Finite (log (clamp v epsilon upper)) := by
  have hw := hl.range _ (clamp_facts v hv).1
  obtain ⟨h1, h2, h3⟩ := (within_iff _ _ _ (by decide) num_zero).mp hw
  refine ⟨by unfold logView; rw [clamp_clamp v hv], h1, h2, by rw [val_zero] at h3; exact h3, finite_within _ _ _ (by decide) (by decide) hw⟩

theorem log_mono (log : F32 → F32) (hl : SoundLog log) (v w : F32) (hv : Num v) (hw : Num w) (h : val v ≤ val w) :
    val (log (clamp v epsilon upper)) ≤ val (log (clamp w epsilon upper)) := by
  have he : Num epsilon := by decide
  have v1 := (clamp_facts v hv).1
  have w1 := (clamp_facts w hw).1
  have vn := ((within_iff _ _ _ he num_one).mp v1).1
  have wn := ((within_iff _ _ _ he num_one).mp w1).1
  exact ((ge_iff _ _).mp (hl.order _ _ v1 w1 ((ge_iff _ _).mpr ⟨wn, vn, clamp_mono v w hv hw h⟩))).2.2

/-! ### Products and sums -/

theorem mul_facts (a l : F32) (ha : Rounding.Finite a) (hl : Rounding.Finite l) :
    a * l = F32.rounded (neg a.bits != neg l.bits) (a.units * l.units) (2 ^ 149) := by
  show F32.mul a l = _
  obtain ⟨a1, a2⟩ := finite_not a ha
  obtain ⟨b1, b2⟩ := finite_not l hl
  unfold F32.mul
  rw [a1, a2, b1, b2]
  simp only [Bool.or_self, Bool.false_eq_true, if_false]

theorem mul_zero_val (a l : F32) (ha : Rounding.Finite a) (hl : Rounding.Finite l) (h : a.units = 0 ∨ l.units = 0) : val (a * l) = 0 := by
  have hz : a.units * l.units = F32.units 0 * 2 ^ 149 := by
    rw [show F32.units 0 = 0 by decide, Nat.zero_mul]
    rcases h with h | h <;> rw [h] <;> simp
  rw [mul_facts a l ha hl, hz, val_units, (rounded_exact _ 0 (by decide) (2 ^ 149) (Nat.two_pow_pos _)).2.1, show F32.units 0 = 0 by decide]
  simp

theorem mul_one_val (l : F32) (hl : Rounding.Finite l) : Rounding.Finite (one * l) ∧ val (one * l) = val l := by
  have o3 : neg one.bits = false := by decide
  rw [mul_facts one l finite_one hl, units_one, o3, Nat.mul_comm]
  obtain ⟨g1, g2, g3⟩ := rounded_exact (false != neg l.bits) l hl (2 ^ 149) (Nat.two_pow_pos _)
  refine ⟨g1, ?_⟩
  rw [val_units, g2, g3, val_units l]
  cases neg l.bits <;> simp

/-- A number from 0 to 1 times a number from `-q` to 0. -/
theorem mul_range (a l q : F32) (ha : Within 0 one a) (hl : Rounding.Finite l) (hq : Rounding.Finite q) (h0 : val l ≤ 0) (h1 : l.units ≤ q.units) :
    Rounding.Finite (a * l) ∧ -(q.units : Int) ≤ val (a * l) ∧ val (a * l) ≤ 0 := by
  obtain ⟨a1, a2, a3⟩ := (within_iff _ _ _ num_zero num_one).mp ha
  rw [val_zero] at a2
  have fa := finite_within _ _ _ (by decide) finite_one ha
  have hau : a.units ≤ F32.units one := by
    have e1 := units_val a a2
    have e2 := units_val one one_pos.le
    omega
  have e := mul_facts a l fa hl
  have hu : (a * l).units ≤ q.units := by
    rw [e]
    refine rounded_le _ _ _ (Nat.two_pow_pos _) q hq ?_
    rw [Nat.mul_comm, ← units_one]
    exact Nat.mul_le_mul h1 hau
  have hn : Num (a * l) := by rw [e]; exact rounded_num _ _ _
  refine ⟨finite_of_le _ q hn hq hu, ?_⟩
  by_cases hz : a.units = 0 ∨ l.units = 0
  · rw [mul_zero_val a l fa hl hz]
    omega
  · have na : neg a.bits = false := by
      have e1 := val_units a
      split at e1
      · omega
      · rename_i h; simpa using h
    have nl : neg l.bits = true := by
      have e1 := val_units l
      split at e1
      · assumption
      · omega
    have hneg : neg (a * l).bits = true := by rw [e, rounded_neg, na, nl]; rfl
    rw [val_units, hneg]
    simp only [if_true]
    omega

/-- A number from -1 to 0 times a number from `-q` to 0. -/
theorem mul_range_neg (b l q : F32) (hb : Rounding.Finite b) (hl : Rounding.Finite l) (hq : Rounding.Finite q) (hb0 : val b ≤ 0)
    (hb1 : b.units ≤ F32.units one) (h0 : val l ≤ 0) (h1 : l.units ≤ q.units) :
    Num (b * l) ∧ 0 ≤ val (b * l) ∧ val (b * l) ≤ q.units := by
  have e := mul_facts b l hb hl
  have hu : (b * l).units ≤ q.units := by
    rw [e]
    refine rounded_le _ _ _ (Nat.two_pow_pos _) q hq ?_
    rw [Nat.mul_comm, ← units_one]
    exact Nat.mul_le_mul h1 hb1
  have hn : Num (b * l) := by rw [e]; exact rounded_num _ _ _
  refine ⟨hn, ?_⟩
  by_cases hz : b.units = 0 ∨ l.units = 0
  · rw [mul_zero_val b l hb hl hz]
    omega
  · have nb : neg b.bits = true := by
      have e1 := val_units b
      split at e1
      · assumption
      · omega
    have nl : neg l.bits = true := by
      have e1 := val_units l
      split at e1
      · assumption
      · omega
    have hneg : neg (b * l).bits = false := by rw [e, rounded_neg, nb, nl]; rfl
    rw [val_units, hneg]
    simp only [Bool.false_eq_true, if_false]
    omega

/-- Adding a zero. -/
theorem add_zero_val (a z : F32) (ha : Rounding.Finite a) (hz : Rounding.Finite z) (h : val z = 0) : Rounding.Finite (a + z) ∧ val (a + z) = val a := by
  have e : real a + real z = real a := by
    unfold real
    rw [show value z.bits = 0 from h]
    simp
  obtain ⟨g1, g2⟩ := add_exact a z a ha hz ha e
  exact ⟨g1, val_real _ _ g2⟩

theorem zero_add_val (a z : F32) (ha : Rounding.Finite a) (hz : Rounding.Finite z) (h : val z = 0) : Rounding.Finite (z + a) ∧ val (z + a) = val a := by
  rw [add_comm_finite z a hz ha]
  exact add_zero_val a z ha hz h

/-- A sum of two numbers from -19 to 0. -/
theorem sum_range (a b : F32) (ha : Rounding.Finite a) (hb : Rounding.Finite b) (a1 : val minusNineteen ≤ val a) (a2 : val a ≤ 0)
    (b1 : val minusNineteen ≤ val b) (b2 : val b ≤ 0) : Num (a + b) ∧ val (a + b) ≤ 0 ∧ -val thirtyEight ≤ val (a + b) := by
  have hm : Rounding.Finite minusNineteen := by decide
  have f0 : Rounding.Finite 0 := by decide
  refine ⟨(add_facts a b ha (finite_num _ hb)).1, ?_, ?_⟩
  · have h1 := add_mono a b 0 ha (finite_num _ hb) num_zero (by rw [val_zero]; exact b2)
    rw [(add_zero_val a 0 ha f0 val_zero).2] at h1
    omega
  · have h1 := add_mono a minusNineteen b ha (finite_num _ hm) (finite_num _ hb) b1
    rw [add_comm_finite a _ ha hm] at h1
    have h2 := add_mono minusNineteen minusNineteen a hm (finite_num _ hm) (finite_num _ ha) a1
    have e : val (minusNineteen + minusNineteen) = -val thirtyEight := by decide +kernel
    omega

/-! ### Division -/

theorem zero_iff (d : F32) (hd : Num d) : (F32.ge d 0 && F32.ge 0 d) = true ↔ val d = 0 := by
  rw [Bool.and_eq_true, ge_iff, ge_iff, val_zero]
  constructor
  · rintro ⟨⟨-, -, h1⟩, -, -, h2⟩; omega
  · intro h; exact ⟨⟨hd, num_zero, by omega⟩, num_zero, hd, by omega⟩

/-- The denominator used for a number from 0 to 1. -/
theorem denominator_facts (d : F32) (hd : Within 0 one d) :
    ∃ e, (∀ n, divideView n d = n / e) ∧ Rounding.Finite e ∧ 0 < val e ∧ val e ≤ val one ∧ (val d = 0 → e = epsilon) ∧ (val d ≠ 0 → e = d) := by
  obtain ⟨d1, d2, d3⟩ := (within_iff _ _ _ num_zero num_one).mp hd
  rw [val_zero] at d2
  by_cases h : val d = 0
  · refine ⟨epsilon, fun n => ?_, by decide, by decide +kernel, by decide +kernel, fun _ => rfl, fun h' => absurd h h'⟩
    unfold divideView
    rw [if_pos ((zero_iff d d1).mpr h)]
  · refine ⟨d, fun n => ?_, finite_within _ _ _ (by decide) finite_one hd, by omega, d3, fun h' => absurd h' h, fun _ => rfl⟩
    unfold divideView
    rw [if_neg (fun hc => h ((zero_iff d d1).mp hc))]

theorem div_one_facts (e : F32) (he : Rounding.Finite e) (h0 : 0 < val e) (h1 : val e ≤ val one) :
    one / e = F32.rounded false (2 ^ 149 * 2 ^ 149) e.units ∧ Num (one / e) ∧ val one ≤ val (one / e) := by
  obtain ⟨e1, e2⟩ := finite_not e he
  have o1 : isNaN one.bits = false := by decide
  have o2 : isInf one.bits = false := by decide
  have o3 : neg one.bits = false := by decide
  have hn : neg e.bits = false := by
    have hv := val_units e
    split at hv
    · omega
    · rename_i h; simpa using h
  have hu : val e = e.units := units_val e h0.le
  have hu0 : 0 < e.units := by omega
  have eq : one / e = F32.rounded false (2 ^ 149 * 2 ^ 149) e.units := by
    show F32.div one e = _
    unfold F32.div
    rw [o1, o2, o3, e1, e2, hn, units_one]
    simp only [Bool.or_self, Bool.false_eq_true, if_false, bne_self_eq_false]
    rw [if_neg (by omega)]
  refine ⟨eq, by rw [eq]; exact rounded_num _ _ _, ?_⟩
  rw [eq, val_units (F32.rounded _ _ _), rounded_neg, units_val one one_pos.le]
  simp only [Bool.false_eq_true, if_false]
  have := le_rounded false (2 ^ 149 * 2 ^ 149) e.units hu0 one finite_one (by
    rw [units_one]
    refine Nat.mul_le_mul_left _ ?_
    rw [← units_one]
    have := units_val one one_pos.le
    omega)
  exact_mod_cast this

theorem div_zero_facts (z e : F32) (hz : Rounding.Finite z) (h : val z = 0) (he : Rounding.Finite e) (h0 : 0 < val e) :
    Rounding.Finite (z / e) ∧ val (z / e) = 0 := by
  obtain ⟨e1, e2⟩ := finite_not e he
  obtain ⟨z1, z2⟩ := finite_not z hz
  have hzu : z.units = 0 := by have := val_abs z; rw [h] at this; exact this.symm
  have hu0 : 0 < e.units := by
    have := units_val e h0.le
    omega
  have eq : z / e = F32.rounded (neg z.bits != neg e.bits) (F32.units 0 * e.units) e.units := by
    show F32.div z e = _
    unfold F32.div
    rw [z1, z2, e1, e2, hzu]
    simp only [Bool.or_self, Bool.false_eq_true, if_false]
    rw [if_neg (by omega), show F32.units 0 = 0 by decide, Nat.zero_mul, Nat.zero_mul]
  obtain ⟨g1, g2, g3⟩ := rounded_exact (neg z.bits != neg e.bits) 0 (by decide) e.units hu0
  rw [eq]
  refine ⟨g1, ?_⟩
  rw [val_units, g2, show F32.units 0 = 0 by decide]
  simp

/-- Subtracting a zero from any number. -/
theorem sub_zero_val (a z : F32) (ha : Num a) (hz : Rounding.Finite z) (h : val z = 0) : Num (a - z) ∧ val (a - z) = val a := by
  have fz := (negate_finite z).mpr hz
  have vz : val (F32.negate z) = 0 := by rw [negate_val, h]; rfl
  rcases num_cases a ha with ⟨hf, -⟩ | ⟨hi, -⟩
  · obtain ⟨g1, g2⟩ := add_zero_val a (F32.negate z) hf fz vz
    exact ⟨finite_num _ g1, g2⟩
  · have e : a - z = a := by
      show F32.add a (F32.negate z) = a
      unfold F32.add
      obtain ⟨n1, n2⟩ := finite_not _ fz
      rw [show isNaN a.bits = false from ha, hi, n1, n2]
      simp only [Bool.or_self, Bool.false_eq_true, if_false, if_true, Bool.false_and]
    rw [e]
    exact ⟨ha, rfl⟩

theorem zero_sub_val (a z : F32) (ha : Num a) (hz : Rounding.Finite z) (h : val z = 0) : Num (z - a) ∧ val (z - a) = -val a := by
  have na := (negate_num a).mpr ha
  obtain ⟨f1, f2, -, -⟩ := add_facts z (F32.negate a) hz na
  refine ⟨f1, ?_⟩
  rw [← negate_val]
  show val (z + F32.negate a) = _
  rcases num_cases _ na with ⟨hf, -⟩ | ⟨hi, -⟩
  · exact (zero_add_val (F32.negate a) z hf hz h).2
  · rw [f2 hi]

/-! ### The derivative of the sigmoid -/

/-- The slope of a sigmoid between 0 and 1 is not rounded to 0. -/
theorem bump_pos (s : F32) (hs : Num s) (h0 : 0 < val s) (h1 : val s < val one) :
    Rounding.Finite (s * (one - s)) ∧ neg (s * (one - s)).bits = false ∧ 0 < (s * (one - s)).units ∧ (s * (one - s)).units ≤ F32.units one := by
  obtain ⟨c1, c2, c3⟩ := complement s hs h0.le h1.le
  have hv := units_val s h0.le
  have hv1 := units_val one one_pos.le
  have hc := units_val _ c2
  have fs : Rounding.Finite s := finite_of_le s one hs finite_one (by omega)
  have fc : Rounding.Finite (one - s) := finite_of_le _ one c1 finite_one (by omega)
  have hn : neg s.bits = false := by
    have e := val_units s
    split at e
    · omega
    · rename_i h; simpa using h
  -- the next float below 1
  have hle : val s ≤ val ⟨0x3F7FFFFF#32⟩ := by
    have e1 : s.units < F32.units one := by omega
    rw [units_pattern, units_pattern, pattern_strict.lt_iff_lt, show mag one.bits = 0x3F800000 by decide] at e1
    have e2 : pattern (mag s.bits) ≤ pattern 0x3F7FFFFF := pattern_strict.monotone (by omega)
    rw [hv, units_pattern, show val ⟨0x3F7FFFFF#32⟩ = (pattern 0x3F7FFFFF : Int) by decide +kernel]
    exact_mod_cast e2
  have hlow : 2 ^ 125 ≤ (one - s).units := by
    have g := sub_anti one s ⟨0x3F7FFFFF#32⟩ finite_one hs (by decide) hle
    have e : val (one - ⟨0x3F7FFFFF#32⟩) = 2 ^ 125 := by decide +kernel
    rw [e, hc] at g
    exact_mod_cast g
  have hprod : 1 * 2 ^ 149 ≤ s.units * (one - s).units := by
    by_cases h : val s ≤ val ⟨0x33000000#32⟩
    · have g := sub_anti one s ⟨0x33000000#32⟩ finite_one hs (by decide) h
      have e : val (one - ⟨0x33000000#32⟩) = val one := by decide +kernel
      rw [e, hv1, hc, units_one] at g
      refine Nat.mul_le_mul (by omega) ?_
      exact_mod_cast g
    · have e : val ⟨0x33000000#32⟩ = 2 ^ 124 := by decide +kernel
      rw [e, hv] at h
      have h2 : 2 ^ 124 ≤ s.units := by
        have : ((2 ^ 124 : Nat) : Int) < s.units := by push_cast; omega
        exact_mod_cast this.le
      refine le_trans ?_ (Nat.mul_le_mul h2 hlow)
      norm_num
  by_cases hnc : neg (one - s).bits = true
  · exfalso
    have e := val_units (one - s)
    rw [hnc] at e
    simp only [if_true] at e
    have : 0 < (one - s).units := lt_of_lt_of_le (Nat.two_pow_pos _) hlow
    omega
  rw [Bool.not_eq_true] at hnc
  have e := mul_facts s (one - s) fs fc
  rw [hn, hnc, bne_self_eq_false] at e
  have hup : (s * (one - s)).units ≤ F32.units one := by
    rw [e]
    refine rounded_le _ _ _ (Nat.two_pow_pos _) one finite_one ?_
    rw [← units_one]
    exact Nat.mul_le_mul (by omega) (by omega)
  refine ⟨?_, ?_, ?_, hup⟩
  · exact finite_of_le _ one (by rw [e]; exact rounded_num _ _ _) finite_one hup
  · rw [e, rounded_neg]
  · have h1 : F32.units ⟨1#32⟩ = 1 := by decide
    have := le_rounded false (s.units * (one - s).units) (2 ^ 149) (Nat.two_pow_pos _) ⟨1#32⟩ (by decide) (by rw [h1]; exact hprod)
    rw [h1, ← e] at this
    exact this

/-- The product of a positive slope and an error of at least 1 in absolute value. -/
theorem handed_facts (c x : F32) (hc : Rounding.Finite c) (hn : neg c.bits = false) (h0 : 0 < c.units) (h1 : c.units ≤ F32.units one) (hx : Num x)
    (hu : F32.units one ≤ x.units) :
    Num (c * x) ∧ (neg x.bits = true → val (c * x) < 0) ∧ (neg x.bits = false → 0 < val (c * x)) ∧ (Rounding.Finite x → Rounding.Finite (c * x)) := by
  obtain ⟨g1, g2, g3, g4⟩ := mul_pos_facts c x hc hn h0 hx
  have hpos : 0 < (c * x).units := by
    rcases num_cases x hx with ⟨hf, hi⟩ | ⟨hi, -⟩
    · rw [g3 hi]
      refine lt_of_lt_of_le h0 (le_rounded _ _ _ (Nat.two_pow_pos _) c hc ?_)
      rw [← units_one]
      exact Nat.mul_le_mul_left _ hu
    · rw [g4 hi]
      decide +kernel
  have hv := val_units (c * x)
  refine ⟨g1, fun h => ?_, fun h => ?_, fun hf => ?_⟩
  · rw [g2, h] at hv
    simp only [if_true] at hv
    omega
  · rw [g2, h] at hv
    simp only [Bool.false_eq_true, if_false] at hv
    omega
  · refine finite_of_le _ x g1 hf ?_
    rw [g3 (finite_not x hf).2]
    refine rounded_le _ _ _ (Nat.two_pow_pos _) x hf ?_
    rw [Nat.mul_comm, ← units_one]
    exact Nat.mul_le_mul_left _ h1

end Verif.FloatLoss
