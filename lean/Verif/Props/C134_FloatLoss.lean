import Verif.Lemmas.FloatLoss
import Verif.Props.C133_FloatActivation

/-!
C134: the cross-entropy losses on 32-bit floats. The error is a finite number that is 0 for right answers and grows with the distance from the truth, whatever
the prediction is; the derivative has the right direction, and the sigmoid below it hands it down unless it has reached 0 or 1. The exceptions: a sigmoid that
gives the worst possible answer hands down a gradient of 0, so that nothing is learned from the record, and predictions very close to 0 have an infinite
derivative.
-/
namespace Verif.FloatLoss
open FloatBits Rounding FloatOrder FloatActivation

/-- The error is a finite number, at most 38 for the binary and at most 19 for the categorical cross-entropy, also for infinite predictions. -/
theorem C134_error (log : F32 → F32) (hl : SoundLog log) (truth prediction : F32) (ht : Within 0 one truth) (hp : Number prediction) :
    Within 0 thirtyEight (binaryError log truth prediction) ∧ Within 0 nineteen (categoricalError log truth prediction) := by
  obtain ⟨t1, t2, t3⟩ := (within_iff _ _ _ num_zero num_one).mp ht
  rw [val_zero] at t2
  have ft := finite_within _ _ _ (by decide) finite_one ht
  have ht' : Within 0 one (one - truth) := by
    obtain ⟨c1, c2, c3⟩ := complement truth t1 t2 t3
    exact (within_iff _ _ _ num_zero num_one).mpr ⟨c1, by rw [val_zero]; exact c2, c3⟩
  have hq : Rounding.Finite nineteen := by decide
  have hn19 : val minusNineteen = -(nineteen.units : Int) := by decide +kernel
  have v19 : val nineteen = (nineteen.units : Int) := by decide +kernel
  have small : ∀ l : F32, val minusNineteen ≤ val l → val l ≤ 0 → l.units ≤ nineteen.units := by
    intro l h1 h2
    have := val_abs l
    omega
  obtain ⟨a0, a1, a2, a3, a4⟩ := log_facts log hl prediction hp
  obtain ⟨b0, b1, b2, b3, b4⟩ := log_facts log hl (one - prediction) (sub_num one prediction finite_one hp)
  constructor
  · unfold binaryError
    simp only
    rw [a0, b0]
    obtain ⟨p1, p2, p3⟩ := mul_range truth _ nineteen ht a4 hq a3 (small _ a2 a3)
    obtain ⟨q1, q2, q3⟩ := mul_range (one - truth) _ nineteen ht' b4 hq b3 (small _ b2 b3)
    obtain ⟨s1, s2, s3⟩ := sum_range _ _ p1 q1 (by omega) p3 (by omega) q3
    obtain ⟨m1, m2⟩ := minus _ s1
    rw [within_iff _ _ _ num_zero (by decide), val_zero]
    exact ⟨m1, by omega, by omega⟩
  · unfold categoricalError logView
    have hw := hl.range _ (clamp_facts prediction hp).1
    obtain ⟨m1, m2⟩ := minus truth t1
    have hu : (minusOne * truth).units ≤ F32.units one := by
      have e1 := val_abs (minusOne * truth)
      have e2 := units_val one one_pos.le
      omega
    obtain ⟨r1, r2, r3⟩ := mul_range_neg _ _ nineteen (finite_of_le _ one m1 finite_one hu) a4 hq (by omega) hu a3 (small _ a2 a3)
    rw [within_iff _ _ _ num_zero (by decide), val_zero]
    exact ⟨r1, r2, by omega⟩

/-- The error is the negative logarithm of the probability that the prediction gives to the truth, where probabilities below 1e-8 count as 1e-8. -/
theorem C134_likelihood (log : F32 → F32) (hl : SoundLog log) (prediction : F32) (hp : Number prediction) :
    Same (F32.negate (log (limited prediction))) (binaryError log one prediction) ∧
    Same (F32.negate (log (limited (one - prediction)))) (binaryError log 0 prediction) ∧
    Same (F32.negate (log (limited prediction))) (categoricalError log one prediction) ∧
    Same 0 (categoricalError log 0 prediction) := by
  obtain ⟨a0, a1, a2, a3, a4⟩ := log_facts log hl prediction hp
  obtain ⟨b0, b1, b2, b3, b4⟩ := log_facts log hl (one - prediction) (sub_num one prediction finite_one hp)
  have same : ∀ a b : F32, Num a → Num b → val b = val a → Same a b := fun a b ha hb h =>
    (within_iff _ _ _ ha ha).mpr ⟨hb, by omega, by omega⟩
  have f0 : Rounding.Finite 0 := by decide
  have u0 : F32.units 0 = 0 := by decide
  rw [limited_eq prediction hp, limited_eq (one - prediction) (sub_num one prediction finite_one hp)]
  refine ⟨?_, ?_, ?_, ?_⟩
  · unfold binaryError
    simp only
    rw [a0, b0, show one - one = 0 by decide +kernel]
    obtain ⟨p1, p2⟩ := mul_one_val _ a4
    have z := mul_zero_val 0 _ f0 b4 (Or.inl u0)
    have fz : Rounding.Finite (0 * log (clamp (one - prediction) epsilon upper)) :=
      (mul_range 0 _ nineteen (by decide) b4 (by decide) b3 (by
        have := val_abs (log (clamp (one - prediction) epsilon upper))
        have e : val minusNineteen = -(nineteen.units : Int) := by decide +kernel
        omega)).1
    obtain ⟨s1, s2⟩ := add_zero_val _ _ p1 fz z
    obtain ⟨m1, m2⟩ := minus _ (finite_num _ s1)
    exact same _ _ ((negate_num _).mpr a1) m1 (by rw [m2, s2, p2, negate_val])
  · unfold binaryError
    simp only
    rw [a0, b0, show one - 0 = one by decide +kernel]
    obtain ⟨p1, p2⟩ := mul_one_val _ b4
    have z := mul_zero_val 0 _ f0 a4 (Or.inl u0)
    have fz : Rounding.Finite (0 * log (clamp prediction epsilon upper)) :=
      (mul_range 0 _ nineteen (by decide) a4 (by decide) a3 (by
        have := val_abs (log (clamp prediction epsilon upper))
        have e : val minusNineteen = -(nineteen.units : Int) := by decide +kernel
        omega)).1
    obtain ⟨s1, s2⟩ := zero_add_val _ _ p1 fz z
    obtain ⟨m1, m2⟩ := minus _ (finite_num _ s1)
    exact same _ _ ((negate_num _).mpr b1) m1 (by rw [m2, s2, p2, negate_val])
  · unfold categoricalError logView
    rw [show minusOne * one = minusOne by decide +kernel]
    obtain ⟨m1, m2⟩ := minus _ a1
    exact same _ _ ((negate_num _).mpr a1) m1 (by rw [m2, negate_val])
  · unfold categoricalError logView
    have fm : Rounding.Finite (minusOne * 0) := by decide +kernel
    have um : F32.units (minusOne * 0) = 0 := by decide +kernel
    refine same _ _ num_zero ?_ (by rw [mul_zero_val _ _ fm a4 (Or.inl um), val_zero])
    rw [mul_facts _ _ fm a4]
    exact rounded_num _ _ _

/-- A right answer costs nothing. -/
theorem C134_right (log : F32 → F32) (hl : SoundLog log) :
    Same 0 (binaryError log one one) ∧ Same 0 (binaryError log 0 0) ∧ Same 0 (categoricalError log one one) := by
  obtain ⟨h1, -, h3, -⟩ := C134_likelihood log hl one num_one
  obtain ⟨-, h2, -, -⟩ := C134_likelihood log hl 0 num_zero
  have hz := hl.one
  unfold Same at hz h1 h2 h3 ⊢
  obtain ⟨z1, z2, z3⟩ := (within_iff _ _ _ num_zero num_zero).mp hz
  rw [show limited one = one by decide +kernel] at h1 h3
  rw [show limited (one - 0) = one by decide +kernel] at h2
  have hn := (negate_num _).mpr z1
  have hv := negate_val (log one)
  rw [within_iff _ _ _ hn hn] at h1 h2 h3
  rw [val_zero] at z2 z3
  refine ⟨?_, ?_, ?_⟩
  · rw [within_iff _ _ _ num_zero num_zero, val_zero]; exact ⟨h1.1, by omega, by omega⟩
  · rw [within_iff _ _ _ num_zero num_zero, val_zero]; exact ⟨h2.1, by omega, by omega⟩
  · rw [within_iff _ _ _ num_zero num_zero, val_zero]; exact ⟨h3.1, by omega, by omega⟩

/-- A prediction further from the truth never costs less. -/
theorem C134_order (log : F32 → F32) (hl : SoundLog log) (p q : F32) (h : F32.ge q p = true) :
    F32.ge (binaryError log one p) (binaryError log one q) = true ∧
    F32.ge (binaryError log 0 q) (binaryError log 0 p) = true ∧
    F32.ge (categoricalError log one p) (categoricalError log one q) = true := by
  obtain ⟨hq, hp, hv⟩ := (ge_iff _ _).mp h
  obtain ⟨p1, p2, p3, -⟩ := C134_likelihood log hl p hp
  obtain ⟨q1, q2, q3, -⟩ := C134_likelihood log hl q hq
  have np := sub_num one p finite_one hp
  have nq := sub_num one q finite_one hq
  have m1 := log_mono log hl p q hp hq hv
  have m2 := log_mono log hl (one - q) (one - p) nq np (sub_anti one p q finite_one hp hq hv)
  rw [← limited_eq p hp, ← limited_eq q hq] at m1
  rw [← limited_eq _ np, ← limited_eq _ nq] at m2
  have lp := (log_facts log hl p hp).2.1
  have lq := (log_facts log hl q hq).2.1
  have lp' := (log_facts log hl _ np).2.1
  have lq' := (log_facts log hl _ nq).2.1
  rw [← limited_eq _ hp] at lp
  rw [← limited_eq _ hq] at lq
  rw [← limited_eq _ np] at lp'
  rw [← limited_eq _ nq] at lq'
  have open_ : ∀ a b : F32, Num a → Same (F32.negate a) b → Num b ∧ val b = -val a := by
    intro a b ha hb
    obtain ⟨x1, x2, x3⟩ := (within_iff _ _ _ ((negate_num _).mpr ha) ((negate_num _).mpr ha)).mp hb
    rw [negate_val] at x2 x3
    exact ⟨x1, by omega⟩
  obtain ⟨a1, a2⟩ := open_ _ _ lp p1
  obtain ⟨b1, b2⟩ := open_ _ _ lq q1
  obtain ⟨c1, c2⟩ := open_ _ _ lp' p2
  obtain ⟨d1, d2⟩ := open_ _ _ lq' q2
  obtain ⟨e1, e2⟩ := open_ _ _ lp p3
  obtain ⟨f1, f2⟩ := open_ _ _ lq q3
  refine ⟨(ge_iff _ _).mpr ⟨a1, b1, by omega⟩, (ge_iff _ _).mpr ⟨d1, c1, by omega⟩, (ge_iff _ _).mpr ⟨e1, f1, by omega⟩⟩

/-- What the derivative is: the reciprocal of the probability that the prediction gives to the truth (of 1e-8 if that is 0). -/
theorem derivative_facts (p : F32) (hp : Within 0 one p) :
    (∃ e, Num (binaryDerivative one p) ∧ val (binaryDerivative one p) = -val (one / e) ∧ Rounding.Finite e ∧ 0 < val e ∧ val e ≤ val one ∧
      (val p = 0 → e = epsilon) ∧ (val p ≠ 0 → e = p)) ∧
    (∃ e, Num (binaryDerivative 0 p) ∧ val (binaryDerivative 0 p) = val (one / e) ∧ Rounding.Finite e ∧ 0 < val e ∧ val e ≤ val one ∧
      (val (one - p) = 0 → e = epsilon) ∧ (val (one - p) ≠ 0 → e = one - p)) := by
  obtain ⟨p1, p2, p3⟩ := (within_iff _ _ _ num_zero num_one).mp hp
  rw [val_zero] at p2
  have hp' : Within 0 one (one - p) := by
    obtain ⟨c1, c2, c3⟩ := complement p p1 p2 p3
    exact (within_iff _ _ _ num_zero num_one).mpr ⟨c1, by rw [val_zero]; exact c2, c3⟩
  obtain ⟨e, e1, e2, e3, e4, e5, e6⟩ := denominator_facts p hp
  obtain ⟨d, d1, d2, d3, d4, d5, d6⟩ := denominator_facts (one - p) hp'
  constructor
  · refine ⟨e, ?_⟩
    unfold binaryDerivative
    rw [show one - one = 0 by decide +kernel, e1, d1]
    obtain ⟨-, g1, g2⟩ := div_one_facts e e2 e3 e4
    obtain ⟨z1, z2⟩ := div_zero_facts 0 d (by decide) val_zero d2 d3
    obtain ⟨s1, s2⟩ := sub_zero_val _ _ g1 z1 z2
    obtain ⟨m1, m2⟩ := minus _ s1
    exact ⟨m1, by rw [m2, s2], e2, e3, e4, e5, e6⟩
  · refine ⟨d, ?_⟩
    unfold binaryDerivative
    rw [show one - 0 = one by decide +kernel, e1, d1]
    obtain ⟨-, g1, g2⟩ := div_one_facts d d2 d3 d4
    obtain ⟨z1, z2⟩ := div_zero_facts 0 e (by decide) val_zero e2 e3
    obtain ⟨s1, s2⟩ := zero_sub_val _ _ g1 z1 z2
    obtain ⟨m1, m2⟩ := minus _ s1
    exact ⟨m1, by rw [m2, s2, neg_neg], d2, d3, d4, d5, d6⟩

theorem quotient_finite (e q : F32) (he : Rounding.Finite e) (hq : Rounding.Finite q) (h0 : 0 < val e) (h1 : val e ≤ val one)
    (h : 2 ^ 149 * 2 ^ 149 ≤ q.units * e.units) : (one / e).units ≤ q.units := by
  rw [(div_one_facts e he h0 h1).1]
  refine rounded_le _ _ _ ?_ q hq h
  have := units_val e h0.le
  omega

/-- The derivative points away from the truth, by at least 1. If the truth is 0 it is finite; if it is 1, it is finite for predictions of 0 and of at
least 2^-127. -/
theorem C134_derivative_partial (p : F32) (hp : Within 0 one p) :
    F32.ge minusOne (binaryDerivative one p) = true ∧ F32.ge (binaryDerivative 0 p) one = true ∧ IsFinite (binaryDerivative 0 p) ∧
    (F32.ge 0 p = true ∨ F32.ge p small = true → IsFinite (binaryDerivative one p)) := by
  obtain ⟨p1, p2, p3⟩ := (within_iff _ _ _ num_zero num_one).mp hp
  rw [val_zero] at p2
  obtain ⟨⟨e, e1, e2, e3, e4, e5, e6, e7⟩, ⟨d, d1, d2, d3, d4, d5, d6, d7⟩⟩ := derivative_facts p hp
  obtain ⟨-, g1, g2⟩ := div_one_facts e e3 e4 e5
  obtain ⟨-, k1, k2⟩ := div_one_facts d d3 d4 d5
  have heps : 2 ^ 149 * 2 ^ 149 ≤ F32.units ⟨0x7F7FFFFF#32⟩ * F32.units epsilon := by decide +kernel
  have bound : ∀ a x : F32, Num a → (val a = val (one / x) ∨ val a = -val (one / x)) → (one / x).units ≤ F32.units ⟨0x7F7FFFFF#32⟩ → IsFinite a := by
    intro a x ha h hu
    refine finite_of_le a ⟨0x7F7FFFFF#32⟩ ha (by decide) ?_
    have n1 := val_abs a
    have n2 := val_abs (one / x)
    omega
  refine ⟨(ge_iff _ _).mpr ⟨num_minusOne, e1, ?_⟩, (ge_iff _ _).mpr ⟨d1, num_one, by omega⟩, ?_, ?_⟩
  · rw [val_minusOne]; omega
  · refine bound _ d d1 (Or.inl d2) (quotient_finite d _ d3 (by decide) d4 d5 ?_)
    by_cases h : val (one - p) = 0
    · rw [d6 h]; exact heps
    · have hlt : val p < val one := by
        by_contra hne
        apply h
        have h1 := sub_anti one one p finite_one num_one p1 (by omega)
        have h2 := (complement p p1 p2 p3).2.1
        rw [show one - one = 0 by decide +kernel, val_zero] at h1
        omega
      have hle : val p ≤ val ⟨0x3F7FFFFF#32⟩ := by
        have u1 := units_val one one_pos.le
        have u2 := units_val p p2
        have e1 : p.units < F32.units one := by omega
        rw [units_pattern, units_pattern, pattern_strict.lt_iff_lt, show mag one.bits = 0x3F800000 by decide] at e1
        have e2 : pattern (mag p.bits) ≤ pattern 0x3F7FFFFF := pattern_strict.monotone (by omega)
        rw [u2, units_pattern, show val ⟨0x3F7FFFFF#32⟩ = (pattern 0x3F7FFFFF : Int) by decide +kernel]
        exact_mod_cast e2
      have g := sub_anti one p ⟨0x3F7FFFFF#32⟩ finite_one p1 (by decide) hle
      rw [show val (one - ⟨0x3F7FFFFF#32⟩) = (F32.units ⟨0x33800000#32⟩ : Int) by decide +kernel, units_val _ (complement p p1 p2 p3).2.1] at g
      rw [d7 h]
      refine le_trans (b := F32.units ⟨0x7F7FFFFF#32⟩ * F32.units ⟨0x33800000#32⟩) (by decide +kernel) (Nat.mul_le_mul_left _ ?_)
      exact_mod_cast g
  · intro h
    refine bound _ e e1 (Or.inr e2) (quotient_finite e _ e3 (by decide) e4 e5 ?_)
    rcases h with h | h
    · have := ((ge_iff _ _).mp h).2.2
      rw [val_zero] at this
      rw [e6 (by omega)]; exact heps
    · have h3 := ((ge_iff _ _).mp h).2.2
      have hs : val small = (F32.units small : Int) := by decide +kernel
      have hs0 : (0 : Int) < val small := by decide +kernel
      rw [e7 (by omega)]
      rw [hs, units_val p p2] at h3
      refine le_trans (b := F32.units ⟨0x7F7FFFFF#32⟩ * F32.units small) (by decide +kernel) (Nat.mul_le_mul_left _ ?_)
      exact_mod_cast h3

/-- The derivative of the categorical cross-entropy (for softmax) is between -1 and 1 and points away from the truth. -/
theorem C134_categorical (p : F32) (hp : Within 0 one p) :
    Within minusOne 0 (categoricalDerivative one p) ∧ Within 0 one (categoricalDerivative 0 p) ∧ Same p (categoricalDerivative 0 p) := by
  obtain ⟨p1, p2, p3⟩ := (within_iff _ _ _ num_zero num_one).mp hp
  rw [val_zero] at p2
  have fp := finite_within _ _ _ (by decide) finite_one hp
  unfold categoricalDerivative
  obtain ⟨s1, s2⟩ := sub_zero_val p 0 p1 (by decide) val_zero
  refine ⟨?_, (within_iff _ _ _ num_zero num_one).mpr ⟨s1, by rw [val_zero]; omega, by omega⟩, (within_iff _ _ _ p1 p1).mpr ⟨s1, by omega, by omega⟩⟩
  have fm : Rounding.Finite (F32.negate one) := by decide
  have e : p - one = F32.negate one + p := add_comm_finite p (F32.negate one) fp fm
  have l := add_mono (F32.negate one) 0 p fm num_zero p1 (by rw [val_zero]; exact p2)
  have u := add_mono (F32.negate one) p one fm p1 num_one p3
  rw [within_iff _ _ _ num_minusOne num_zero, e]
  refine ⟨(add_facts _ p fm p1).1, le_trans ?_ l, le_trans u ?_⟩
  · decide +kernel
  · decide +kernel

/-- A sigmoid that is neither 0 nor 1 hands down a gradient that is not 0 and has the right sign; it is finite if the prediction is at least 2^-127. -/
theorem C134_learns_partial (m : Libm) (hm : Sound m) (x : F32) (hx : Number x)
    (h0 : F32.lt 0 (Act.sigmoid.value m x) = true) (h1 : F32.lt (Act.sigmoid.value m x) one = true) :
    F32.lt (handedDown m .sigmoid x (binaryDerivative one (Act.sigmoid.value m x))) 0 = true ∧
    F32.lt 0 (handedDown m .sigmoid x (binaryDerivative 0 (Act.sigmoid.value m x))) = true ∧
    IsFinite (handedDown m .sigmoid x (binaryDerivative 0 (Act.sigmoid.value m x))) ∧
    (F32.ge (Act.sigmoid.value m x) small = true → IsFinite (handedDown m .sigmoid x (binaryDerivative one (Act.sigmoid.value m x)))) := by
  have hw : Within 0 one (Act.sigmoid.value m x) := C133_range m hm .sigmoid x ⟨hx, fun h => by simp at h⟩
  have v0 := ((lt_iff _ _).mp h0).2.2
  have v1 := ((lt_iff _ _).mp h1).2.2
  rw [val_zero] at v0
  have hs : Act.sigmoid.slope m x = Act.sigmoid.value m x * (one - Act.sigmoid.value m x) := rfl
  have hn := ((lt_iff _ _).mp h0).2.1
  unfold handedDown
  rw [hs]
  generalize Act.sigmoid.value m x = p at *
  obtain ⟨b1, b2, b3, b4⟩ := bump_pos p hn v0 v1
  obtain ⟨d1, d2, d3, d4⟩ := C134_derivative_partial p hw
  have ho := units_val one one_pos.le
  have hop := one_pos
  have key : ∀ y : F32, Num y → (val one ≤ val y ∨ val y ≤ -val one) → F32.units one ≤ y.units := by
    intro y _ h
    have := val_abs y
    omega
  have sgn : ∀ y : F32, (val y < 0 → neg y.bits = true) ∧ (0 < val y → neg y.bits = false) := by
    intro y
    have e := val_units y
    constructor <;> intro h <;> split at e
    · assumption
    · omega
    · omega
    · rename_i hh; simpa using hh
  obtain ⟨-, n1, w1⟩ := (ge_iff _ _).mp d1
  obtain ⟨n2, -, w2⟩ := (ge_iff _ _).mp d2
  rw [val_minusOne] at w1
  obtain ⟨x1, x2, -, x4⟩ := handed_facts _ _ b1 b2 b3 b4 n1 (key _ n1 (Or.inr w1))
  obtain ⟨y1, -, y3, y4⟩ := handed_facts _ _ b1 b2 b3 b4 n2 (key _ n2 (Or.inl w2))
  refine ⟨(lt_iff _ _).mpr ⟨x1, num_zero, by rw [val_zero]; exact x2 ((sgn _).1 (by omega))⟩,
    (lt_iff _ _).mpr ⟨num_zero, y1, by rw [val_zero]; exact y3 ((sgn _).2 (by omega))⟩, y4 d3, fun h => x4 (d4 (Or.inr h))⟩

/-- Violated: the gradient of a record that is answered as wrongly as possible is 0. With any C library whose exponential function is off by at most a tenth
at -17, the sigmoid of every number from 17 on is 1; if the truth is 0, no answer costs more and the loss asks for a change of 1e8, but what reaches the
layers below is 0. -/
theorem C134_stuck_violated (m : Libm) (hm : Sound m) (log : F32 → F32) (hl : SoundLog log)
    (hacc : |real (m.exp ⟨0xC1880000#32⟩) - Real.exp (-17)| ≤ Real.exp (-17) / 10) (x : F32) (hx : F32.ge x ⟨0x41880000#32⟩ = true) :
    Act.sigmoid.value m x = one ∧
    (∀ q, Within 0 one q → F32.ge (binaryError log 0 (Act.sigmoid.value m x)) (binaryError log 0 q) = true) ∧
    binaryDerivative 0 (Act.sigmoid.value m x) = ⟨0x4CBEBC20#32⟩ ∧
    handedDown m .sigmoid x (binaryDerivative 0 (Act.sigmoid.value m x)) = 0 := by
  obtain ⟨⟨-, h17, -⟩, -⟩ := C133_strict_violated m hm hacc
  obtain ⟨hn, -, hv⟩ := (ge_iff _ _).mp hx
  have hs : Act.sigmoid.value m x = one := by
    have hmono : val (Act.sigmoid.value m ⟨0x41880000#32⟩) ≤ val (Act.sigmoid.value m x) := logistic_mono m hm _ _ (by decide) hn hv
    have hr : val (Act.sigmoid.value m x) ≤ val one := (logistic_range m hm x hn).2.2
    rw [h17] at hmono
    exact val_inj _ _ (by omega) one_pos
  refine ⟨hs, fun q hq => ?_, ?_, ?_⟩
  · rw [hs]
    exact (C134_order log hl q one hq.2).2.1
  · rw [hs]
    decide +kernel
  · show (Act.sigmoid.value m x * (one - Act.sigmoid.value m x)) * binaryDerivative 0 (Act.sigmoid.value m x) = 0
    rw [hs]
    decide +kernel

/-- Violated: the derivative of a prediction just above 0 is infinite if the truth is 1 (the rectifier hands it down unchanged), and the derivative of 0, the
worst answer, is smaller than that of better answers. -/
theorem C134_infinite_violated (m : Libm) :
    (∃ x, Within 0 one (Act.relu.value m x) ∧ handedDown m .relu x (binaryDerivative one (Act.relu.value m x)) = minusInf) ∧
    (∃ p, Within 0 one p ∧ F32.lt 0 p = true ∧ IsFinite (binaryDerivative one p) ∧ F32.lt (binaryDerivative one p) (binaryDerivative one 0) = true) := by
  refine ⟨⟨⟨1#32⟩, ?_, ?_⟩, ⟨⟨0x1E3CE508#32⟩, by decide +kernel, by decide +kernel, by decide +kernel, by decide +kernel⟩⟩
  · have k : Within 0 one (Act.relu.value noLibm ⟨1#32⟩) := by decide +kernel
    exact k
  · have k : handedDown noLibm .relu ⟨1#32⟩ (binaryDerivative one (Act.relu.value noLibm ⟨1#32⟩)) = minusInf := by decide +kernel
    exact k

/-! ### The assumptions can be met -/

/-- A logarithm that is rounded towards 0. -/
noncomputable def exactLog (x : F32) : F32 := F32.negate (truncated (-Real.log (real x)))

theorem real_range (x : F32) (h : Within epsilon one x) : 0 < real x ∧ Real.exp (-19) ≤ real x ∧ real x ≤ 1 := by
  obtain ⟨h1, h2, h3⟩ := (within_iff _ _ _ (by decide) num_one).mp h
  have e1 : real one = 1 := by
    have : value one.bits = 2 ^ 149 := by decide +kernel
    unfold real
    rw [this, Int.cast_pow]
    rw [show ((2 : Int) : ℝ) = 2 by norm_num, div_self (by positivity)]
  have r1 := real_mono _ _ h2
  have r2 := real_mono _ _ h3
  rw [e1] at r2
  have e2 : real epsilon = 11258999 / 2 ^ 50 := by
    have : value epsilon.bits = 11258999 * 2 ^ 99 := by decide +kernel
    unfold real
    rw [this, Int.cast_mul, Int.cast_pow, show (149 : Nat) = 50 + 99 by rfl, pow_add]
    rw [show ((2 : Int) : ℝ) = 2 by norm_num, mul_div_mul_right _ _ (by positivity)]
    norm_num
  rw [e2] at r1
  refine ⟨lt_of_lt_of_le (by positivity) r1, le_trans ?_ r1, r2⟩
  rw [Real.exp_neg, inv_le_comm₀ (Real.exp_pos _) (by positivity)]
  have h2 : (2.7 : ℝ) ^ 19 ≤ Real.exp 19 := by
    have : Real.exp 19 = Real.exp 1 ^ 19 := by rw [← Real.exp_nat_mul]; norm_num
    rw [this]
    exact pow_le_pow_left₀ (by norm_num) (by have := Real.exp_one_gt_d9; linarith) 19
  refine le_trans ?_ h2
  norm_num

theorem truncated_nineteen : val (truncated 19) ≤ val nineteen := by
  have h := floorBits_spec 19 (by norm_num)
  rw [truncated_val, show val nineteen = ((19 * 2 ^ 149 : Nat) : Int) by decide +kernel]
  rw [div_le_iff₀ (by positivity)] at h
  exact_mod_cast h

/-- It meets the assumptions. -/
theorem exactLog_sound : SoundLog exactLog where
  range := fun x hx => by
    obtain ⟨h0, h1, h2⟩ := real_range x hx
    have hlog : Real.log (real x) ≤ 0 := Real.log_nonpos h0.le h2
    have hlow : -19 ≤ Real.log (real x) := by rw [Real.le_log_iff_exp_le h0]; exact h1
    have n1 := truncated_nonneg (-Real.log (real x))
    have n2 := truncated_mono (-Real.log (real x)) 19 (by linarith) (by linarith)
    have n3 := truncated_nineteen
    have e : val minusNineteen = -val nineteen := by decide +kernel
    unfold exactLog
    rw [within_iff _ _ _ (by decide) num_zero, negate_num, negate_val, val_zero, e]
    exact ⟨(truncated_facts _).1, by omega, by omega⟩
  order := fun x y hx hy h => by
    obtain ⟨x0, -, x2⟩ := real_range x hx
    obtain ⟨y0, -, y2⟩ := real_range y hy
    have hr := real_mono _ _ ((ge_iff _ _).mp h).2.2
    have hlog := Real.log_le_log x0 hr
    have hy0 : Real.log (real y) ≤ 0 := Real.log_nonpos y0.le y2
    have := truncated_mono (-Real.log (real y)) (-Real.log (real x)) (by linarith) (by linarith)
    unfold exactLog
    rw [ge_iff, negate_num, negate_num, negate_val, negate_val]
    exact ⟨(truncated_facts _).1, (truncated_facts _).1, by omega⟩
  one := by
    have e1 : real one = 1 := by
      have : value one.bits = 2 ^ 149 := by decide +kernel
      unfold real
      rw [this, Int.cast_pow]
      rw [show ((2 : Int) : ℝ) = 2 by norm_num, div_self (by positivity)]
    unfold exactLog Same
    rw [e1, Real.log_one, neg_zero, within_iff _ _ _ num_zero num_zero, negate_num, negate_val, val_zero, truncated_zero]
    exact ⟨(truncated_facts _).1, by norm_num, by norm_num⟩

example : SoundLog exactLog := exactLog_sound

/-- The sigmoid of 0 is a prediction that is learned from. -/
example : Number 0 ∧ F32.lt 0 (Act.sigmoid.value exactLibm 0) = true ∧ F32.lt (Act.sigmoid.value exactLibm 0) one = true := by
  have h : Act.sigmoid.value exactLibm 0 = half := logistic_zero exactLibm exact_sound 0 num_zero val_zero
  rw [h]
  decide +kernel

/-- Truth 1, prediction a quarter: the derivative is -4; truth 0: 1.3333334. -/
example : binaryDerivative one quarter = ⟨0xC0800000#32⟩ ∧ binaryDerivative 0 quarter = ⟨0x3FAAAAAB#32⟩ := by decide +kernel

/-- Predictions and truths that are claimed about. -/
example : Within 0 one quarter ∧ Number inf ∧ F32.ge quarter small = true := by decide +kernel

end Verif.FloatLoss
