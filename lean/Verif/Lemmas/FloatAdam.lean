import Verif.Lemmas.FloatSoftmax
import Verif.Spec.FloatAdam

/-!
Sums and products of 32-bit floats with bounded magnitudes, for the moments of Adam.
-/
namespace Verif.FloatAdam
open Verif FloatBits Rounding FloatOrder FloatActivation FloatLoss

theorem atMost_iff (l x : F32) (hl : Rounding.Finite l) (h0 : 0 ≤ val l) : AtMost l x ↔ Rounding.Finite x ∧ x.units ≤ l.units := by
  obtain ⟨a1, a2, a3, a4⟩ := abs_facts x
  have hv : val (F32.abs x) = x.units := by rw [val_units, a1, a2]; simp
  have hlu := units_val l h0
  unfold AtMost
  rw [ge_iff, hv]
  constructor
  · rintro ⟨-, h2, h3⟩
    exact ⟨finite_of_le x l (a3.mp h2) hl (by omega), by omega⟩
  · rintro ⟨h1, h2⟩
    exact ⟨finite_num _ hl, a3.mpr (finite_num _ h1), by omega⟩

theorem mul_units_le (a b q : F32) (ha : Rounding.Finite a) (hb : Rounding.Finite b) (hq : Rounding.Finite q) (h : a.units * b.units ≤ q.units * 2 ^ 149) :
    Rounding.Finite (a * b) ∧ (a * b).units ≤ q.units := by
  have hu : (a * b).units ≤ q.units := by
    rw [mul_facts a b ha hb]
    exact rounded_le _ _ _ (Nat.two_pow_pos _) q hq h
  exact ⟨finite_of_le _ q (by rw [mul_facts a b ha hb]; exact rounded_num _ _ _) hq hu, hu⟩

theorem add_units_le (a b q : F32) (ha : Rounding.Finite a) (hb : Rounding.Finite b) (hq : Rounding.Finite q) (h : a.units + b.units ≤ q.units) :
    Rounding.Finite (a + b) ∧ (a + b).units ≤ q.units := by
  obtain ⟨f1, -, f3, f4⟩ := add_facts a b ha (finite_num _ hb)
  have hi := (finite_not b hb).2
  have hu : (a + b).units ≤ q.units := by
    by_cases h0 : val a + val b = 0
    · have := val_abs (a + b)
      rw [f3 hi h0] at this
      simp at this
      omega
    · rw [f4 hi h0]
      refine rounded_le _ _ _ (by omega) q hq ?_
      have x := val_abs a
      have y := val_abs b
      omega
  exact ⟨finite_of_le _ q f1 hq hu, hu⟩

/-- A product of numbers that are not negative, and of numbers of opposite signs. -/
theorem mul_sign (a b : F32) (ha : Rounding.Finite a) (hb : Rounding.Finite b) :
    (0 ≤ val a → 0 ≤ val b → 0 ≤ val (a * b)) ∧ (0 ≤ val a → val b ≤ 0 → val (a * b) ≤ 0) ∧ (val a ≤ 0 → 0 ≤ val b → val (a * b) ≤ 0) ∧
      (val a ≤ 0 → val b ≤ 0 → 0 ≤ val (a * b)) := by
  have hz : val a = 0 ∨ val b = 0 → val (a * b) = 0 := by
    intro h
    refine mul_zero_val a b ha hb ?_
    rcases h with h | h
    · have x := val_abs a
      rw [h] at x
      exact Or.inl x.symm
    · have y := val_abs b
      rw [h] at y
      exact Or.inr y.symm
  have hs : neg (a * b).bits = (neg a.bits != neg b.bits) := by rw [mul_facts a b ha hb, rounded_neg]
  have ea := val_units a
  have eb := val_units b
  have ep := val_units (a * b)
  rw [hs] at ep
  by_cases h0 : val a = 0 ∨ val b = 0
  · rw [hz h0]
    exact ⟨fun _ _ => le_refl _, fun _ _ => le_refl _, fun _ _ => le_refl _, fun _ _ => le_refl _⟩
  · push Not at h0
    obtain ⟨h1, h2⟩ := h0
    cases ha' : neg a.bits <;> cases hb' : neg b.bits <;> simp only [ha', hb', bne_self_eq_false, Bool.false_bne, Bool.true_bne, Bool.not_false,
      Bool.false_eq_true, if_false, if_true] at ea eb ep <;>
      refine ⟨fun _ _ => ?_, fun _ _ => ?_, fun _ _ => ?_, fun _ _ => ?_⟩ <;> omega

theorem add_sign (a b : F32) (ha : Rounding.Finite a) (hb : Num b) :
    (0 ≤ val a → 0 ≤ val b → 0 ≤ val (a + b)) ∧ (val a ≤ 0 → val b ≤ 0 → val (a + b) ≤ 0) := by
  obtain ⟨f1, f2, f3, f4⟩ := add_facts a b ha hb
  rcases num_cases b hb with ⟨-, hi⟩ | ⟨hi, -⟩
  · by_cases h0 : val a + val b = 0
    · rw [f3 hi h0]
      exact ⟨fun _ _ => le_refl _, fun _ _ => le_refl _⟩
    · rw [f4 hi h0]
      obtain ⟨g1, g2⟩ := rounded_val_sign _ h0
      exact ⟨fun h1 h2 => g1 (by omega), fun h1 h2 => g2 (by omega)⟩
  · rw [f2 hi]
    exact ⟨fun _ h => h, fun _ h => h⟩

theorem inf_facts : val inf = pattern 0x7F800000 ∧ 0 < val inf := by decide +kernel

theorem eq_inf (a : F32) (h : Num a) (hi : isInf a.bits = true) (h0 : 0 ≤ val a) : a = inf := by
  rcases num_cases a h with ⟨-, hf⟩ | ⟨-, hu⟩
  · rw [hi] at hf; exact absurd hf (by simp)
  · refine val_inj a inf ?_ inf_facts.2
    rw [units_val a h0, hu, inf_facts.1]

/-- Infinity absorbs numbers that are not negative. -/
theorem add_inf (a : F32) (h : Num a) (h0 : 0 ≤ val a) : a + inf = inf ∧ inf + a = inf := by
  rcases num_cases a h with ⟨hf, -⟩ | ⟨hi, -⟩
  · have := (add_facts a inf hf num_inf).2.1 (by decide)
    refine ⟨this, ?_⟩
    show F32.add inf a = inf
    unfold F32.add
    obtain ⟨n1, n2⟩ := finite_not a hf
    rw [n1, n2, show isNaN inf.bits = false by decide, show isInf inf.bits = true by decide]
    simp only [Bool.or_self, Bool.false_eq_true, if_false, if_true, Bool.false_and]
  · rw [eq_inf a h hi h0]
    decide

/-- A positive number times infinity. -/
theorem mul_inf (c : F32) (hc : Rounding.Finite c) (h0 : 0 < val c) : c * inf = inf := by
  have hv := val_units c
  have hn : neg c.bits = false := by
    split at hv
    · omega
    · rename_i h; simpa using h
  rw [hn] at hv
  simp only [Bool.false_eq_true, if_false] at hv
  obtain ⟨f1, f2, -, f4⟩ := mul_pos_facts c inf hc hn (by omega) num_inf
  refine val_inj _ inf ?_ inf_facts.2
  rw [val_units, f2, f4 (by decide), inf_facts.1]
  simp [show neg inf.bits = false by decide]

theorem inf_square (x : F32) (h : Num x) (hi : isInf x.bits = true) : x * x = inf := by
  have hv : val x ≠ 0 := by
    have := val_abs x
    rcases num_cases x h with ⟨-, hf⟩ | ⟨-, hu⟩
    · rw [hi] at hf; exact absurd hf (by simp)
    · intro h0
      rw [h0, hu] at this
      exact absurd this (by decide +kernel)
  show F32.mul x x = inf
  unfold F32.mul
  rw [show isNaN x.bits = false from h, hi]
  simp only [Bool.or_self, Bool.false_eq_true, if_false, if_true, bne_self_eq_false]
  rw [if_neg (by rintro (h | h) <;> exact hv h)]
  rfl

theorem consts : Rounding.Finite beta1 ∧ Rounding.Finite beta2 ∧ Rounding.Finite (one - beta1) ∧ Rounding.Finite (one - beta2) ∧ Rounding.Finite epsilon ∧
    0 < val beta1 ∧ 0 < val beta2 ∧ 0 < val (one - beta1) ∧ 0 < val (one - beta2) ∧ 0 < val epsilon := by decide +kernel

/-- A weighted mean of two numbers within a power of two stays within it: nothing is lost by rounding the bounds. -/
theorem mean_le (a c x y q : F32) (ha : Rounding.Finite a) (hc : Rounding.Finite c) (hx : Rounding.Finite x) (hy : Rounding.Finite y) (hq : Rounding.Finite q)
    (x1 : x.units ≤ q.units) (y1 : y.units ≤ q.units) (ea : Rounding.Finite (a * q)) (ec : Rounding.Finite (c * q))
    (e1 : (a * q).units + (c * q).units ≤ q.units) (e2 : a.units * q.units ≤ (a * q).units * 2 ^ 149) (e3 : c.units * q.units ≤ (c * q).units * 2 ^ 149) :
    Rounding.Finite (a * x + c * y) ∧ (a * x + c * y).units ≤ q.units := by
  obtain ⟨f1, f2⟩ := mul_units_le a x (a * q) ha hx ea (le_trans (Nat.mul_le_mul_left _ x1) e2)
  obtain ⟨g1, g2⟩ := mul_units_le c y (c * q) hc hy ec (le_trans (Nat.mul_le_mul_left _ y1) e3)
  exact add_units_le _ _ q f1 g1 hq (by omega)

theorem first_le (m g q : F32) (hq : q = two62 ∨ q = two120) (hm : AtMost q m) (hg : AtMost q g) : AtMost q (beta1 * m + (one - beta1) * g) := by
  have fq : Rounding.Finite q ∧ 0 ≤ val q := by rcases hq with rfl | rfl <;> decide +kernel
  rw [atMost_iff q _ fq.1 fq.2] at *
  refine mean_le _ _ _ _ q consts.1 consts.2.2.1 hm.1 hg.1 fq.1 hm.2 hg.2 ?_ ?_ ?_ ?_ ?_ <;> rcases hq with rfl | rfl <;> decide +kernel

theorem second_le (v p : F32) (hv : AtMost two124 v) (hp : AtMost two124 p) : AtMost two124 (beta2 * v + (one - beta2) * p) := by
  have fq : Rounding.Finite two124 ∧ 0 ≤ val two124 := by decide +kernel
  rw [atMost_iff two124 _ fq.1 fq.2] at *
  refine mean_le _ _ _ _ two124 consts.2.1 consts.2.2.2.1 hv.1 hp.1 fq.1 hv.2 hp.2 ?_ ?_ ?_ ?_ ?_ <;> decide +kernel

/-- 2^27 -/
def two27 : F32 := ⟨0x4D000000#32⟩

/-- The inverse of a number of at least epsilon. -/
theorem inverse_facts (d : F32) (b1 : Num d) (b2 : val epsilon ≤ val d) :
    Rounding.Finite (one / d) ∧ (one / d).units ≤ two27.units ∧ 0 ≤ val (one / d) := by
  have pe : 0 < val epsilon := consts.2.2.2.2.2.2.2.2.2
  have hdu := units_val d (by omega)
  have heu : F32.units epsilon ≤ d.units := by
    have := units_val epsilon pe.le
    omega
  have hd0 : 0 < d.units := lt_of_lt_of_le (by decide +kernel) heu
  have hn : neg d.bits = false := by
    have := val_units d
    split at this
    · omega
    · rename_i h; simpa using h
  obtain ⟨K, hK⟩ : ∃ K : Nat, 2 ^ 149 * 2 ^ 149 = K := ⟨_, rfl⟩
  have hle : K ≤ two27.units * d.units := by
    refine le_trans ?_ (Nat.mul_le_mul_left _ heu)
    rw [← hK]
    decide +kernel
  have h1 : isNaN one.bits = false := by decide
  have h2 : isInf one.bits = false := by decide
  have h3 : neg one.bits = false := by decide
  have h4 : isNaN d.bits = false := b1
  cases hi : isInf d.bits with
  | true =>
    have key : one / d = 0 := by
      show F32.div one d = _
      unfold F32.div
      rw [h1, h2, h3, h4, hn, hi]
      rfl
    rw [key]
    exact ⟨by decide, by decide +kernel, by decide⟩
  | false =>
    have key : one / d = F32.rounded false K d.units := by
      show F32.div one d = _
      unfold F32.div
      rw [h1, h2, h3, h4, hn, hi, units_one, hK]
      simp only [Bool.or_self, Bool.false_eq_true, if_false, bne_self_eq_false]
      rw [if_neg (by omega)]
    rw [key]
    have hu := rounded_le false K d.units hd0 two27 (by decide) hle
    have hnum := rounded_num false K d.units
    refine ⟨finite_of_le _ two27 hnum (by decide) hu, hu, ?_⟩
    rw [val_units, rounded_neg]
    simp

/-- The number that the step is multiplied with. -/
theorem factor_facts (lib : Roots) (hs : Sound lib) (v : F32) (hv : Within 0 inf v) :
    Rounding.Finite (one / ((lib.sqrt v + epsilon) + epsilon)) ∧ (one / ((lib.sqrt v + epsilon) + epsilon)).units ≤ two27.units ∧
      0 ≤ val (one / ((lib.sqrt v + epsilon) + epsilon)) ∧ (v = inf → one / ((lib.sqrt v + epsilon) + epsilon) = 0) := by
  obtain ⟨r1, r2, -⟩ := (within_iff _ _ _ num_zero num_inf).mp (hs.sqrt_range v hv)
  rw [val_zero] at r2
  obtain ⟨-, -, -, -, fe, -, -, -, -, pe⟩ := consts
  have step : ∀ x : F32, Num x → 0 ≤ val x → Num (x + epsilon) ∧ val epsilon ≤ val (x + epsilon) := by
    intro x hx h0
    rw [FloatSoftmax.add_comm_num x epsilon hx fe]
    refine ⟨(add_facts epsilon x fe hx).1, ?_⟩
    have := add_mono epsilon 0 x fe num_zero hx (by rw [val_zero]; exact h0)
    rw [(add_zero_val epsilon 0 fe (by decide) val_zero).2] at this
    exact this
  obtain ⟨a1, a2⟩ := step _ r1 r2
  obtain ⟨b1, b2⟩ := step _ a1 (by omega)
  obtain ⟨i1, i2, i3⟩ := inverse_facts _ b1 b2
  refine ⟨i1, i2, i3, ?_⟩
  intro h
  rw [h, hs.sqrt_inf]
  decide +kernel

/-- 2^89 -/
def two89 : F32 := ⟨0x6C000000#32⟩

theorem negate_units (a : F32) : (F32.negate a).units = a.units := by
  have h1 := val_abs a
  have h2 := val_abs (F32.negate a)
  rw [negate_val] at h2
  omega

/-- The largest finite float. -/
def most : F32 := ⟨0x7F7FFFFF#32⟩

theorem finite_most (a : F32) (h : Rounding.Finite a) : a.units ≤ most.units := by
  rw [units_pattern, show most.units = pattern 0x7F7FFFFF by decide +kernel]
  refine pattern_strict.monotone ?_
  have h1 : expo a.bits ≠ 255 := by simpa [Rounding.Finite, isFinite] using h
  unfold expo at h1
  unfold mag
  omega

/-- A number of at most 2^89 does not take a finite float beyond the finite floats. -/
theorem add_small_finite (w c : F32) (hw : Rounding.Finite w) (hc : Rounding.Finite c) (h : c.units ≤ two89.units) : Rounding.Finite (w + c) := by
  obtain ⟨n1, -, n3, n4⟩ := add_facts w c hw (finite_num _ hc)
  have hi := (finite_not c hc).2
  have hm := finite_most w hw
  have a1 := val_abs w
  have a2 := val_abs c
  refine finite_of_le _ most n1 (by decide) ?_
  by_cases h0 : val w + val c = 0
  · have := val_abs (w + c)
    rw [n3 hi h0] at this
    rw [← this]
    exact Nat.zero_le _
  · rw [n4 hi h0]
    have hle : (val w + val c).natAbs * 1 ≤ (most.units + two89.units) * 1 := by
      generalize most.units = M at *
      generalize two89.units = T at *
      omega
    refine le_trans (rounded_mono _ false _ 1 _ 1 (by omega) (by omega) hle) ?_
    decide +kernel

/-- The change of a weight: small moments. -/
theorem change_le (lib : Roots) (hs : Sound lib) (rate : F32) (s : Moments) (hr : AtMost one rate) (hm : AtMost two62 s.m) (hv : Within 0 inf s.v) :
    Rounding.Finite (s.change lib rate) ∧ (s.change lib rate).units ≤ two89.units := by
  obtain ⟨f1, f2, -, -⟩ := factor_facts lib hs s.v hv
  rw [atMost_iff one _ finite_one one_pos.le] at hr
  rw [atMost_iff two62 _ (by decide) (by decide +kernel)] at hm
  have fr := (negate_finite rate).mpr hr.1
  obtain ⟨p1, p2⟩ := mul_units_le (F32.negate rate) s.m two62 fr hm.1 (by decide) (by
    rw [negate_units, Nat.mul_comm, ← units_one]
    exact Nat.mul_le_mul hm.2 hr.2)
  unfold Moments.change
  generalize one / ((lib.sqrt s.v + epsilon) + epsilon) = f at *
  refine mul_units_le _ f two89 p1 f1 (by decide) (le_trans (Nat.mul_le_mul p2 f2) ?_)
  decide +kernel

/-- With an infinite second moment the change is 0. -/
theorem change_zero (lib : Roots) (hs : Sound lib) (rate : F32) (s : Moments) (hr : AtMost one rate) (hm : AtMost two120 s.m) (hv : s.v = inf) :
    Rounding.Finite (s.change lib rate) ∧ val (s.change lib rate) = 0 := by
  obtain ⟨-, -, -, f4⟩ := factor_facts lib hs s.v (by rw [hv]; decide +kernel)
  rw [atMost_iff one _ finite_one one_pos.le] at hr
  rw [atMost_iff two120 _ (by decide) (by decide +kernel)] at hm
  have fr := (negate_finite rate).mpr hr.1
  obtain ⟨p1, p2⟩ := mul_units_le (F32.negate rate) s.m two120 fr hm.1 (by decide) (by
    rw [negate_units, Nat.mul_comm, ← units_one]
    exact Nat.mul_le_mul hm.2 hr.2)
  unfold Moments.change
  rw [f4 hv]
  refine ⟨(mul_units_le _ 0 0 p1 (by decide) (by decide) (by rw [show F32.units 0 = 0 by decide]; omega)).1, ?_⟩
  exact mul_zero_val _ _ p1 (by decide) (Or.inr (by decide))

/-- The sign of the change. -/
theorem change_sign (lib : Roots) (hs : Sound lib) (rate : F32) (s : Moments) (hr : AtMost one rate) (hr0 : 0 ≤ val rate) (hm : AtMost two62 s.m)
    (hv : Within 0 inf s.v) : (0 ≤ val s.m → val (s.change lib rate) ≤ 0) ∧ (val s.m ≤ 0 → 0 ≤ val (s.change lib rate)) := by
  obtain ⟨f1, -, f3, -⟩ := factor_facts lib hs s.v hv
  rw [atMost_iff one _ finite_one one_pos.le] at hr
  rw [atMost_iff two62 _ (by decide) (by decide +kernel)] at hm
  have fr := (negate_finite rate).mpr hr.1
  have p1 := (mul_units_le (F32.negate rate) s.m two62 fr hm.1 (by decide) (by
    rw [negate_units, Nat.mul_comm, ← units_one]
    exact Nat.mul_le_mul hm.2 hr.2)).1
  obtain ⟨-, -, s3, s4⟩ := mul_sign (F32.negate rate) s.m fr hm.1
  have hn : val (F32.negate rate) ≤ 0 := by rw [negate_val]; omega
  unfold Moments.change
  generalize one / ((lib.sqrt s.v + epsilon) + epsilon) = f at *
  obtain ⟨t1, -, t3, -⟩ := mul_sign (F32.negate rate * s.m) f p1 f1
  exact ⟨fun h => t3 (s3 hn h) f3, fun h => t1 (s4 hn h) f3⟩

/-- The second moment is never negative, and infinite from a square that overflows on. -/
theorem second_facts (lib : Roots) (hs : Sound lib) (s : Moments) (g : F32) (hg : Number g) (hv : Within 0 inf s.v) :
    Within 0 inf (s.next lib g).v ∧ (s.v = inf → (s.next lib g).v = inf) ∧ (lib.pow g two = inf → (s.next lib g).v = inf) := by
  have hp := (within_iff _ _ _ num_zero num_inf).mp (hs.square_range g hg)
  obtain ⟨v1, v2, v3⟩ := (within_iff _ _ _ num_zero num_inf).mp hv
  obtain ⟨p1, p2, p3⟩ := hp
  rw [val_zero] at p2 v2
  obtain ⟨-, fb, -, fc, -, -, pb, -, pc, -⟩ := consts
  have nonneg : ∀ c x : F32, Rounding.Finite c → 0 < val c → Num x → 0 ≤ val x → Num (c * x) ∧ 0 ≤ val (c * x) := by
    intro c x hc h0 hx hx0
    rcases num_cases x hx with ⟨hf, -⟩ | ⟨hi, -⟩
    · exact ⟨by rw [mul_facts c x hc hf]; exact rounded_num _ _ _, (mul_sign c x hc hf).1 h0.le hx0⟩
    · rw [eq_inf x hx hi hx0, mul_inf c hc h0]
      exact ⟨num_inf, inf_facts.2.le⟩
  obtain ⟨a1, a2⟩ := nonneg beta2 s.v fb pb v1 v2
  obtain ⟨b1, b2⟩ := nonneg (one - beta2) (lib.pow g two) fc pc p1 p2
  show Within 0 inf (beta2 * s.v + (one - beta2) * lib.pow g two) ∧ (_ → beta2 * s.v + (one - beta2) * lib.pow g two = inf) ∧
    (_ → beta2 * s.v + (one - beta2) * lib.pow g two = inf)
  refine ⟨?_, fun h => ?_, fun h => ?_⟩
  · rcases num_cases _ a1 with ⟨hf, -⟩ | ⟨hi, -⟩
    · have hn := (add_facts _ _ hf b1).1
      exact (within_iff _ _ _ num_zero num_inf).mpr ⟨hn, by rw [val_zero]; exact (add_sign _ _ hf b1).1 a2 b2, by
        rw [inf_facts.1]; exact val_le _ hn⟩
    · rw [eq_inf _ a1 hi a2, (add_inf _ b1 b2).2]
      decide +kernel
  · rw [h, mul_inf beta2 fb pb, (add_inf _ b1 b2).2]
  · rw [h, mul_inf _ fc pc, (add_inf _ a1 a2).1]

end Verif.FloatAdam
