import Verif.Lemmas.QuarterFloat

/-!
C03, C04, C05: the 8-bit float. `value`, `neg`, `isFinite` are the IEEE-754 reading of a 32-bit pattern in units of
2^-149 (see `Model/FloatBits.lean`), so the number 2^-b is `2 ^ (149 - b)` units.

Recorded disagreements with the full properties:
* C03: at biases 12..15 code 0x80 decodes to a float that encodes to 0 (`C03_tiny_violated`). All other
  non-reserved codes are stable at every bias.
* C04: every negative number with magnitude below 17/16 * 2^-bias (including -0) reads back as a strictly positive
  number (`C04_sign_violated`, and `C04_sign_iff_partial` shows these are the only ones).
* C05: a non-negative number in [2^-bias, 17/16 * 2^-bias) reads back as about half of 2^-bias
  (`C05_lowest_violated`); NaN patterns other than the two canonical ones become finite
  (`C05_other_nan_violated`).
-/
namespace Verif.QuarterFloat
open Verif.FloatBits

/-- Store as 8 bit at bias `b`, read back. -/
abbrev roundTrip (x : BitVec 32) (b : Nat) : BitVec 32 := quarterToFloat (floatToQuarter x b) b

/-- The codes with exponent field 15 that are neither an infinity nor the NaN code. -/
def reserved (q : BitVec 8) : Bool :=
  q.toNat / 8 % 16 == 15 && q != QUARTER_POS_INFINITY && q != QUARTER_NEG_INFINITY && q != QUARTER_NAN

/-- Decode-then-encode fixes exactly the non-reserved codes, except 0x80 at biases above 11. -/
theorem C03_code_iff_partial (q : BitVec 8) (b : Nat) (hb1 : 1 ≤ b) (hb : b ≤ 15) :
    floatToQuarter (quarterToFloat q b) b = q ↔ (reserved q = false ∧ (q = 0x80#8 → b ≤ 11)) := by
  have table : ∀ b : Fin 16, 1 ≤ b.val → ∀ q : Fin 256,
      (floatToQuarter (quarterToFloat (BitVec.ofNat 8 q.val) (b.val : Int)) (b.val : Int) = BitVec.ofNat 8 q.val ↔
        (reserved (BitVec.ofNat 8 q.val) = false ∧ (BitVec.ofNat 8 q.val = 0x80#8 → b.val ≤ 11))) := by
    decide +kernel
  have := table ⟨b, by omega⟩ hb1 ⟨q.toNat, q.isLt⟩
  simpa using this

/-- C03 as stated fails: at bias 12 the non-reserved code 0x80 comes back as code 0. -/
theorem C03_tiny_violated :
    ¬ ∀ (q : BitVec 8) (b : Nat), 4 ≤ b → b ≤ 15 → reserved q = false →
      floatToQuarter (quarterToFloat q b) b = q := by
  intro h
  exact absurd (h 0x80#8 12 (by decide) (by decide) (by decide)) (by decide)

/-- The encoder never emits a reserved code. -/
theorem encode_not_reserved (x : BitVec 32) (b : Nat) (hb1 : 1 ≤ b) (hb : b ≤ 15) :
    reserved (floatToQuarter x b) = false := by
  have h := encode_toNat x b hb1 hb
  have hsl : sgn x < 2 := by unfold sgn; split <;> omega
  have hfl : frac x < 2 ^ 23 := Nat.mod_lt _ (by decide)
  have hr := rnd_le _ hfl
  have key : ∀ q : BitVec 8, (q.toNat = 255 ∨ q.toNat = 0x78 ∨ q.toNat = 0xF8 ∨ q.toNat / 8 % 16 ≠ 15) →
      reserved q = false := by decide +kernel
  apply key
  rw [h]
  split
  · simp
  split
  · simp
  split
  · simp
  · right; right; right
    have := encN_cases b (x ≠ 0) (sgn x) (expo x) (frac x) hsl hfl hb1 hb
    omega

/-- Storing a value that was read from an 8-bit float stores the same code again (no drift), at biases 1..11. -/
theorem C03_restore_partial (x : BitVec 32) (b : Nat) (hb1 : 1 ≤ b) (hb : b ≤ 11) :
    floatToQuarter (roundTrip x b) b = floatToQuarter x b :=
  (C03_code_iff_partial _ b hb1 (by omega)).mpr ⟨encode_not_reserved x b hb1 (by omega), fun _ => hb⟩

theorem magOf_low (b : Nat) (hb : b ≤ 15) : magOf ((127 - b) * 2 ^ 23 + 2 ^ 19) = 17 * 2 ^ (145 - b) := by
  interval_cases b <;> decide

theorem not_special_of_finite (x : BitVec 32) (hx : isFinite x = true) :
    x ≠ FLOAT_NEG_NAN ∧ x ≠ FLOAT_POS_NAN ∧ x ≠ FLOAT_INF ∧ x ≠ FLOAT_NEG_INF := by
  refine ⟨?_, ?_, ?_, ?_⟩ <;> (rintro rfl; revert hx; decide)

theorem encode_finite (x : BitVec 32) (b : Nat) (hb1 : 1 ≤ b) (hb : b ≤ 15) (hx : isFinite x = true) :
    (floatToQuarter x b).toNat = encN b (x ≠ 0) (sgn x) (expo x) (frac x) := by
  obtain ⟨h1, h2, h3, h4⟩ := not_special_of_finite x hx
  rw [encode_toNat x b hb1 hb]
  simp only [h1, h2, h3, h4, or_self, if_false]

theorem fields (x : BitVec 32) :
    x.toNat = sgn x * 2 ^ 31 + expo x * 2 ^ 23 + frac x ∧ mag x = expo x * 2 ^ 23 + frac x ∧
    frac x < 2 ^ 23 ∧ expo x < 256 ∧ sgn x < 2 := by
  have := x.isLt
  unfold sgn neg expo frac mag
  simp only [decide_eq_true_eq]
  split <;> omega

theorem encN_not_special (b : Nat) (nz : Prop) [Decidable nz] (s e f : Nat) (hb1 : 1 ≤ b) (hb : b ≤ 15)
    (hs : s < 2) (hf : f < 2 ^ 23) :
    encN b nz s e f < 256 ∧ encN b nz s e f ≠ 255 ∧ encN b nz s e f ≠ 0x78 ∧ encN b nz s e f ≠ 0xF8 := by
  have := rnd_le f hf
  have := encN_cases b nz s e f hs hf hb1 hb
  omega

theorem roundTrip_finite (x : BitVec 32) (b : Nat) (hb1 : 1 ≤ b) (hb : b ≤ 15) (hx : isFinite x = true) :
    (roundTrip x b).toNat = decN b (encN b (x ≠ 0) (sgn x) (expo x) (frac x)) := by
  obtain ⟨_, _, hf, _, hs⟩ := fields x
  obtain ⟨h0, h1, h2, h3⟩ := encN_not_special b (x ≠ 0) (sgn x) (expo x) (frac x) hb1 hb hs hf
  have he := encode_finite x b hb1 hb hx
  rw [roundTrip, decode_toNat _ b hb1 hb (by rw [he]; exact h1) (by rw [he]; exact h2) (by rw [he]; exact h3), he]

/-- Exactly which finite numbers lose their sign: the negative ones below 17/16 * 2^-b in magnitude. For all
others the result is zero or has the sign of the input. -/
theorem C04_sign_iff_partial (x : BitVec 32) (b : Nat) (hb1 : 1 ≤ b) (hb : b ≤ 15) (hx : isFinite x = true) :
    (value (roundTrip x b) = 0 ∨ neg (roundTrip x b) = neg x) ↔
      ¬ (neg x = true ∧ (value x).natAbs < 17 * 2 ^ (145 - b)) := by
  obtain ⟨hx1, hmag, hf, he, hs⟩ := fields x
  have hrt := roundTrip_finite x b hb1 hb hx
  have hr := rnd_le _ hf
  rw [natAbs_value, ← magOf_low b hb, ← not_le, magOf_le_iff]
  have hneg : neg x = true ↔ sgn x = 1 := by unfold sgn; split <;> simp_all
  have hv0 := value_eq_zero_iff (roundTrip x b)
  have hn' : neg (roundTrip x b) = neg x ↔ (2 ^ 31 ≤ (roundTrip x b).toNat ↔ sgn x = 1) := by
    rw [Bool.eq_iff_iff, hneg]; unfold neg; simp
  rw [hv0, hn', hneg, hrt]
  have hx0 : x ≠ 0 ↔ x.toNat ≠ 0 := by
    rw [ne_eq, ← BitVec.toNat_inj]; simp
  simp only [hx0]
  generalize sgn x = s at *
  generalize expo x = e at *
  generalize hg : frac x = f at *
  rw [hmag]
  clear hrt hneg hv0 hn' hmag
  have hs01 : s = 0 ∨ s = 1 := by omega
  rcases hs01 with rfl | rfl
  · have := decN_lt_of_pos b (x.toNat ≠ 0) e f hf hb1 hb
    omega
  · have := decN_of_neg b (x.toNat ≠ 0) e f hf hb1 hb
    omega

/-- C04 as stated fails at every bias: -2^-20 reads back strictly positive. -/
theorem C04_sign_violated (b : Nat) (h4 : 4 ≤ b) (hb : b ≤ 15) :
    ∃ x : BitVec 32, isFinite x = true ∧ value x < 0 ∧ 0 < value (roundTrip x b) := by
  refine ⟨0xB5800000#32, by decide, by decide, ?_⟩
  interval_cases b <;> decide

/-- Non-negative numbers never read back negative. -/
theorem C04_nonneg (x : BitVec 32) (b : Nat) (hb1 : 1 ≤ b) (hb : b ≤ 15) (hx : isFinite x = true)
    (h : neg x = false) : 0 ≤ value (roundTrip x b) := by
  have := (C04_sign_iff_partial x b hb1 hb hx).mpr (by simp [h])
  rcases this with h' | h'
  · omega
  · rw [value_eq, h', h]; simp

/-- Saturation: every finite number at least as large in magnitude as the largest finite code stores as that code,
with the number's sign. -/
theorem C05_saturates (x : BitVec 32) (b : Nat) (hb1 : 1 ≤ b) (hb : b ≤ 15) (hx : isFinite x = true)
    (h : (value (quarterToFloat QUARTER_MAX b)).natAbs ≤ (value x).natAbs) :
    floatToQuarter x b = if neg x then QUARTER_MIN else QUARTER_MAX := by
  obtain ⟨hx1, hmag, hf, he, hs⟩ := fields x
  rw [natAbs_value, natAbs_value, magOf_le_iff] at h
  have hd : (quarterToFloat QUARTER_MAX b).toNat = decN b 0x77 :=
    decode_toNat QUARTER_MAX b hb1 hb (by decide) (by decide) (by decide)
  unfold mag at h
  rw [hd] at h
  unfold decN at h
  apply BitVec.eq_of_toNat_eq
  rw [encode_finite x b hb1 hb hx]
  have hneg : (if neg x = true then QUARTER_MIN else QUARTER_MAX).toNat = sgn x * 128 + 0x77 := by
    unfold sgn; split <;> rfl
  rw [hneg]
  unfold mag at hmag
  norm_num at h
  have h1 := encN_cases b (x ≠ 0) (sgn x) (expo x) (frac x) hs hf hb1 hb
  have h3 := rnd_cases (frac x)
  omega

/-- Infinities and the two canonical NaNs are preserved (NaN as the negative canonical NaN). -/
theorem C05_specials (b : Nat) (hb1 : 1 ≤ b) (hb : b ≤ 15) :
    roundTrip FLOAT_INF b = FLOAT_INF ∧ roundTrip FLOAT_NEG_INF b = FLOAT_NEG_INF ∧
    isNaN (roundTrip FLOAT_NEG_NAN b) = true ∧ isNaN (roundTrip FLOAT_POS_NAN b) = true ∧
    roundTrip 0#32 b = 0#32 := by
  interval_cases b <;> decide

/-- Finite numbers stay finite. -/
theorem C05_finite (x : BitVec 32) (b : Nat) (hb1 : 1 ≤ b) (hb : b ≤ 15) (hx : isFinite x = true) :
    isFinite (roundTrip x b) = true := by
  obtain ⟨hx1, hmag, hf, he, hs⟩ := fields x
  have hrt := roundTrip_finite x b hb1 hb hx
  obtain ⟨h0, h1, h2, h3⟩ := encN_not_special b (x ≠ 0) (sgn x) (expo x) (frac x) hb1 hb hs hf
  rw [HalfFloat.isFinite_iff]
  unfold mag
  rw [hrt]
  generalize encN b (x ≠ 0) (sgn x) (expo x) (frac x) = q at *
  have := decN_cases b q h0
  omega

/-- Rounding in the normal range 17/16 * 2^-b ≤ |x| < 2^(15-b): the result keeps sign and binade and the magnitude
is off by less than one step (an eighth of the binade's power of two, i.e. `2 ^ (e - 1 + 20)` units where `e` is the biased
exponent), and by at most half a step unless the three top mantissa bits are all ones (then it is rounded down). -/
theorem C05_rounds_partial (x : BitVec 32) (b : Nat) (hb1 : 1 ≤ b) (hb : b ≤ 15) (hx : isFinite x = true)
    (hlo : 17 * 2 ^ (145 - b) ≤ (value x).natAbs) (hhi : (value x).natAbs < 2 ^ (149 + 15 - b)) :
    neg (roundTrip x b) = neg x ∧ expo (roundTrip x b) = expo x ∧
    ((value (roundTrip x b)).natAbs < (value x).natAbs + 2 ^ 20 * 2 ^ (expo x - 1)) ∧
    ((value x).natAbs < (value (roundTrip x b)).natAbs + 2 ^ 20 * 2 ^ (expo x - 1)) ∧
    (frac x / 2 ^ 20 < 7 →
      (value (roundTrip x b)).natAbs ≤ (value x).natAbs + 2 ^ 19 * 2 ^ (expo x - 1) ∧
      (value x).natAbs ≤ (value (roundTrip x b)).natAbs + 2 ^ 19 * 2 ^ (expo x - 1)) := by
  obtain ⟨hx1, hmag, hf, he, hs⟩ := fields x
  have hrt := roundTrip_finite x b hb1 hb hx
  have hr := rnd_le _ hf
  rw [natAbs_value, ← magOf_low b hb, magOf_le_iff] at hlo
  have hup : magOf ((142 - b) * 2 ^ 23) = 2 ^ (149 + 15 - b) := by interval_cases b <;> decide
  rw [natAbs_value, ← hup, ← not_le, magOf_le_iff, not_le] at hhi
  have hx0 : x ≠ 0 ↔ x.toNat ≠ 0 := by
    rw [ne_eq, ← BitVec.toNat_inj]; simp
  simp only [hx0] at hrt
  have hcode : (roundTrip x b).toNat = sgn x * 2 ^ 31 + expo x * 2 ^ 23 + rnd (frac x) * 2 ^ 20 := by
    rw [hrt]
    have h1 := encN_cases b (x.toNat ≠ 0) (sgn x) (expo x) (frac x) hs hf hb1 hb
    have h2 := decN_cases b (encN b (x.toNat ≠ 0) (sgn x) (expo x) (frac x))
      (encN_not_special b _ _ _ _ hb1 hb hs hf).1
    have h3 := rnd_cases (frac x)
    generalize encN b (x.toNat ≠ 0) (sgn x) (expo x) (frac x) = q at *
    generalize decN b q = d at *
    generalize rnd (frac x) = r at *
    have hq : q = sgn x * 128 + (expo x - (127 - b)) * 8 + r := by omega
    have hq1 : q ≠ 128 := by omega
    have hq2 : q ≠ 0 := by omega
    have hs01 : sgn x = 0 ∨ sgn x = 1 := by omega
    have hd : d = (q / 128) * 2 ^ 31 + (q % 128 / 8 + (127 - b)) * 2 ^ 23 + (q % 8) * 2 ^ 20 := by omega
    rw [hd]
    rcases hs01 with h | h <;> rw [h] at hq ⊢ <;> omega
  have hexp : expo (roundTrip x b) = expo x := by unfold expo at *; omega
  have hfr : frac (roundTrip x b) = rnd (frac x) * 2 ^ 20 := by
    have : frac (roundTrip x b) = (roundTrip x b).toNat % 2 ^ 23 := rfl
    rw [this, hcode]; omega
  have hneg : neg (roundTrip x b) = neg x := by
    rw [Bool.eq_iff_iff]
    unfold neg
    rw [decide_eq_true_eq, decide_eq_true_eq, hcode, hx1]
    omega
  have e0 : expo x ≠ 0 := by omega
  refine ⟨hneg, hexp, ?_⟩
  rw [natAbs_value, natAbs_value, ← magUnits_eq, ← magUnits_eq, hexp, hfr]
  unfold magUnits
  rw [if_neg e0, if_neg e0]
  have hp : 0 < 2 ^ (expo x - 1) := Nat.two_pow_pos _
  generalize 2 ^ (expo x - 1) = P at *
  have hbd : rnd (frac x) * 2 ^ 20 < frac x + 2 ^ 20 ∧ frac x < rnd (frac x) * 2 ^ 20 + 2 ^ 20 ∧
      (frac x / 2 ^ 20 < 7 → rnd (frac x) * 2 ^ 20 ≤ frac x + 2 ^ 19 ∧ frac x ≤ rnd (frac x) * 2 ^ 20 + 2 ^ 19) := by
    unfold rnd; split_ifs <;> omega
  obtain ⟨b1, b2, b3⟩ := hbd
  refine ⟨?_, ?_, ?_⟩
  · rw [← add_mul]; exact Nat.mul_lt_mul_of_pos_right (by omega) hp
  · rw [← add_mul]; exact Nat.mul_lt_mul_of_pos_right (by omega) hp
  · intro h7
    obtain ⟨b3, b4⟩ := b3 h7
    constructor
    · rw [← add_mul]; exact Nat.mul_le_mul_right _ (by omega)
    · rw [← add_mul]; exact Nat.mul_le_mul_right _ (by omega)

/-- In the lowest binade the rounding claim fails: 2^-b itself reads back as less than 51% of its value. -/
theorem C05_lowest_violated (b : Nat) (h4 : 4 ≤ b) (hb : b ≤ 15) :
    ∃ x : BitVec 32, value x = 2 ^ (149 - b) ∧ 100 * value (roundTrip x b) < 51 * value x := by
  refine ⟨BitVec.ofNat 32 ((127 - b) * 2 ^ 23), ?_, ?_⟩ <;> interval_cases b <;> decide

/-- A NaN with any other payload becomes a finite number. -/
theorem C05_other_nan_violated (b : Nat) (h4 : 4 ≤ b) (hb : b ≤ 15) :
    ∃ x : BitVec 32, isNaN x = true ∧ isFinite (roundTrip x b) = true := by
  refine ⟨0x7FC00001#32, by decide, ?_⟩
  interval_cases b <;> decide

/-- Monotone on non-negative finite numbers. -/
theorem C05_monotone (x y : BitVec 32) (b : Nat) (hb1 : 1 ≤ b) (hb : b ≤ 15)
    (hx : isFinite x = true) (hy : isFinite y = true) (nx : neg x = false) (ny : neg y = false)
    (h : value x ≤ value y) : value (roundTrip x b) ≤ value (roundTrip y b) := by
  obtain ⟨hx1, hmx, hfx, hex, hsx⟩ := fields x
  obtain ⟨hy1, hmy, hfy, hey, hsy⟩ := fields y
  have rx := roundTrip_finite x b hb1 hb hx
  have ry := roundTrip_finite y b hb1 hb hy
  have lx := C04_nonneg x b hb1 hb hx nx
  have ly := C04_nonneg y b hb1 hb hy ny
  rw [value_eq, value_eq, nx, ny] at h
  simp only [Bool.false_eq_true, if_false, Nat.cast_le] at h
  rw [magOf_le_iff] at h
  apply value_le_of_nonneg _ _ lx ly
  have sx : sgn x = 0 := by unfold sgn; simp [nx]
  have sy : sgn y = 0 := by unfold sgn; simp [ny]
  have hx0 : x ≠ 0 ↔ x.toNat ≠ 0 := by
    rw [ne_eq, ← BitVec.toNat_inj]; simp
  have hy0 : y ≠ 0 ↔ y.toNat ≠ 0 := by
    rw [ne_eq, ← BitVec.toNat_inj]; simp
  simp only [hx0, sx] at rx
  simp only [hy0, sy] at ry
  unfold mag at h ⊢
  unfold mag at hmx hmy
  rw [rx, ry]
  rw [sx] at hx1
  rw [sy] at hy1
  have l1 := decN_lt_of_pos b (x.toNat ≠ 0) (expo x) (frac x) hfx hb1 hb
  have l2 := decN_lt_of_pos b (y.toNat ≠ 0) (expo y) (frac y) hfy hb1 hb
  rw [Nat.mod_eq_of_lt l1, Nat.mod_eq_of_lt l2]
  apply decN_mono b _ _ _ _ _ _ hfx hfy hb1 hb <;> omega

-- Non-vacuity: 0.3f at bias 8 is in the normal range and is rounded; 1e6 saturates; -1e-6 loses its sign.
example : 17 * 2 ^ (145 - 8) ≤ (value 0x3E99999A#32).natAbs ∧ (value 0x3E99999A#32).natAbs < 2 ^ (149 + 15 - 8) ∧
    roundTrip 0x3E99999A#32 8 = 0x3EA00000#32 := by decide
example : (value (quarterToFloat QUARTER_MAX 8)).natAbs ≤ (value 0x49742400#32).natAbs ∧
    floatToQuarter 0x49742400#32 8 = QUARTER_MAX := by decide
example : reserved 0x35#8 = false ∧ reserved 0x7A#8 = true := by decide

end Verif.QuarterFloat
