import Verif.Lemmas.RoundingOrder
import Verif.Model.FloatActivation

/-!
The operations on 32-bit floats, infinities included, keep or reverse the order of their arguments.
-/
namespace Verif.FloatOrder
open FloatBits Rounding FloatActivation
open FloatArith (flt)

/-- Not a NaN. -/
def Num (a : F32) : Prop := isNaN a.bits = false

instance (a : F32) : Decidable (Num a) := by unfold Num; infer_instance

/-- The number of units, with sign; the infinities continue the finite numbers. -/
def val (a : F32) : Int := value a.bits

theorem val_units (a : F32) : val a = if neg a.bits then -(a.units : Int) else (a.units : Int) := rfl

theorem val_abs (a : F32) : (val a).natAbs = a.units := abs_value a

theorem ge_iff (a b : F32) : F32.ge a b = true ↔ Num a ∧ Num b ∧ val b ≤ val a := by
  unfold F32.ge Num val
  simp [and_assoc]

theorem lt_iff (a b : F32) : F32.lt a b = true ↔ Num a ∧ Num b ∧ val a < val b := by
  unfold F32.lt flt Num val
  simp [and_assoc]

/-- Infinite, finite or not a number. -/
theorem num_cases (a : F32) (h : Num a) : (Rounding.Finite a ∧ isInf a.bits = false) ∨ (isInf a.bits = true ∧ a.units = pattern 0x7F800000) := by
  unfold Num isNaN at h
  unfold Rounding.Finite isFinite isInf F32.units pattern
  by_cases he : expo a.bits = 255
  · right
    have hf : frac a.bits = 0 := by simpa [he] using h
    rw [he, hf]
    exact ⟨by decide, rfl⟩
  · left
    simp [he]

theorem finite_num (a : F32) (h : Rounding.Finite a) : Num a := (finite_not a h).1

theorem pattern_le (a : F32) (h : Num a) : a.units ≤ pattern 0x7F800000 := by
  rcases num_cases a h with ⟨hf, -⟩ | ⟨-, h⟩
  · rw [units_pattern]
    refine pattern_strict.monotone ?_
    have h1 : expo a.bits ≠ 255 := by simpa [Rounding.Finite, isFinite] using hf
    unfold expo at h1
    unfold mag
    have := a.bits.isLt
    omega
  · exact h.le

theorem finite_lt (a : F32) (hf : Rounding.Finite a) : a.units < pattern 0x7F800000 := by
  rw [units_pattern]
  refine pattern_strict ?_
  have h1 : expo a.bits ≠ 255 := by simpa [Rounding.Finite, isFinite] using hf
  unfold expo at h1
  unfold mag
  have := a.bits.isLt
  omega

theorem val_le (a : F32) (h : Num a) : val a ≤ pattern 0x7F800000 := by
  have := pattern_le a h
  rw [val_units]
  generalize pattern 0x7F800000 = p at *
  split <;> omega

theorem neg_val_le (a : F32) (h : Num a) : -(pattern 0x7F800000 : Int) ≤ val a := by
  have := pattern_le a h
  rw [val_units]
  generalize pattern 0x7F800000 = p at *
  split <;> omega

theorem rounded_num (b : Bool) (n d : Nat) : Num (F32.rounded b n d) := (rounded_bits b n d).2.2

theorem rounded_neg (b : Bool) (n d : Nat) : neg (F32.rounded b n d).bits = b := (rounded_bits b n d).2.1

/-! ### Signs -/

theorem xor_neg (x : BitVec 32) : neg (x ^^^ 0x80000000#32) = !neg x ∧ expo (x ^^^ 0x80000000#32) = expo x ∧ frac (x ^^^ 0x80000000#32) = frac x := by
  have e : (x ^^^ 0x80000000#32).toNat = if 2 ^ 31 ≤ x.toNat then x.toNat - 2 ^ 31 else x.toNat + 2 ^ 31 := by
    have h1 : x ^^^ 0x80000000#32 = x + 0x80000000#32 := by
      apply BitVec.eq_of_toNat_eq
      rw [BitVec.toNat_xor, BitVec.toNat_add]
      have hx := x.isLt
      have := Nat.div_add_mod x.toNat (2 ^ 31)
      apply Nat.eq_of_testBit_eq
      intro i
      rw [Nat.testBit_xor]
      have h2 : (0x80000000#32).toNat = 2 ^ 31 := rfl
      rw [h2, Nat.testBit_mod_two_pow]
      rcases Nat.lt_trichotomy i 31 with h | h | h
      · rw [Nat.testBit_two_pow_of_ne (by omega), Bool.xor_false]
        rw [show decide (i < 32) = true by simp; omega, Bool.true_and, Nat.add_comm, Nat.testBit_two_pow_add_gt h]
      · subst h
        rw [Nat.add_comm, Nat.testBit_two_pow_add_eq, Nat.testBit_two_pow_self]
        simp
      · rw [Nat.testBit_two_pow_of_ne (by omega), Bool.xor_false, show decide (i < 32) = false by simp; omega, Bool.false_and]
        exact Nat.testBit_lt_two_pow (lt_of_lt_of_le hx (Nat.pow_le_pow_right (by omega) (by omega)))
    rw [h1, BitVec.toNat_add]
    have hx := x.isLt
    have h2 : (0x80000000#32).toNat = 2 ^ 31 := rfl
    rw [h2]
    split <;> omega
  have hx := x.isLt
  unfold neg expo frac
  rw [e]
  refine ⟨?_, ?_, ?_⟩
  · by_cases h : 2 ^ 31 ≤ x.toNat
    · rw [if_pos h, decide_eq_true h, decide_eq_false (by omega), Bool.not_true]
    · rw [if_neg h, decide_eq_false h, decide_eq_true (by omega), Bool.not_false]
  · split <;> omega
  · split <;> omega

theorem negate_val (a : F32) : val (F32.negate a) = -val a := by
  obtain ⟨h1, h2, h3⟩ := xor_neg a.bits
  unfold val value F32.negate
  simp only [h1, h2, h3]
  cases neg a.bits <;> simp

theorem negate_num (a : F32) : Num (F32.negate a) ↔ Num a := by
  obtain ⟨h1, h2, h3⟩ := xor_neg a.bits
  unfold Num isNaN F32.negate
  simp only [h2, h3]

theorem negate_finite (a : F32) : Rounding.Finite (F32.negate a) ↔ Rounding.Finite a := by
  obtain ⟨h1, h2, h3⟩ := xor_neg a.bits
  unfold Rounding.Finite isFinite F32.negate
  simp only [h2]

theorem abs_facts (a : F32) : neg (F32.abs a).bits = false ∧ (F32.abs a).units = a.units ∧ (Num (F32.abs a) ↔ Num a) ∧
    (Rounding.Finite (F32.abs a) ↔ Rounding.Finite a) := by
  have e : (a.bits &&& 0x7FFFFFFF#32).toNat = a.bits.toNat % 2 ^ 31 := by
    rw [BitVec.toNat_and]
    exact Nat.and_two_pow_sub_one_eq_mod a.bits.toNat 31
  have h1 : neg (a.bits &&& 0x7FFFFFFF#32) = false := by
    unfold neg
    rw [e]
    simp only [decide_eq_false_iff_not]
    omega
  have h2 : expo (a.bits &&& 0x7FFFFFFF#32) = expo a.bits := by unfold expo; rw [e]; omega
  have h3 : frac (a.bits &&& 0x7FFFFFFF#32) = frac a.bits := by unfold frac; rw [e]; omega
  unfold F32.abs F32.units Num Rounding.Finite isNaN isFinite
  simp only [h1, h2, h3, iff_self, and_self]

/-- A function that keeps signs and the order of magnitudes keeps the order. -/
theorem odd_mono (x y x' y' : F32) (hx : neg x'.bits = neg x.bits) (hy : neg y'.bits = neg y.bits)
    (h1 : x.units ≤ y.units → x'.units ≤ y'.units) (h2 : y.units ≤ x.units → y'.units ≤ x'.units) (h3 : x.units = 0 → x'.units = 0)
    (h4 : y.units = 0 → y'.units = 0) (h : val x ≤ val y) : val x' ≤ val y' := by
  rw [val_units, val_units] at h ⊢
  rw [hx, hy]
  revert h
  cases neg x.bits <;> cases neg y.bits <;> simp only [Bool.false_eq_true, if_false, if_true] <;> intro h
  · have := h1 (by omega); omega
  · have := h3 (by omega); have := h4 (by omega); omega
  · omega
  · have := h2 (by omega); omega

/-! ### Multiplication by a positive number -/

theorem mul_pos_facts (c x : F32) (hc : Rounding.Finite c) (hn : neg c.bits = false) (h0 : 0 < c.units) (hx : Num x) :
    Num (c * x) ∧ neg (c * x).bits = neg x.bits ∧
      (isInf x.bits = false → (c * x).units = (F32.rounded (neg x.bits) (c.units * x.units) (2 ^ 149)).units) ∧
      (isInf x.bits = true → (c * x).units = pattern 0x7F800000) := by
  show Num (F32.mul c x) ∧ neg (F32.mul c x).bits = neg x.bits ∧ _
  obtain ⟨c1, c2⟩ := finite_not c hc
  have hv : value c.bits ≠ 0 := by
    intro h
    have := val_abs c
    unfold val at this
    rw [h] at this
    simp at this
    omega
  rcases num_cases x hx with ⟨hf, hi⟩ | ⟨hi, hu⟩
  · have e : F32.mul c x = F32.rounded (neg x.bits) (c.units * x.units) (2 ^ 149) := by
      unfold F32.mul
      rw [c1, c2, show isNaN x.bits = false from hx, hi, hn]
      simp only [Bool.or_self, Bool.false_eq_true, if_false, Bool.false_bne]
    refine ⟨by rw [e]; exact rounded_num _ _ _, by rw [e]; exact rounded_neg _ _ _, fun _ => ?_, fun h => by rw [hi] at h; cases h⟩
    show (F32.mul c x).units = _
    rw [e]
  · have hvx : value x.bits ≠ 0 := by
      intro h
      have := val_abs x
      unfold val at this
      rw [h, hu] at this
      revert this
      decide +kernel
    have e : F32.mul c x = ⟨if neg x.bits then 0xFF800000#32 else 0x7F800000#32⟩ := by
      unfold F32.mul
      rw [c1, c2, show isNaN x.bits = false from hx, hi, hn]
      simp only [Bool.or_self, Bool.false_eq_true, if_false, Bool.false_bne, Bool.false_or, if_true]
      rw [if_neg (by rintro (h | h); exacts [hv h, hvx h])]
    refine ⟨by rw [e]; cases neg x.bits <;> decide, by rw [e]; cases neg x.bits <;> decide, fun h => (by rw [hi] at h; cases h), fun _ => ?_⟩
    show (F32.mul c x).units = _
    rw [e]
    cases neg x.bits <;> decide +kernel

theorem mul_mono (c x y : F32) (hc : Rounding.Finite c) (hn : neg c.bits = false) (h0 : 0 < c.units) (hx : Num x) (hy : Num y) (h : val x ≤ val y) :
    val (c * x) ≤ val (c * y) := by
  have units_mono : ∀ x y : F32, Num x → Num y → x.units ≤ y.units → (c * x).units ≤ (c * y).units := by
    intro x y hx hy h
    obtain ⟨x1, x2, x3, x4⟩ := mul_pos_facts c x hc hn h0 hx
    obtain ⟨y1, y2, y3, y4⟩ := mul_pos_facts c y hc hn h0 hy
    rcases num_cases y hy with ⟨yf, yi⟩ | ⟨yi, yu⟩
    · rcases num_cases x hx with ⟨xf, xi⟩ | ⟨xi, xu⟩
      · rw [x3 xi, y3 yi]
        exact rounded_mono _ _ _ _ _ _ (Nat.two_pow_pos _) (Nat.two_pow_pos _) (Nat.mul_le_mul_right _ (Nat.mul_le_mul_left _ h))
      · have := finite_lt y yf
        rw [xu] at h
        exact absurd h (by generalize pattern 0x7F800000 = p at *; omega)
    · rw [y4 yi]
      exact pattern_le _ x1
  have zero : ∀ x : F32, Num x → x.units = 0 → (c * x).units = 0 := by
    intro x hx h
    obtain ⟨x1, x2, x3, x4⟩ := mul_pos_facts c x hc hn h0 hx
    rcases num_cases x hx with ⟨xf, xi⟩ | ⟨xi, xu⟩
    · rw [x3 xi, h, Nat.mul_zero]
      have := rounded_le (neg x.bits) 0 (2 ^ 149) (Nat.two_pow_pos _) 0 (by decide) (Nat.zero_le _)
      have h0 : F32.units 0 = 0 := by decide
      omega
    · rw [xu] at h
      exact absurd h (by decide +kernel)
  exact odd_mono x y _ _ (mul_pos_facts c x hc hn h0 hx).2.1 (mul_pos_facts c y hc hn h0 hy).2.1 (units_mono x y hx hy) (units_mono y x hy hx) (zero x hx)
    (zero y hy) h

/-! ### Adding a finite number -/

theorem add_facts (c x : F32) (hc : Rounding.Finite c) (hx : Num x) :
    Num (c + x) ∧ (isInf x.bits = true → c + x = x) ∧
      (isInf x.bits = false → val c + val x = 0 → val (c + x) = 0) ∧
      (isInf x.bits = false → val c + val x ≠ 0 → c + x = F32.rounded (decide (val c + val x < 0)) (val c + val x).natAbs 1) := by
  show Num (F32.add c x) ∧ (_ → F32.add c x = x) ∧ (_ → _ → val (F32.add c x) = 0) ∧ (_ → _ → F32.add c x = _)
  obtain ⟨c1, c2⟩ := finite_not c hc
  rcases num_cases x hx with ⟨hf, hi⟩ | ⟨hi, hu⟩
  · by_cases h0 : val c + val x = 0
    · have e : F32.add c x = ⟨if neg c.bits && neg x.bits then 0x80000000#32 else 0#32⟩ := by
        unfold F32.add
        rw [c1, c2, show isNaN x.bits = false from hx, hi]
        simp only [Bool.or_self, Bool.false_eq_true, if_false]
        rw [if_pos (show value c.bits + value x.bits = 0 from h0)]
      refine ⟨?_, fun h => by (rw [hi] at h; cases h), fun _ _ => ?_, fun _ h => absurd h0 h⟩
      · rw [e]; cases (neg c.bits && neg x.bits) <;> decide
      · rw [e]; cases (neg c.bits && neg x.bits) <;> decide
    · have e : F32.add c x = F32.rounded (decide (val c + val x < 0)) (val c + val x).natAbs 1 := by
        unfold F32.add
        rw [c1, c2, show isNaN x.bits = false from hx, hi]
        simp only [Bool.or_self, Bool.false_eq_true, if_false]
        rw [if_neg (show ¬ value c.bits + value x.bits = 0 from h0)]
        rfl
      exact ⟨by rw [e]; exact rounded_num _ _ _, fun h => by (rw [hi] at h; cases h), fun _ h => absurd h h0, fun _ _ => e⟩
  · have e : F32.add c x = x := by
      unfold F32.add
      rw [c1, c2, show isNaN x.bits = false from hx, hi]
      simp only [Bool.or_self, Bool.false_eq_true, if_false, if_true]
    exact ⟨by rw [e]; exact hx, fun _ => e, fun h => by (rw [hi] at h; cases h), fun h => by (rw [hi] at h; cases h)⟩

theorem rounded_val_mono (a b : Int) (h : a ≤ b) :
    val (F32.rounded (decide (a < 0)) a.natAbs 1) ≤ val (F32.rounded (decide (b < 0)) b.natAbs 1) := by
  rw [val_units, val_units, rounded_neg, rounded_neg]
  have key : ∀ b b' (m n : Nat), m ≤ n → (F32.rounded b m 1).units ≤ (F32.rounded b' n 1).units := fun b b' m n h =>
    rounded_mono b b' m 1 n 1 (by omega) (by omega) (by omega)
  by_cases h1 : a < 0
  · by_cases h2 : b < 0
    · have := key (decide (b < 0)) (decide (a < 0)) b.natAbs a.natAbs (by omega)
      simp only [h1, h2, decide_true, if_true] at this ⊢
      omega
    · simp only [h1, h2, decide_true, decide_false, if_true, Bool.false_eq_true, if_false]
      omega
  · have h2 : ¬ b < 0 := by omega
    have := key (decide (a < 0)) (decide (b < 0)) a.natAbs b.natAbs (by omega)
    simp only [h1, h2, decide_false, Bool.false_eq_true, if_false] at this ⊢
    omega

theorem rounded_val_sign (a : Int) (ha : a ≠ 0) :
    (0 ≤ a → 0 ≤ val (F32.rounded (decide (a < 0)) a.natAbs 1)) ∧ (a ≤ 0 → val (F32.rounded (decide (a < 0)) a.natAbs 1) ≤ 0) := by
  rw [val_units, rounded_neg]
  constructor <;> intro h
  · rw [if_neg (by simp; omega)]; omega
  · rw [if_pos (by simp; omega)]; omega

theorem add_mono (c x y : F32) (hc : Rounding.Finite c) (hx : Num x) (hy : Num y) (h : val x ≤ val y) : val (c + x) ≤ val (c + y) := by
  obtain ⟨x1, x2, x3, x4⟩ := add_facts c x hc hx
  obtain ⟨y1, y2, y3, y4⟩ := add_facts c y hc hy
  rcases num_cases y hy with ⟨yf, yi⟩ | ⟨yi, yu⟩
  · rcases num_cases x hx with ⟨xf, xi⟩ | ⟨xi, xu⟩
    · have x3 := x3 xi
      have x4 := x4 xi
      have y3 := y3 yi
      have y4 := y4 yi
      generalize hs : val c + val x = s at *
      generalize ht : val c + val y = t at *
      have hst : s ≤ t := by omega
      by_cases s0 : s = 0
      · rw [x3 s0]
        by_cases t0 : t = 0
        · rw [y3 t0]
        · rw [y4 t0]
          exact (rounded_val_sign t t0).1 (by omega)
      · rw [x4 s0]
        by_cases t0 : t = 0
        · rw [y3 t0]
          exact (rounded_val_sign s s0).2 (by omega)
        · rw [y4 t0]
          exact rounded_val_mono s t hst
    · rw [x2 xi]
      have hl := finite_lt y yf
      have hval : val x ≤ 0 := by
        have ey := val_units y
        have ex := val_units x
        rw [xu] at ex
        generalize pattern 0x7F800000 = p at *
        split at ex <;> split at ey <;> omega
      have : val x = -(pattern 0x7F800000 : Int) := by
        have ex := val_units x
        rw [xu] at ex
        generalize pattern 0x7F800000 = p at *
        split at ex <;> omega
      rw [this]
      exact neg_val_le _ y1
  · rw [y2 yi]
    by_cases hn : neg y.bits = true
    · have ey := val_units y
      rw [if_pos hn, yu] at ey
      have hxl := neg_val_le x hx
      have exy : val x = val y := by
        generalize pattern 0x7F800000 = p at *
        omega
      have xi : isInf x.bits = true := by
        rcases num_cases x hx with ⟨xf, xi⟩ | ⟨xi, xu⟩
        · have hl := finite_lt x xf
          have ex := val_units x
          rw [exy, ey] at ex
          generalize pattern 0x7F800000 = p at *
          split at ex <;> omega
        · exact xi
      rw [x2 xi, exy]
    · have ey := val_units y
      rw [if_neg hn, yu] at ey
      rw [ey]
      exact val_le _ x1

/-! ### Dividing a positive number -/

theorem div_facts (y : F32) (hy : Num y) (h1 : val one ≤ val y) :
    Num (one / y) ∧ 0 ≤ val (one / y) ∧ (isInf y.bits = true → one / y = 0) ∧
      (isInf y.bits = false → one / y = F32.rounded false (2 ^ 149 * 2 ^ 149) y.units) := by
  show Num (F32.div one y) ∧ 0 ≤ val (F32.div one y) ∧ (_ → F32.div one y = 0) ∧ (_ → F32.div one y = _)
  have o1 : isNaN one.bits = false := by decide
  have o2 : isInf one.bits = false := by decide
  have o3 : neg one.bits = false := by decide
  have o4 : F32.units one = 2 ^ 149 := by decide +kernel
  have o5 : (0 : Int) < val one := by decide +kernel
  have hn : neg y.bits = false := by
    by_contra hne
    have ey := val_units y
    rw [if_pos (by simpa using hne)] at ey
    generalize val one = o at *
    omega
  have hu : y.units ≠ 0 := by
    intro h
    have ey := val_units y
    rw [h] at ey
    generalize val one = o at *
    split at ey <;> omega
  rcases num_cases y hy with ⟨hf, hi⟩ | ⟨hi, hu'⟩
  · have e : F32.div one y = F32.rounded false (2 ^ 149 * 2 ^ 149) y.units := by
      unfold F32.div
      rw [o1, o2, o3, show isNaN y.bits = false from hy, hi, hn, o4]
      simp only [Bool.or_self, Bool.false_eq_true, if_false, bne_self_eq_false]
      rw [if_neg hu]
    refine ⟨by rw [e]; exact rounded_num _ _ _, ?_, fun h => (by rw [hi] at h; cases h), fun _ => e⟩
    rw [e, val_units, rounded_neg]
    simp
  · have e : F32.div one y = 0 := by
      unfold F32.div
      rw [o1, o2, o3, show isNaN y.bits = false from hy, hi, hn]
      simp only [Bool.or_self, Bool.false_eq_true, if_false, bne_self_eq_false, if_true]
      rfl
    exact ⟨by rw [e]; decide, by rw [e]; decide, fun _ => e, fun h => (by rw [hi] at h; cases h)⟩

theorem div_anti (x y : F32) (hx : Num x) (hy : Num y) (h1 : val one ≤ val x) (h : val x ≤ val y) : val (one / y) ≤ val (one / x) := by
  obtain ⟨x1, x2, x3, x4⟩ := div_facts x hx h1
  obtain ⟨y1, y2, y3, y4⟩ := div_facts y hy (le_trans h1 h)
  have o5 : (0 : Int) < val one := by decide +kernel
  have pos : ∀ z : F32, val one ≤ val z → val z = z.units ∧ 0 < z.units := by
    intro z hz
    have ez := val_units z
    generalize val one = o at *
    split at ez <;> omega
  obtain ⟨px, px'⟩ := pos x h1
  obtain ⟨py, py'⟩ := pos y (le_trans h1 h)
  rcases num_cases y hy with ⟨yf, yi⟩ | ⟨yi, yu⟩
  · rcases num_cases x hx with ⟨xf, xi⟩ | ⟨xi, xu⟩
    · rw [x4 xi, y4 yi, val_units, val_units, rounded_neg, rounded_neg]
      simp only [Bool.false_eq_true, if_false]
      have hxy : x.units ≤ y.units := by omega
      have := rounded_mono false false (2 ^ 149 * 2 ^ 149) y.units (2 ^ 149 * 2 ^ 149) x.units py' px' (Nat.mul_le_mul_left _ hxy)
      exact_mod_cast this
    · have := finite_lt y yf
      rw [px, py, xu] at h
      exact absurd h (by generalize pattern 0x7F800000 = p at *; omega)
  · rw [y3 yi]
    exact le_trans (by decide) x2

end Verif.FloatOrder
