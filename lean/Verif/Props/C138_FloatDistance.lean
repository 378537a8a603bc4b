import Verif.Lemmas.FloatDistance
import Verif.Props.C136_FloatAdam

/-!
C138: the losses that measure a distance, on 32-bit floats. What is averaged is never negative, 0 for a right prediction, and never smaller for a prediction that
is further away; the derivative of `mse` and `smae` has the right sign for all finite numbers, however close. The squares underflow and overflow: different
numbers can have loss 0, and finite ones an infinite loss, also for `smae`, which is meant to be linear there. The derivative of `mae` has the wrong sign.
-/
namespace Verif.FloatDistance
open Verif FloatBits Rounding FloatOrder FloatActivation FloatLoss FloatAdam

theorem select_eq (m a b : F32) : select m a b = a := by
  unfold select
  simp

theorem term_eq (lib : Roots) (t p : F32) : term lib .mse t p = lib.pow (p - t) two ∧ term lib .mae t p = (p - t).abs ∧
    term lib .smae t p = half * lib.pow (p - t) two := by
  have hd : ∀ (d m u : F32), select m (half * lib.pow d two) u = half * lib.pow d two := fun d m u => select_eq m _ u
  refine ⟨?_, ?_, ?_⟩
  · unfold term
    rw [if_pos rfl, error]
  · unfold term
    rw [if_neg (by decide), error]
  · unfold term
    rw [if_neg (by decide), error]
    exact hd _ _ _

theorem half_facts : Rounding.Finite half ∧ neg half.bits = false ∧ 0 < half.units := by decide +kernel

/-- What is averaged is a number and not negative. -/
theorem C138_range (lib : Roots) (hs : Squares lib) (kind : Kind) (t p : F32) (ht : IsFinite t) (hp : IsFinite p) : Within 0 inf (term lib kind t p) := by
  obtain ⟨e1, e2, e3⟩ := term_eq lib t p
  have hn := (sub_units p t hp ht).1
  have hsq := hs.sound.square_range (p - t) hn
  cases kind
  · rw [e1]; exact hsq
  · rw [e2]
    obtain ⟨a1, a2, a3, -⟩ := abs_facts (p - t)
    have hnum := a3.mpr hn
    refine (within_iff _ _ _ num_zero num_inf).mpr ⟨hnum, ?_, by rw [inf_facts.1]; exact val_le _ hnum⟩
    rw [val_zero, val_units, a1]
    simp
  · rw [e3]
    obtain ⟨w1, w2, -⟩ := (within_iff _ _ _ num_zero num_inf).mp hsq
    rw [val_zero] at w2
    obtain ⟨m1, -⟩ := mul_pos_facts half _ half_facts.1 half_facts.2.1 half_facts.2.2 w1
    refine (within_iff _ _ _ num_zero num_inf).mpr ⟨m1, ?_, by rw [inf_facts.1]; exact val_le _ m1⟩
    have := mul_mono half 0 _ half_facts.1 half_facts.2.1 half_facts.2.2 num_zero w1 (by rw [val_zero]; exact w2)
    rw [mul_zero_val half 0 half_facts.1 (by decide) (Or.inr (by decide))] at this
    rw [val_zero]
    exact this

/-- A prediction that is further away is never better. -/
theorem C138_order (lib : Roots) (hs : Squares lib) (kind : Kind) (t p q : F32) (ht : IsFinite t) (hp : IsFinite p) (hq : IsFinite q)
    (h : distance t p ≤ distance t q) : F32.ge (term lib kind t q) (term lib kind t p) = true := by
  obtain ⟨p1, p2, p3⟩ := term_eq lib t p
  obtain ⟨q1, q2, q3⟩ := term_eq lib t q
  have hd := sub_units_mono t p q ht hp hq h
  have hsq := hs.sound.square_order (p - t) (q - t) hd
  cases kind
  · rw [p1, q1]; exact hsq
  · rw [p2, q2]; exact hd
  · rw [p3, q3]
    obtain ⟨a1, a2, a3⟩ := (ge_iff _ _).mp hsq
    exact (ge_iff _ _).mpr ⟨(mul_pos_facts half _ half_facts.1 half_facts.2.1 half_facts.2.2 a1).1, (mul_pos_facts half _ half_facts.1 half_facts.2.1 half_facts.2.2 a2).1,
      mul_mono half _ _ half_facts.1 half_facts.2.1 half_facts.2.2 a2 a1 a3⟩

/-- A right prediction has loss 0; for `mae` no other has. -/
theorem C138_exact (lib : Roots) (hs : Squares lib) (kind : Kind) (t p : F32) (ht : IsFinite t) (hp : IsFinite p) :
    (Equal p t → Equal (term lib kind t p) 0) ∧ (kind = .mae → Equal (term lib kind t p) 0 → Equal p t) := by
  obtain ⟨e1, e2, e3⟩ := term_eq lib t p
  have hn := (sub_units p t hp ht).1
  obtain ⟨s1, s2, s3⟩ := sub_sign p t hp ht
  constructor
  · intro h
    have hv : val p = val t := le_antisymm ((ge_iff _ _).mp h.2).2.2 ((ge_iff _ _).mp h.1).2.2
    have h0 := s3 hv
    have hz : (p - t).units = 0 := by have := val_abs (p - t); rw [h0] at this; exact this.symm
    have hsq : Num (lib.pow (p - t) two) ∧ val (lib.pow (p - t) two) = 0 := by
      have hle := hs.sound.square_order (p - t) 0 (by
        obtain ⟨a1, a2, a3, -⟩ := abs_facts (p - t)
        refine (ge_iff _ _).mpr ⟨by decide, a3.mpr hn, ?_⟩
        rw [val_units, a1, a2, hz]
        decide +kernel)
      rw [hs.zero] at hle
      obtain ⟨w1, w2, -⟩ := (within_iff _ _ _ num_zero num_inf).mp (hs.sound.square_range (p - t) hn)
      have := ((ge_iff _ _).mp hle).2.2
      rw [val_zero] at this w2
      exact ⟨w1, by omega⟩
    have fin : ∀ x : F32, Num x → val x = 0 → Equal x 0 := fun x h1 h2 =>
      ⟨(ge_iff _ _).mpr ⟨h1, num_zero, by rw [val_zero, h2]⟩, (ge_iff _ _).mpr ⟨num_zero, h1, by rw [val_zero, h2]⟩⟩
    cases kind
    · rw [e1]; exact fin _ hsq.1 hsq.2
    · rw [e2]
      obtain ⟨a1, a2, a3, -⟩ := abs_facts (p - t)
      refine fin _ (a3.mpr hn) ?_
      rw [val_units, a1, a2, hz]
      rfl
    · rw [e3]
      have hu : (lib.pow (p - t) two).units = 0 := by have := val_abs (lib.pow (p - t) two); rw [hsq.2] at this; exact this.symm
      have hf : Rounding.Finite (lib.pow (p - t) two) := finite_of_le _ 0 hsq.1 (by decide) (by omega)
      exact fin _ (mul_pos_facts half _ half_facts.1 half_facts.2.1 half_facts.2.2 hsq.1).1 (mul_zero_val half _ half_facts.1 hf (Or.inr hu))
  · intro hk h
    subst hk
    rw [e2] at h
    obtain ⟨a1, a2, a3, -⟩ := abs_facts (p - t)
    have h1 := ((ge_iff _ _).mp h.2).2.2
    rw [val_zero, val_units, a1, a2] at h1
    simp only [Bool.false_eq_true, if_false] at h1
    have h2 := val_abs (p - t)
    have hv : val p = val t := by
      rcases lt_trichotomy (val p) (val t) with hlt | heq | hgt
      · have := s2 hlt; omega
      · exact heq
      · have := s1 hgt; omega
    exact ⟨(ge_iff _ _).mpr ⟨finite_num _ hp, finite_num _ ht, hv.ge⟩, (ge_iff _ _).mpr ⟨finite_num _ ht, finite_num _ hp, hv.le⟩⟩

/-- The derivative of `mse` and of `smae` has the sign of the difference between prediction and truth, however small the difference is. -/
theorem C138_sign_partial (lib : Roots) (kind : Kind) (hk : kind ≠ .mae) (t p : F32) (ht : IsFinite t) (hp : IsFinite p) : Uphill (derivative lib kind) t p := by
  have hn := (sub_units p t hp ht).1
  obtain ⟨s1, s2, s3⟩ := sub_sign p t hp ht
  have e : ∃ c, (c = one ∨ c = two) ∧ derivative lib kind t p = c * (p - t) := by
    cases kind
    · exact ⟨two, Or.inr rfl, rfl⟩
    · exact absurd rfl hk
    · refine ⟨one, Or.inl rfl, ?_⟩
      unfold derivative
      simp only
      rw [select_eq]
  obtain ⟨c, hc, e⟩ := e
  obtain ⟨m1, m2, m3, m4⟩ := scale_sign c (p - t) hc hn
  unfold Uphill
  rw [e]
  refine ⟨fun h => ?_, fun h => ?_, fun h => ?_⟩
  · exact (lt_iff _ _).mpr ⟨num_zero, m1, by rw [val_zero]; exact m2 (s1 ((lt_iff _ _).mp h).2.2)⟩
  · exact (lt_iff _ _).mpr ⟨m1, num_zero, by rw [val_zero]; exact m3 (s2 ((lt_iff _ _).mp h).2.2)⟩
  · have hv := m4 (s3 (le_antisymm ((ge_iff _ _).mp h.2).2.2 ((ge_iff _ _).mp h.1).2.2))
    exact ⟨(ge_iff _ _).mpr ⟨m1, num_zero, by rw [val_zero, hv]⟩, (ge_iff _ _).mpr ⟨num_zero, m1, by rw [val_zero, hv]⟩⟩

/-- `-1.0f * x` has the opposite sign. -/
theorem minus_sign (x : F32) (hx : Num x) : Num (minusOne * x) ∧ val (minusOne * x) = -val x := by
  rcases num_cases x hx with ⟨hf, -⟩ | ⟨hi, hu⟩
  · have hm : Rounding.Finite minusOne := by decide
    have hu1 : minusOne.units = 2 ^ 149 := by decide +kernel
    rw [mul_facts minusOne x hm hf, hu1, Nat.mul_comm]
    obtain ⟨r1, r2, -⟩ := rounded_exact (neg minusOne.bits != neg x.bits) x hf (2 ^ 149) (Nat.two_pow_pos _)
    refine ⟨rounded_num _ _ _, ?_⟩
    rw [val_units, rounded_neg, r2, val_units x, show neg minusOne.bits = true by decide]
    cases neg x.bits <;> simp
  · have hnz : value x.bits ≠ 0 := by
      have := val_abs x
      rw [hu] at this
      intro h
      have h2 : val x = 0 := h
      rw [h2] at this
      exact absurd this (by decide +kernel)
    have e : minusOne * x = ⟨if neg minusOne.bits != neg x.bits then 0xFF800000#32 else 0x7F800000#32⟩ := by
      show F32.mul minusOne x = _
      unfold F32.mul
      rw [if_neg (by rw [show isNaN minusOne.bits = false by decide, show isNaN x.bits = false from hx]; simp), hi, if_pos (by simp),
        if_neg (by
          rintro (h | h)
          · exact absurd h (by decide +kernel)
          · exact hnz h)]
    rw [e, show neg minusOne.bits = true by decide, val_units x, hu]
    cases neg x.bits <;> decide +kernel

/-- "The derivative points uphill" does not hold for `mae`: for every wrong prediction its sign is the opposite, so that training moves away from the truth. -/
theorem C138_mae_violated (lib : Roots) (t p : F32) (ht : IsFinite t) (hp : IsFinite p) :
    (F32.lt t p = true → F32.lt (derivative lib .mae t p) 0 = true) ∧ (F32.lt p t = true → F32.lt 0 (derivative lib .mae t p) = true) := by
  have hn := (sub_units p t hp ht).1
  obtain ⟨s1, s2, -⟩ := sub_sign p t hp ht
  obtain ⟨m1, m2⟩ := minus_sign (p - t) hn
  show (_ → F32.lt (minusOne * (p - t)) 0 = true) ∧ (_ → F32.lt 0 (minusOne * (p - t)) = true)
  constructor <;> intro h
  · have := s1 ((lt_iff _ _).mp h).2.2
    exact (lt_iff _ _).mpr ⟨m1, num_zero, by rw [val_zero, m2]; omega⟩
  · have := s2 ((lt_iff _ _).mp h).2.2
    exact (lt_iff _ _).mpr ⟨num_zero, m1, by rw [val_zero, m2]; omega⟩

/-- "The loss is 0 only for a right prediction" does not hold for `mse` and `smae`: differences of up to 2^-76 have loss 0, although the derivative is not 0. -/
theorem C138_underflow_violated (lib : Roots) (hs : Squares lib) (kind : Kind) (hk : kind ≠ .mae) (t p : F32) (ht : IsFinite t) (hp : IsFinite p)
    (h : AtMost tiny (p - t)) : Equal (term lib kind t p) 0 := by
  obtain ⟨e1, e2, e3⟩ := term_eq lib t p
  have hn := (sub_units p t hp ht).1
  have hle := hs.sound.square_order (p - t) tiny (by rw [show F32.abs tiny = tiny by decide]; exact h)
  rw [hs.small] at hle
  obtain ⟨w1, w2, -⟩ := (within_iff _ _ _ num_zero num_inf).mp (hs.sound.square_range (p - t) hn)
  have h3 := ((ge_iff _ _).mp hle).2.2
  rw [val_zero] at h3 w2
  have hv : val (lib.pow (p - t) two) = 0 := by omega
  have hu : (lib.pow (p - t) two).units = 0 := by have := val_abs (lib.pow (p - t) two); rw [hv] at this; exact this.symm
  have hf : Rounding.Finite (lib.pow (p - t) two) := finite_of_le _ 0 w1 (by decide) (by omega)
  have fin : ∀ x : F32, Num x → val x = 0 → Equal x 0 := fun x h1 h2 =>
    ⟨(ge_iff _ _).mpr ⟨h1, num_zero, by rw [val_zero, h2]⟩, (ge_iff _ _).mpr ⟨num_zero, h1, by rw [val_zero, h2]⟩⟩
  cases kind
  · rw [e1]; exact fin _ w1 hv
  · exact absurd rfl hk
  · rw [e3]
    exact fin _ (mul_pos_facts half _ half_facts.1 half_facts.2.1 half_facts.2.2 w1).1 (mul_zero_val half _ half_facts.1 hf (Or.inr hu))

/-- "The loss of finite numbers is finite" does not hold for `mse`, nor for `smae`, which is documented to grow only linearly: it is infinite for differences of
2^64 and more. -/
theorem C138_overflow_violated (lib : Roots) (hs : Squares lib) (kind : Kind) (hk : kind ≠ .mae) (t p : F32) (ht : IsFinite t) (hp : IsFinite p)
    (h : F32.ge (p - t).abs two64 = true) : term lib kind t p = inf := by
  obtain ⟨e1, e2, e3⟩ := term_eq lib t p
  have hn := (sub_units p t hp ht).1
  have hle := hs.sound.square_order two64 (p - t) (by rw [show F32.abs two64 = two64 by decide]; exact h)
  rw [hs.sound.square_64] at hle
  obtain ⟨w1, w2, w3⟩ := (within_iff _ _ _ num_zero num_inf).mp (hs.sound.square_range (p - t) hn)
  have h3 := ((ge_iff _ _).mp hle).2.2
  have hv : lib.pow (p - t) two = inf := val_inj _ _ (by omega) inf_facts.2
  cases kind
  · rw [e1]; exact hv
  · exact absurd rfl hk
  · rw [e3, hv]; decide

/-! ### Examples -/

theorem exactRoots_squares : Squares exactRoots := ⟨exactRoots_sound, by show (0 : F32) * 0 = 0; decide, by show tiny * tiny = 0; decide +kernel⟩

theorem plain_squares : Squares plain := ⟨plain_sound, by show (0 : F32) * 0 = 0; decide, by show tiny * tiny = 0; decide +kernel⟩

/-- The losses of predicting 3 for the truth 1: 4, 2 and 2 (`smae` would be 1.5 if it did what it says). -/
example : term plain .mse one three = ⟨0x40800000#32⟩ ∧ term plain .mae one three = two ∧ term plain .smae one three = two := by decide +kernel

/-- -5 is further from 1 than 3. -/
example (kind : Kind) : F32.ge (term exactRoots kind one minusFive) (term exactRoots kind one three) = true := by
  refine C138_order exactRoots exactRoots_squares kind one three minusFive (by decide) (by decide) (by decide) ?_
  have h1 : real one = 1 := by unfold real; rw [show value one.bits = 2 ^ 149 by decide +kernel]; norm_num
  have h3 : real three = 3 := by unfold real; rw [show value three.bits = 3 * 2 ^ 149 by decide +kernel]; norm_num
  have h5 : real minusFive = -5 := by unfold real; rw [show value minusFive.bits = -5 * 2 ^ 149 by decide +kernel]; norm_num
  unfold distance
  rw [h1, h3, h5]
  norm_num

example : Within 0 inf (term exactRoots .mse one three) ∧ Equal (term exactRoots .smae one one) 0 :=
  ⟨C138_range _ exactRoots_squares _ _ _ (by decide) (by decide), (C138_exact _ exactRoots_squares .smae one one (by decide) (by decide)).1 (by decide)⟩

/-- The smallest positive float as a prediction for the truth 0: the derivative is positive, the loss 0. -/
example : F32.lt 0 (derivative exactRoots .mse 0 ⟨1#32⟩) = true ∧ Equal (term exactRoots .mse 0 ⟨1#32⟩) 0 :=
  ⟨(C138_sign_partial exactRoots .mse (by decide) 0 ⟨1#32⟩ (by decide) (by decide)).1 (by decide),
    C138_underflow_violated exactRoots exactRoots_squares .mse (by decide) 0 ⟨1#32⟩ (by decide) (by decide) (by decide +kernel)⟩

/-- The prediction 3 for the truth 1: the derivative of `mae` is negative. -/
example : F32.lt (derivative exactRoots .mae one three) 0 = true := (C138_mae_violated exactRoots one three (by decide) (by decide)).1 (by decide)

/-- The prediction 2^64 for the truth 0. -/
example : term exactRoots .smae 0 two64 = inf := C138_overflow_violated exactRoots exactRoots_squares .smae (by decide) 0 two64 (by decide) (by decide) (by decide +kernel)

end Verif.FloatDistance
