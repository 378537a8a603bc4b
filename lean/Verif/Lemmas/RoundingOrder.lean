import Verif.Lemmas.RoundingNetwork

/-!
Rounding to 32-bit floats keeps the order of numbers.
-/
namespace Verif.Rounding
open Verif FloatBits FloatArith

theorem roundUnits_scale (k num den : Nat) (hk : 0 < k) : roundUnits (k * num) (k * den) = roundUnits num den := by
  unfold roundUnits
  rw [Nat.mul_div_mul_left _ _ hk]
  simp only [Nat.mul_assoc k den]
  rw [Nat.mul_div_mul_left _ _ hk, Nat.mul_mod_mul_left]
  generalize Nat.log2 (num / den) - 23 = s
  generalize num / (den * 2 ^ s) = q
  generalize num % (den * 2 ^ s) = r
  generalize den * 2 ^ s = w
  have e1 : k * w < 2 * (k * r) ↔ w < 2 * r := by
    rw [show 2 * (k * r) = k * (2 * r) by ring]
    exact Nat.mul_lt_mul_left hk
  have e2 : 2 * (k * r) = k * w ↔ 2 * r = w := by
    rw [show 2 * (k * r) = k * (2 * r) by ring]
    exact Nat.mul_right_inj hk.ne'
  simp only [e1, e2]

theorem log2_mono {a b : Nat} (h : a ≤ b) : Nat.log2 a ≤ Nat.log2 b := by
  rcases Nat.eq_zero_or_pos a with h0 | h0
  · rw [h0]; exact Nat.zero_le _
  · rw [Nat.le_log2 (by omega)]
    exact le_trans ((Nat.le_log2 h0.ne').mp (le_refl _)) h

theorem roundUnits_mono_num (a b den : Nat) (hden : 0 < den) (h : a ≤ b) : roundUnits a den ≤ roundUnits b den := by
  have hl := log2_mono (Nat.div_le_div_right (c := den) h)
  obtain ⟨s, hs⟩ : ∃ s, Nat.log2 (a / den) - 23 = s := ⟨_, rfl⟩
  obtain ⟨t, ht⟩ : ∃ t, Nat.log2 (b / den) - 23 = t := ⟨_, rfl⟩
  obtain ⟨hq1, hq2⟩ := quotient_bounds a den s hs
  obtain ⟨hp1, hp2⟩ := quotient_bounds b den t ht
  have hst : s ≤ t := by omega
  unfold roundUnits
  simp only [hs, ht]
  refine min_le_min_right _ ?_
  rcases Nat.lt_or_ge s t with hlt | hge
  · have hp := hp1 (by omega)
    generalize a / (den * 2 ^ s) = q at *
    generalize b / (den * 2 ^ t) = p at *
    have m1 : ∀ c : Prop, [Decidable c] → (if c then q + 1 else q) ≤ 2 ^ 24 := by intro c _; split <;> omega
    have m2 : ∀ c : Prop, [Decidable c] → 2 ^ 23 ≤ (if c then p + 1 else p) := by intro c _; split <;> omega
    refine le_trans (Nat.add_le_add_left (m1 _) _) (le_trans ?_ (Nat.add_le_add_left (m2 _) _))
    omega
  · have e : s = t := by omega
    subst e
    refine Nat.add_le_add_left ?_ _
    have hw : 0 < den * 2 ^ s := Nat.mul_pos hden (Nat.two_pow_pos _)
    generalize den * 2 ^ s = w at *
    have hqp : a / w ≤ b / w := Nat.div_le_div_right h
    rcases Nat.lt_or_ge (a / w) (b / w) with hlt | hge
    · generalize a / w = q at *
      generalize b / w = p at *
      have m1 : ∀ c : Prop, [Decidable c] → (if c then q + 1 else q) ≤ q + 1 := by intro c _; split <;> omega
      have m2 : ∀ c : Prop, [Decidable c] → p ≤ (if c then p + 1 else p) := by intro c _; split <;> omega
      exact le_trans (m1 _) (le_trans (by omega) (m2 _))
    · have e : a / w = b / w := by omega
      have hr : a % w ≤ b % w := by
        have h1 := Nat.div_add_mod a w
        have h2 := Nat.div_add_mod b w
        rw [e] at h1
        generalize w * (b / w) = z at *
        omega
      rw [e]
      generalize b / w = p at *
      generalize a % w = r at *
      generalize b % w = r' at *
      by_cases c : w < 2 * r ∨ (2 * r = w ∧ p % 2 = 1)
      · rw [if_pos c, if_pos (by omega)]
      · rw [if_neg c]
        split <;> omega

/-- The larger the number, the larger the pattern of its rounding. -/
theorem roundUnits_mono (a c b d : Nat) (hc : 0 < c) (hd : 0 < d) (h : a * d ≤ b * c) : roundUnits a c ≤ roundUnits b d := by
  rw [← roundUnits_scale d a c hd, ← roundUnits_scale c b d hc, Nat.mul_comm d c]
  exact roundUnits_mono_num _ _ _ (Nat.mul_pos hc hd) (by rw [Nat.mul_comm d, Nat.mul_comm c b]; exact h)

theorem roundUnits_le (a c : Nat) : roundUnits a c ≤ 0x7F800000 := by
  unfold roundUnits
  exact Nat.min_le_right _ _

/-- The units of a pattern without its sign. -/
def pattern (r : Nat) : Nat := magUnits (r / 2 ^ 23) (r % 2 ^ 23)

theorem pattern_step (r : Nat) : pattern r < pattern (r + 1) := by
  unfold pattern magUnits
  have hd := Nat.div_add_mod r (2 ^ 23)
  have hm := Nat.mod_lt r (show 0 < 2 ^ 23 by norm_num)
  obtain ⟨e, he⟩ : ∃ e, r / 2 ^ 23 = e := ⟨_, rfl⟩
  obtain ⟨f, hf⟩ : ∃ f, r % 2 ^ 23 = f := ⟨_, rfl⟩
  rw [he, hf] at hd
  rw [hf] at hm
  rw [he, hf]
  by_cases hlast : f + 1 < 2 ^ 23
  · rw [show (r + 1) / 2 ^ 23 = e by omega, show (r + 1) % 2 ^ 23 = f + 1 by omega]
    by_cases h0 : e = 0
    · rw [if_pos h0, if_pos h0]; omega
    · rw [if_neg h0, if_neg h0]
      exact (Nat.mul_lt_mul_right (Nat.two_pow_pos _)).mpr (by omega)
  · rw [show (r + 1) / 2 ^ 23 = e + 1 by omega, show (r + 1) % 2 ^ 23 = 0 by omega]
    rw [if_neg (show e + 1 ≠ 0 by omega)]
    by_cases h0 : e = 0
    · rw [if_pos h0, h0, show 0 + 1 - 1 = 0 by omega, pow_zero]; omega
    · rw [if_neg h0]
      obtain ⟨e', rfl⟩ : ∃ e', e = e' + 1 := ⟨e - 1, by omega⟩
      rw [show e' + 1 - 1 = e' by omega, show e' + 1 + 1 - 1 = e' + 1 by omega, pow_succ]
      have : (2 ^ 23 + f) * 2 ^ e' < 2 ^ 24 * 2 ^ e' := (Nat.mul_lt_mul_right (Nat.two_pow_pos _)).mpr (by omega)
      calc (2 ^ 23 + f) * 2 ^ e' < 2 ^ 24 * 2 ^ e' := this
        _ = (2 ^ 23 + 0) * (2 ^ e' * 2) := by ring

theorem pattern_strict : StrictMono pattern := strictMono_nat_of_lt_succ pattern_step

theorem units_pattern (a : F32) : a.units = pattern (mag a.bits) := by
  unfold F32.units pattern mag expo frac
  congr 1 <;> omega

/-- What the rounded float is. -/
theorem rounded_bits (b : Bool) (num den : Nat) :
    mag (F32.rounded b num den).bits = roundUnits num den ∧ neg (F32.rounded b num den).bits = b ∧ isNaN (F32.rounded b num den).bits = false := by
  have h := roundUnits_le num den
  have ht : (F32.rounded b num den).bits.toNat = roundUnits num den + if b then 2 ^ 31 else 0 := by
    unfold F32.rounded
    rw [BitVec.toNat_ofNat]
    refine Nat.mod_eq_of_lt ?_
    have : ∀ k, k ≤ 2 ^ 31 → roundUnits num den + k < 2 ^ 32 := by omega
    exact this _ (by cases b <;> decide)
  unfold mag neg isNaN expo frac
  rw [ht]
  generalize roundUnits num den = r at *
  refine ⟨by cases b <;> simp <;> omega, by cases b <;> simp <;> omega, ?_⟩
  have : ∀ k, k = 0 ∨ k = 2 ^ 31 → ((r + k) / 2 ^ 23 % 256 == 255 && (r + k) % 2 ^ 23 != 0) = false := by
    intro k hk
    by_cases hr : r = 0x7F800000
    · subst hr
      rcases hk with h | h <;> subst h <;> decide
    · have : (r + k) / 2 ^ 23 % 256 ≠ 255 := by
        rcases hk with h | h <;> subst h <;> omega
      rw [beq_eq_false_iff_ne.mpr this, Bool.false_and]
  exact this _ (by cases b <;> simp)

theorem rounded_units (b : Bool) (num den : Nat) : (F32.rounded b num den).units = pattern (roundUnits num den) := by
  rw [units_pattern, (rounded_bits b num den).1]

theorem rounded_mono (b b' : Bool) (a c x d : Nat) (hc : 0 < c) (hd : 0 < d) (h : a * d ≤ x * c) :
    (F32.rounded b a c).units ≤ (F32.rounded b' x d).units := by
  rw [rounded_units, rounded_units]
  exact pattern_strict.monotone (roundUnits_mono a c x d hc hd h)

/-- A number that is at most a float is rounded to at most the float. -/
theorem rounded_le (b : Bool) (num den : Nat) (hden : 0 < den) (q : F32) (hq : Finite q) (h : num ≤ q.units * den) :
    (F32.rounded b num den).units ≤ q.units := by
  rw [← (rounded_exact b q hq den hden).2.1]
  exact rounded_mono _ _ _ _ _ _ hden hden (Nat.mul_le_mul_right _ h)

theorem le_rounded (b : Bool) (num den : Nat) (hden : 0 < den) (q : F32) (hq : Finite q) (h : q.units * den ≤ num) :
    q.units ≤ (F32.rounded b num den).units := by
  rw [← (rounded_exact b q hq den hden).2.1]
  exact rounded_mono _ _ _ _ _ _ hden hden (Nat.mul_le_mul_right _ h)

end Verif.Rounding
