import Verif.Model.Float32
import Mathlib.Tactic.Ring
import Mathlib.Tactic.Linarith
import Mathlib.Data.Nat.Log

/-!
Rounding to the nearest 32-bit float: the error is at most half a unit in the last place.
-/
namespace Verif.Rounding
open Verif FloatBits FloatArith

/-- The largest finite float, in units. -/
def top : Nat := (2 ^ 24 - 1) * 2 ^ 253

theorem shift_bounds (n : Nat) (hn : 0 < n) (s : Nat) (hs : Nat.log2 n - 23 = s) : (0 < s → 2 ^ 23 * 2 ^ s ≤ n) ∧ n < 2 ^ 24 * 2 ^ s := by
  have hl := (Nat.log2_eq_iff hn.ne' (k := Nat.log2 n)).mp rfl
  rcases Nat.eq_zero_or_pos s with h0 | h0
  · subst h0
    refine ⟨fun h => absurd h (by omega), ?_⟩
    rw [pow_zero, Nat.mul_one]
    exact (Nat.log2_lt hn.ne' (k := 24)).mp (by omega)
  · have e : Nat.log2 n = 23 + s := by omega
    rw [e] at hl
    rw [← pow_add, ← pow_add]
    exact ⟨fun _ => hl.1, by rw [show 24 + s = 23 + s + 1 by omega]; exact hl.2⟩

theorem quotient_bounds (num den s : Nat) (hs : Nat.log2 (num / den) - 23 = s) :
    (0 < s → 2 ^ 23 ≤ num / (den * 2 ^ s)) ∧ num / (den * 2 ^ s) < 2 ^ 24 := by
  rw [← Nat.div_div_eq_div_mul]
  rcases Nat.eq_zero_or_pos (num / den) with h0 | h0
  · rw [h0] at hs ⊢
    rw [show Nat.log2 0 = 0 by rfl] at hs
    rw [Nat.zero_div]
    exact ⟨fun h => absurd h (by omega), by omega⟩
  · obtain ⟨h1, h2⟩ := shift_bounds _ h0 s hs
    exact ⟨fun h => (Nat.le_div_iff_mul_le (Nat.two_pow_pos _)).mpr (h1 h), (Nat.div_lt_iff_lt_mul (Nat.two_pow_pos _)).mpr h2⟩

theorem shift_le (num den s : Nat) (hs : Nat.log2 (num / den) - 23 = s) (hmax : num ≤ den * top) : s ≤ 253 := by
  rcases Nat.eq_zero_or_pos (num / den) with h0 | h0
  · rw [h0] at hs
    rw [show Nat.log2 0 = 0 by rfl] at hs
    omega
  · have h1 : num / den ≤ top := by
      rw [Nat.mul_comm] at hmax
      exact Nat.div_le_of_le_mul (by rw [Nat.mul_comm]; exact hmax)
    have h2 : top < 2 ^ 277 := by decide +kernel
    have := (Nat.log2_lt h0.ne' (k := 277)).mpr (lt_of_le_of_lt h1 h2)
    omega

/-- What rounding gives: a significand and an exponent, off by at most half a step. -/
theorem roundUnits_spec (num den : Nat) (hden : 0 < den) (hmax : num ≤ den * top) :
    ∃ m s, roundUnits num den = s * 2 ^ 23 + m ∧ m ≤ 2 ^ 24 ∧ (0 < s → 2 ^ 23 ≤ m) ∧ s * 2 ^ 23 + m < 255 * 2 ^ 23 ∧
      2 * (m * (den * 2 ^ s)) ≤ 2 * num + den * 2 ^ s ∧ 2 * num ≤ 2 * (m * (den * 2 ^ s)) + den * 2 ^ s ∧
      (0 < s → 2 ^ 23 * (den * 2 ^ s) ≤ num) ∧ (den = 1 → s = 0 → m = num) := by
  obtain ⟨s, hs⟩ : ∃ s, Nat.log2 (num / den) - 23 = s := ⟨_, rfl⟩
  obtain ⟨hq1, hq2⟩ := quotient_bounds num den s hs
  have hs253 := shift_le num den s hs hmax
  have hw : 0 < den * 2 ^ s := Nat.mul_pos hden (Nat.two_pow_pos _)
  have hdm := Nat.div_add_mod num (den * 2 ^ s)
  have hmod := Nat.mod_lt num hw
  have htop : s = 253 → num / (den * 2 ^ s) = 2 ^ 24 - 1 → num % (den * 2 ^ s) = 0 := by
    intro h1 h2
    rw [h2] at hdm
    have e : den * 2 ^ s * (2 ^ 24 - 1) = den * top := by rw [h1]; unfold top; ring
    rw [e] at hdm
    generalize den * top = t at *
    omega
  have hone : den = 1 → s = 0 → num % (den * 2 ^ s) = 0 := by
    intro h1 h2
    rw [h1, h2, pow_zero, Nat.one_mul, Nat.mod_one]
  have hlow : 0 < s → 2 ^ 23 * (den * 2 ^ s) ≤ num := fun h => (Nat.le_div_iff_mul_le hw).mp (hq1 h)
  unfold roundUnits
  simp only [hs]
  generalize hW : den * 2 ^ s = w at *
  generalize hQ : num / w = q at *
  generalize num % w = r at *
  have e1 : (q + 1) * w = w * q + w := by ring
  have e2 : q * w = w * q := by ring
  by_cases hup : w < 2 * r ∨ (2 * r = w ∧ q % 2 = 1)
  · have hfin : s * 2 ^ 23 + (q + 1) < 255 * 2 ^ 23 := by
      by_cases h : s = 253
      · have : q ≠ 2 ^ 24 - 1 := by
          intro hq
          have := htop h hq
          omega
        omega
      · omega
    refine ⟨q + 1, s, ?_, by omega, fun h => by have := hq1 h; omega, hfin, ?_, ?_, ?_, ?_⟩
    all_goals try rw [hW]
    · rw [if_pos hup]
      exact Nat.min_eq_left (by omega)
    · rw [e1]; generalize w * q = x at *; omega
    · rw [e1]; generalize w * q = x at *; omega
    · exact hlow
    · intro h1 h2
      have := hone h1 h2
      omega
  · refine ⟨q, s, ?_, by omega, hq1, by omega, ?_, ?_, ?_, ?_⟩
    all_goals try rw [hW]
    · rw [if_neg hup]
      exact Nat.min_eq_left (by omega)
    · rw [e2]; generalize w * q = x at *; omega
    · rw [e2]; generalize w * q = x at *; omega
    · exact hlow
    · intro h1 h2
      have hr := hone h1 h2
      rw [h1, h2] at hW
      subst hW
      omega

/-- What the pattern with exponent shift `s` and significand `m` and either sign denotes. -/
theorem toNat_of (s m : Nat) (b : Bool) (hs : s * 2 ^ 23 + m < 255 * 2 ^ 23) :
    (BitVec.ofNat 32 (s * 2 ^ 23 + m + if b then 2 ^ 31 else 0)).toNat = s * 2 ^ 23 + m + if b then 2 ^ 31 else 0 := by
  rw [BitVec.toNat_ofNat]
  refine Nat.mod_eq_of_lt ?_
  have : ∀ k, k ≤ 2 ^ 31 → s * 2 ^ 23 + m + k < 2 ^ 32 := by omega
  exact this _ (by cases b <;> decide)

theorem units_of (x : BitVec 32) (s m : Nat) (b : Bool) (hm : m ≤ 2 ^ 24) (h : 0 < s → 2 ^ 23 ≤ m) (hs : s * 2 ^ 23 + m < 255 * 2 ^ 23)
    (hx : x.toNat = s * 2 ^ 23 + m + if b then 2 ^ 31 else 0) :
    magUnits (expo x) (frac x) = m * 2 ^ s ∧ expo x ≠ 255 ∧ neg x = b := by
  have hf : frac x = (s * 2 ^ 23 + m) % 2 ^ 23 := by
    unfold frac
    rw [hx]
    split <;> omega
  have he : expo x = (s * 2 ^ 23 + m) / 2 ^ 23 := by
    unfold expo
    rw [hx]
    split <;> omega
  have hn : neg x = b := by
    unfold neg
    rw [hx]
    cases b <;> simp <;> omega
  rw [hf, he]
  refine ⟨?_, by omega, hn⟩
  by_cases h1 : m < 2 ^ 23
  · have hs0 : s = 0 := by
      by_contra hne
      have := h (by omega)
      omega
    subst hs0
    rw [show (0 * 2 ^ 23 + m) / 2 ^ 23 = 0 by omega, show (0 * 2 ^ 23 + m) % 2 ^ 23 = m by omega]
    simp [magUnits]
  · by_cases h2 : m = 2 ^ 24
    · subst h2
      rw [show (s * 2 ^ 23 + 2 ^ 24) / 2 ^ 23 = s + 2 by omega, show (s * 2 ^ 23 + 2 ^ 24) % 2 ^ 23 = 0 by omega]
      unfold magUnits
      rw [if_neg (by omega), show s + 2 - 1 = s + 1 by omega, pow_succ]
      ring
    · rw [show (s * 2 ^ 23 + m) / 2 ^ 23 = s + 1 by omega, show (s * 2 ^ 23 + m) % 2 ^ 23 = m - 2 ^ 23 by omega]
      unfold magUnits
      rw [if_neg (by omega), show 2 ^ 23 + (m - 2 ^ 23) = m by omega, show s + 1 - 1 = s by omega]

/-- The rounded float and how far it is off: relative to the number by 2^-24, or by half a unit. -/
theorem rounded_spec (b : Bool) (num den : Nat) (hden : 0 < den) (hmax : num ≤ den * top) :
    isFinite (F32.rounded b num den).bits = true ∧ neg (F32.rounded b num den).bits = b ∧
      ∃ v, (F32.rounded b num den).units = v ∧
        ((2 ^ 24 * (v * den) ≤ 2 ^ 24 * num + num ∧ 2 ^ 24 * num ≤ 2 ^ 24 * (v * den) + num) ∨
          (den ≠ 1 ∧ 2 * (v * den) ≤ 2 * num + den ∧ 2 * num ≤ 2 * (v * den) + den)) := by
  obtain ⟨m, s, h1, h2, h3, h4, h5, h6, h7, h8⟩ := roundUnits_spec num den hden hmax
  obtain ⟨g1, g2, g3⟩ := units_of _ s m b h2 h3 h4 (toNat_of s m b h4)
  unfold F32.units F32.rounded
  rw [h1]
  refine ⟨by simp only [isFinite, bne_iff_ne]; exact g2, g3, _, g1, ?_⟩
  have e : m * 2 ^ s * den = m * (den * 2 ^ s) := by ring
  rw [e]
  rcases Nat.eq_zero_or_pos s with h0 | h0
  · by_cases hd : den = 1
    · left
      have hm := h8 hd h0
      rw [hd, h0, hm, pow_zero, Nat.mul_one]
      omega
    · right
      rw [h0, pow_zero, Nat.mul_one] at h5 h6
      rw [h0, pow_zero, Nat.mul_one]
      exact ⟨hd, h5, h6⟩
  · left
    have h7 := h7 h0
    generalize den * 2 ^ s = w at *
    generalize m * w = x at *
    omega

end Verif.Rounding
