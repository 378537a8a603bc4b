import Verif.Model.Decimal
import Mathlib.Tactic.Ring
import Mathlib.Tactic.Linarith
import Mathlib.Tactic.IntervalCases
import Mathlib.Data.Nat.Log

namespace Verif.Decimal
open Verif.TextCodec Verif.FloatBits Verif.FloatArith

/-- A digit character. -/
def IsDigits (s : Str) : Prop := ∀ c ∈ s, Csv.isDigit c = true

theorem digit_char (d : Nat) (h : d < 10) : Csv.isDigit (UInt8.ofNat (48 + d)) = true ∧ (UInt8.ofNat (48 + d)).toNat - 48 = d := by
  interval_cases d <;> decide

theorem digitsValue_append (s : Str) (d : Nat) (h : d < 10) :
    digitsValue (s ++ [UInt8.ofNat (48 + d)]) = 10 * digitsValue s + d := by
  unfold digitsValue
  rw [List.foldl_append]
  simp only [List.foldl_cons, List.foldl_nil]
  rw [(digit_char d h).2]

theorem dec_spec (n : Nat) : digitsValue (dec n) = n ∧ IsDigits (dec n) ∧ dec n ≠ [] := by
  induction n using Nat.strong_induction_on with
  | _ n ih =>
    rw [dec]
    split
    · rename_i h
      refine ⟨?_, ?_, by simp⟩
      · have := digitsValue_append [] n h
        simpa [digitsValue] using this
      · intro c hc
        simp only [List.mem_singleton] at hc
        subst hc
        exact (digit_char n h).1
    · rename_i h
      obtain ⟨h1, h2, _⟩ := ih (n / 10) (by omega)
      refine ⟨?_, ?_, by simp⟩
      · rw [digitsValue_append _ _ (by omega), h1]; omega
      · intro c hc
        rw [List.mem_append, List.mem_singleton] at hc
        rcases hc with hc | rfl
        · exact h2 c hc
        · exact (digit_char _ (by omega)).1

theorem padded_spec (k n : Nat) : IsDigits (padded k n) ∧ (padded k n).length = k := by
  induction k generalizing n with
  | zero => exact ⟨by intro c hc; simp [padded] at hc, rfl⟩
  | succ k ih =>
    obtain ⟨h2, h3⟩ := ih (n / 10)
    refine ⟨?_, by simp [padded, h3]⟩
    intro c hc
    rw [padded, List.mem_append, List.mem_singleton] at hc
    rcases hc with hc | rfl
    · exact h2 c hc
    · exact (digit_char _ (by omega)).1

theorem digitsValue_padded (k n : Nat) (h : n < 10 ^ k) (s : Str) : digitsValue (s ++ padded k n) = digitsValue s * 10 ^ k + n := by
  induction k generalizing n with
  | zero => simp at h; subst h; simp [padded]
  | succ k ih =>
    rw [padded, ← List.append_assoc, digitsValue_append _ _ (by omega), ih (n / 10) (by rw [pow_succ] at h; omega), pow_succ]
    have := Nat.div_add_mod n 10
    generalize 10 ^ k = p at *
    nlinarith

theorem takeWhile_digits (s t : Str) (h : IsDigits s) (ht : ∀ c u, t = c :: u → Csv.isDigit c = false) :
    (s ++ t).takeWhile Csv.isDigit = s ∧ (s ++ t).dropWhile Csv.isDigit = t := by
  induction s with
  | nil =>
    cases t with
    | nil => simp
    | cons c u => simp [ht c u rfl]
  | cons c s ih =>
    have hc := h c List.mem_cons_self
    have := ih (fun d hd => h d (List.mem_cons_of_mem _ hd))
    simp [hc, this.1, this.2]

theorem stoull_dec (n : Nat) (h : n < 2 ^ 64) : stoull (dec n) = some n := by
  obtain ⟨h1, h2, h3⟩ := dec_spec n
  have ht := (takeWhile_digits (dec n) [] h2 (by intro c u hc; cases hc)).1
  rw [List.append_nil] at ht
  unfold stoull
  simp only [ht, h1, if_neg h3, if_pos h]

theorem asBool_asString (b : Bool) : asBool (asStringBool b) = b := by cases b <;> rfl

theorem nearest_close (a b : Nat) (hb : 0 < b) : 2 * (nearest a b * b) ≤ 2 * a + b ∧ 2 * a ≤ 2 * (nearest a b * b) + b := by
  have h := Nat.div_add_mod a b
  have hm := Nat.mod_lt a hb
  unfold nearest
  generalize a / b = q at *
  generalize a % b = r at *
  have e1 : (q + 1) * b = q * b + b := by ring
  have e2 : b * q = q * b := by ring
  split
  · rename_i hc
    rw [e1]
    omega
  · rename_i hc
    omega

/-- A rational closer than a quarter of a step to a normal number is rounded to it. -/
theorem roundUnits_near (m s num den : Nat) (hden : 0 < den) (h1 : 2 ^ 23 ≤ m) (h2 : m < 2 ^ 24)
    (hlo : 4 * (m * 2 ^ s * den) < 4 * num + den * 2 ^ s) (hhi : 4 * num < 4 * (m * 2 ^ s * den) + den * 2 ^ s)
    (hs1 : 1 ≤ s) (hmax : s * 2 ^ 23 + m ≤ 0x7F800000) : roundUnits num den = s * 2 ^ 23 + m := by
  have hp : 0 < 2 ^ s := Nat.two_pow_pos s
  -- the part of `roundUnits` after the shift is known
  have core : ∀ (t q' : Nat), Nat.log2 (num / den) - 23 = t → num / (den * 2 ^ t) = q' →
      (den * 2 ^ t < 2 * (num % (den * 2 ^ t)) → t * 2 ^ 23 + (q' + 1) = s * 2 ^ 23 + m) →
      (2 * (num % (den * 2 ^ t)) < den * 2 ^ t → t * 2 ^ 23 + q' = s * 2 ^ 23 + m) →
      (2 * (num % (den * 2 ^ t)) ≠ den * 2 ^ t) → roundUnits num den = s * 2 ^ 23 + m := by
    intro t q' ht hq hup hdown hne
    unfold roundUnits
    simp only [ht, hq]
    generalize num % (den * 2 ^ t) = r at *
    generalize den * 2 ^ t = w at *
    split
    · rename_i hc
      rw [hup (by omega)]
      exact Nat.min_eq_left hmax
    · rename_i hc
      rw [hdown (by omega)]
      exact Nat.min_eq_left hmax
  have e : m * 2 ^ s * den = m * (den * 2 ^ s) := by ring
  rw [e] at hlo hhi
  by_cases hge : m * (den * 2 ^ s) ≤ num
  · -- above
    have hw : 0 < den * 2 ^ s := Nat.mul_pos hden hp
    have hdiv : num / (den * 2 ^ s) = m := by
      apply Nat.div_eq_of_lt_le
      · exact hge
      · rw [Nat.add_mul]
        generalize den * 2 ^ s = w at *
        generalize m * w = mw at *
        omega
    have hmod : num % (den * 2 ^ s) = num - m * (den * 2 ^ s) := by
      have := Nat.div_add_mod num (den * 2 ^ s)
      rw [hdiv, Nat.mul_comm] at this
      omega
    have hlog : Nat.log2 (num / den) = 23 + s := by
      rw [Nat.log2_eq_iff]
      · constructor
        · rw [Nat.le_div_iff_mul_le hden]
          calc 2 ^ (23 + s) * den = 2 ^ 23 * (den * 2 ^ s) := by rw [pow_add]; ring
            _ ≤ m * (den * 2 ^ s) := Nat.mul_le_mul_right _ h1
            _ ≤ num := hge
        · rw [Nat.div_lt_iff_lt_mul hden]
          have h3 : (m + 1) * (den * 2 ^ s) ≤ 2 ^ 24 * (den * 2 ^ s) := Nat.mul_le_mul_right _ h2
          have h4 : 2 ^ (23 + s + 1) * den = 2 ^ 24 * (den * 2 ^ s) := by
            rw [show 23 + s + 1 = 24 + s by omega, pow_add]; ring
          rw [h4]
          rw [Nat.add_mul] at h3
          generalize den * 2 ^ s = w at *
          generalize m * w = mw at *
          generalize 2 ^ 24 * w = tw at *
          omega
      · intro h0
        rw [Nat.div_eq_zero_iff] at h0
        have h5 : 1 * den ≤ m * (den * 2 ^ s) := by
          calc 1 * den ≤ m * den := Nat.mul_le_mul_right _ (by omega)
            _ ≤ m * (den * 2 ^ s) := Nat.mul_le_mul_left _ (Nat.le_mul_of_pos_right _ hp)
        omega
    apply core s m (by omega) hdiv
    · intro h; exfalso
      rw [hmod] at h
      generalize den * 2 ^ s = w at *
      generalize m * w = mw at *
      omega
    · intro _; rfl
    · intro h
      rw [hmod] at h
      generalize den * 2 ^ s = w at *
      generalize m * w = mw at *
      omega
  · by_cases hm : m = 2 ^ 23
    · -- just below a power of two
      obtain ⟨t, rfl⟩ : ∃ t, s = t + 1 := ⟨s - 1, by omega⟩
      have hw : 0 < den * 2 ^ t := Nat.mul_pos hden (Nat.two_pow_pos t)
      have e2 : den * 2 ^ (t + 1) = 2 * (den * 2 ^ t) := by rw [pow_succ]; ring
      rw [e2] at hlo hhi hge
      have e3 : m * (2 * (den * 2 ^ t)) = 2 ^ 24 * (den * 2 ^ t) := by rw [hm]; ring
      rw [e3] at hlo hhi hge
      have e4 : 2 ^ 24 * (den * 2 ^ t) = (2 ^ 24 - 1) * (den * 2 ^ t) + den * 2 ^ t := by ring
      have hdiv : num / (den * 2 ^ t) = 2 ^ 24 - 1 := by
        apply Nat.div_eq_of_lt_le
        · generalize den * 2 ^ t = w at *
          omega
        · generalize den * 2 ^ t = w at *
          omega
      have hmod : num % (den * 2 ^ t) = num - (2 ^ 24 - 1) * (den * 2 ^ t) := by
        have := Nat.div_add_mod num (den * 2 ^ t)
        rw [hdiv, Nat.mul_comm] at this
        omega
      have hlog : Nat.log2 (num / den) = 23 + t := by
        rw [Nat.log2_eq_iff]
        · constructor
          · rw [Nat.le_div_iff_mul_le hden]
            have : 2 ^ (23 + t) * den = 2 ^ 23 * (den * 2 ^ t) := by rw [pow_add]; ring
            rw [this]
            generalize den * 2 ^ t = w at *
            omega
          · rw [Nat.div_lt_iff_lt_mul hden]
            have : 2 ^ (23 + t + 1) * den = 2 ^ 24 * (den * 2 ^ t) := by
              rw [show 23 + t + 1 = 24 + t by omega, pow_add]; ring
            rw [this]
            omega
        · intro h0
          rw [Nat.div_eq_zero_iff] at h0
          have h5 : den ≤ den * 2 ^ t := Nat.le_mul_of_pos_right _ (Nat.two_pow_pos t)
          generalize den * 2 ^ t = w at *
          omega
      apply core t (2 ^ 24 - 1) (by omega) hdiv
      · intro _; rw [hm]; omega
      · intro h; exfalso
        rw [hmod] at h
        generalize den * 2 ^ t = w at *
        omega
      · intro h
        rw [hmod] at h
        generalize den * 2 ^ t = w at *
        omega
    · -- below, in the same binade
      have hw : 0 < den * 2 ^ s := Nat.mul_pos hden hp
      obtain ⟨m', rfl⟩ : ∃ m', m = m' + 1 := ⟨m - 1, by omega⟩
      rw [Nat.add_mul, Nat.one_mul] at hlo hhi hge
      have hdiv : num / (den * 2 ^ s) = m' := by
        apply Nat.div_eq_of_lt_le
        · generalize den * 2 ^ s = w at *
          generalize m' * w = mw at *
          omega
        · rw [Nat.add_mul]
          generalize den * 2 ^ s = w at *
          generalize m' * w = mw at *
          omega
      have hmod : num % (den * 2 ^ s) = num - m' * (den * 2 ^ s) := by
        have := Nat.div_add_mod num (den * 2 ^ s)
        rw [hdiv, Nat.mul_comm] at this
        omega
      have hlog : Nat.log2 (num / den) = 23 + s := by
        rw [Nat.log2_eq_iff]
        · constructor
          · rw [Nat.le_div_iff_mul_le hden]
            have h6 : 2 ^ (23 + s) * den = 2 ^ 23 * (den * 2 ^ s) := by rw [pow_add]; ring
            have h7 : 2 ^ 23 * (den * 2 ^ s) ≤ m' * (den * 2 ^ s) := Nat.mul_le_mul_right _ (by omega)
            rw [h6]
            generalize den * 2 ^ s = w at *
            generalize m' * w = mw at *
            generalize 2 ^ 23 * w = tw at *
            omega
          · rw [Nat.div_lt_iff_lt_mul hden]
            have h3 : (m' + 1) * (den * 2 ^ s) ≤ 2 ^ 24 * (den * 2 ^ s) := Nat.mul_le_mul_right _ (by omega)
            have h4 : 2 ^ (23 + s + 1) * den = 2 ^ 24 * (den * 2 ^ s) := by
              rw [show 23 + s + 1 = 24 + s by omega, pow_add]; ring
            rw [h4]
            rw [Nat.add_mul] at h3
            generalize den * 2 ^ s = w at *
            generalize m' * w = mw at *
            generalize 2 ^ 24 * w = tw at *
            omega
        · intro h0
          rw [Nat.div_eq_zero_iff] at h0
          have h5 : den ≤ den * 2 ^ s := Nat.le_mul_of_pos_right _ hp
          have h7 : 2 ^ 23 * (den * 2 ^ s) ≤ m' * (den * 2 ^ s) := Nat.mul_le_mul_right _ (by omega)
          generalize den * 2 ^ s = w at *
          generalize m' * w = mw at *
          omega
      apply core s m' (by omega) hdiv
      · intro _; omega
      · intro h; exfalso
        rw [hmod] at h
        generalize den * 2 ^ s = w at *
        generalize m' * w = mw at *
        omega
      · intro h
        rw [hmod] at h
        generalize den * 2 ^ s = w at *
        generalize m' * w = mw at *
        omega

end Verif.Decimal
