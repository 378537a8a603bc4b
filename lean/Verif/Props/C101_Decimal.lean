import Verif.Lemmas.Decimal

/-!
C101: numeric settings of a model survive being written to its configuration file.

Whole numbers and truth values always survive. A float survives if it is zero, infinite, or at least 2⁻²⁵ (about 3·10⁻⁸) in magnitude: 15 decimals are then
enough (`C101_partial`). Smaller ones are changed (`C101_violated`) or become zero (`C101_zero_violated`), and NaNs keep only their sign.
-/
namespace Verif.Decimal
open Verif.TextCodec Verif.FloatBits Verif.FloatArith

/-- C101. Whole numbers are read back. -/
theorem C101_whole (n : Nat) (h : n < 2 ^ 64) : stoull (dec n) = some n := stoull_dec n h

/-- C101. Truth values are read back. -/
theorem C101_bool (b : Bool) : asBool (asStringBool b) = b := asBool_asString b

theorem bits_split (x : BitVec 32) : x.toNat = (if neg x then 2 ^ 31 else 0) + (expo x * 2 ^ 23 + frac x) := by
  have h := x.isLt
  unfold neg expo frac
  by_cases hn : 2 ^ 31 ≤ x.toNat
  · simp only [hn, decide_true, if_true]; omega
  · simp only [hn, decide_false, Bool.false_eq_true, if_false]; omega

/-- The digits and the point are read back as the number of units of 10⁻¹⁵. -/
theorem magnitude_text (n : Nat) :
    magnitude (dec (n / 10 ^ 15) ++ 46 :: padded 15 (n % 10 ^ 15)) =
      (let r := roundUnits (n * 2 ^ 149) (10 ^ 15); if r = 0x7F800000 then none else some r) := by
  obtain ⟨h1, h2, h3⟩ := dec_spec (n / 10 ^ 15)
  obtain ⟨p1, p2⟩ := padded_spec 15 (n % 10 ^ 15)
  have hpoint : ∀ c u, (46 :: padded 15 (n % 10 ^ 15) : Str) = c :: u → Csv.isDigit c = false := by
    intro c u h
    simp only [List.cons.injEq] at h
    rw [← h.1]; decide
  obtain ⟨t1, t2⟩ := takeWhile_digits (dec (n / 10 ^ 15)) (46 :: padded 15 (n % 10 ^ 15)) h2 hpoint
  have t3 := (takeWhile_digits (padded 15 (n % 10 ^ 15)) [] p1 (by intro c u h; cases h)).1
  rw [List.append_nil] at t3
  unfold magnitude
  simp only [t1, t2, t3, h3, false_and, if_false, p2]
  rw [digitsValue_padded 15 _ (Nat.mod_lt _ (by positivity)), h1, Nat.div_add_mod']

/-- The text of a finite number starts with a digit or a minus sign. -/
theorem text_head (n : Nat) (t : Str) : ∃ c u, dec n ++ t = c :: u ∧ Csv.isDigit c = true := by
  obtain ⟨_, h2, h3⟩ := dec_spec n
  obtain ⟨c, u, h⟩ := List.exists_cons_of_ne_nil h3
  exact ⟨c, u ++ t, by rw [h]; rfl, h2 c (by rw [h]; simp)⟩

theorem stof_finite (x : BitVec 32) (hf : isFinite x = true) :
    stof (asStringFloat x) =
      (let r := roundUnits (scaled x * 2 ^ 149) (10 ^ 15)
       if r = 0x7F800000 then none else some (BitVec.ofNat 32 ((if neg x then 2 ^ 31 else 0) + r))) := by
  have hn : isNaN x = false := by
    unfold isFinite at hf; unfold isNaN
    simp only [bne_iff_ne, ne_eq] at hf
    simp [hf]
  have hi : isInf x = false := by
    unfold isFinite at hf; unfold isInf
    simp only [bne_iff_ne, ne_eq] at hf
    simp [hf]
  obtain ⟨c, u, he, hd⟩ := text_head (scaled x / 10 ^ 15) (46 :: padded 15 (scaled x % 10 ^ 15))
  have hc45 : c ≠ 45 := by rintro rfl; exact absurd hd (by decide)
  have hc110 : c ≠ 110 := by rintro rfl; exact absurd hd (by decide)
  have hc105 : c ≠ 105 := by rintro rfl; exact absurd hd (by decide)
  have hm := magnitude_text (scaled x)
  rw [he] at hm
  have hbody : ∀ sign : Nat, stofBody sign (c :: u) =
      (let r := roundUnits (scaled x * 2 ^ 149) (10 ^ 15)
       if r = 0x7F800000 then none else some (BitVec.ofNat 32 (sign + r))) := by
    intro sign
    unfold stofBody
    rw [if_neg (by simp [hc110]), if_neg (by simp [hc105]), hm]
    dsimp only
    split <;> rfl
  unfold asStringFloat
  simp only [hn, hi, Bool.false_eq_true, if_false, he]
  by_cases hneg : neg x = true
  · simp only [hneg, if_true, List.singleton_append, stof]
    exact hbody _
  · simp only [hneg, Bool.false_eq_true, if_false, List.nil_append, stof, hc45]
    exact hbody _

theorem close_lo {a q n p w : Nat} (h : 2 * (a * q) ≤ 2 * (n * p) + p) (hb : 2 * p < q * w) : 4 * (a * q) < 4 * (n * p) + q * w := by
  generalize a * q = x at *; generalize n * p = y at *; omega
theorem close_hi {a q n p w : Nat} (h : 2 * (n * p) ≤ 2 * (a * q) + p) (hb : 2 * p < q * w) : 4 * (n * p) < 4 * (a * q) + q * w := by
  generalize a * q = x at *; generalize n * p = y at *; omega

/-- Floats that 15 decimals determine: zero, infinity, and all from 2⁻²⁵ up. -/
def Survives (x : BitVec 32) : Prop := frac x = 0 ∧ expo x = 0 ∨ isInf x = true ∨ (102 ≤ expo x ∧ expo x ≤ 254)

instance (x : BitVec 32) : Decidable (Survives x) := by unfold Survives; infer_instance

/-- C101. A float written to the configuration and read back is the same float, bit by bit, if it is zero, infinite or at least 2⁻²⁵ in magnitude. -/
theorem C101_partial (x : BitVec 32) (h : Survives x) : stof (asStringFloat x) = some x := by
  have hsplit := bits_split x
  have hxlt := x.isLt
  rcases h with ⟨h0, he⟩ | hinf | ⟨hlo, hhi⟩
  · rw [stof_finite x (by simp [isFinite, he])]
    have hs : scaled x = 0 := by
      unfold scaled magUnits
      rw [if_pos he, h0]
      decide
    have hr : roundUnits (scaled x * 2 ^ 149) (10 ^ 15) = 0 := by rw [hs]; decide
    simp only [hr]
    rw [if_neg (by decide)]
    congr 1
    apply BitVec.eq_of_toNat_eq
    rw [BitVec.toNat_ofNat, Nat.mod_eq_of_lt (by split <;> omega), hsplit, he, h0]
    simp
  · have hinf' := hinf
    unfold isInf at hinf'
    simp only [Bool.and_eq_true, beq_iff_eq] at hinf'
    have hn : isNaN x = false := by unfold isNaN; simp [hinf'.2]
    unfold asStringFloat
    simp only [hn, hinf, Bool.false_eq_true, if_false, if_true]
    rw [hinf'.1, hinf'.2] at hsplit
    by_cases hneg : neg x = true
    · simp only [hneg, if_true] at hsplit ⊢
      rw [show stof ([45] ++ [105, 110, 102]) = some 0xFF800000#32 by decide]
      congr 1
      apply BitVec.eq_of_toNat_eq
      rw [hsplit]; decide
    · simp only [hneg, Bool.false_eq_true, if_false] at hsplit ⊢
      rw [show stof ([] ++ [105, 110, 102]) = some 0x7F800000#32 by decide]
      congr 1
      apply BitVec.eq_of_toNat_eq
      rw [hsplit]; decide
  · rw [stof_finite x (by simp [isFinite]; omega)]
    have hfr : frac x < 2 ^ 23 := Nat.mod_lt _ (by decide)
    have hr : roundUnits (scaled x * 2 ^ 149) (10 ^ 15) = (expo x - 1) * 2 ^ 23 + (2 ^ 23 + frac x) := by
      have hmag : magUnits (expo x) (frac x) = (2 ^ 23 + frac x) * 2 ^ (expo x - 1) := by
        unfold magUnits; rw [if_neg (by omega)]
      obtain ⟨n1, n2⟩ := nearest_close (magUnits (expo x) (frac x) * 10 ^ 15) (2 ^ 149) (by positivity)
      have hbig : (2 : Nat) ^ 150 < 10 ^ 15 * 2 ^ (expo x - 1) := by
        calc (2 : Nat) ^ 150 < 10 ^ 15 * 2 ^ 101 := by decide
          _ ≤ 10 ^ 15 * 2 ^ (expo x - 1) := Nat.mul_le_mul_left _ (Nat.pow_le_pow_right (by decide) (by omega))
      have hsc : scaled x = nearest (magUnits (expo x) (frac x) * 10 ^ 15) (2 ^ 149) := rfl
      rw [← hsc, hmag] at n1 n2
      have e150 : (2 : Nat) ^ 150 = 2 * 2 ^ 149 := by decide
      rw [e150] at hbig
      apply roundUnits_near _ _ _ _ (by positivity) (by omega) (by omega)
      · exact close_lo n2 hbig
      · exact close_hi n1 hbig
      · omega
      · omega
    simp only [hr]
    rw [if_neg (by omega)]
    congr 1
    apply BitVec.eq_of_toNat_eq
    have hsum : (if neg x = true then 2 ^ 31 else 0) + ((expo x - 1) * 2 ^ 23 + (2 ^ 23 + frac x)) = x.toNat := by
      rw [hsplit]; omega
    rw [BitVec.toNat_ofNat, hsum]
    exact Nat.mod_eq_of_lt hxlt

-- 0.001f, the default learning rate, 5.0f, the default threshold, and 0.02f
example : Survives 0x3A83126F#32 ∧ Survives 0x40A00000#32 ∧ Survives 0x3CA3D70A#32 := by decide
-- the text of 0.001f is 0.001000000047497
example : asStringFloat 0x3A83126F#32 = [48, 46, 48, 48, 49, 48, 48, 48, 48, 48, 48, 48, 52, 55, 52, 57, 55] := by decide +kernel
example : stof (asStringFloat 0xBDCCCCCD#32) = some 0xBDCCCCCD#32 := C101_partial _ (by decide)

/-- C101 does not hold in general: the float next above 10⁻⁹ is read back as a different float ... -/
theorem C101_violated : ∃ x y, stof (asStringFloat x) = some y ∧ x ≠ y ∧ isFinite x = true ∧ value y ≠ value x :=
  ⟨0x30897060#32, 0x3089705F#32, by decide +kernel, by decide, by decide, by decide +kernel⟩

/-- ... and 10⁻¹⁶ as zero. -/
theorem C101_zero_violated : ∃ x, stof (asStringFloat x) = some 0#32 ∧ value x ≠ 0 :=
  ⟨0x24E69595#32, by decide +kernel, by decide +kernel⟩

/-- NaN payloads are lost, the sign is kept. -/
theorem C101_nan (x : BitVec 32) (h : isNaN x = true) : ∃ y, stof (asStringFloat x) = some y ∧ isNaN y = true ∧ neg y = neg x := by
  unfold asStringFloat
  simp only [h, if_true]
  by_cases hneg : neg x = true
  · exact ⟨0xFFC00000#32, by simp only [hneg, if_true]; decide, by decide, by rw [hneg]; decide⟩
  · exact ⟨0x7FC00000#32, by simp only [hneg, Bool.false_eq_true, if_false]; decide, by decide, by simp only [Bool.not_eq_true] at hneg; rw [hneg]; decide⟩

end Verif.Decimal
