import Verif.Model.VariantText
import Verif.Spec.VariantText
import Verif.Lemmas.Decimal
import Verif.Lemmas.Rounding
import Verif.Lemmas.RoundingOrder
import Mathlib.Tactic.Ring
import Mathlib.Tactic.Linarith

/-!
Six significant digits survive the rounding to a float and back.
-/
namespace Verif.VariantText
open Verif.TextCodec Verif.FloatBits Verif.FloatArith Verif.Decimal

/-- Closer than half to an integer. -/
theorem nearest_eq (a b t : Nat) (hb : 0 < b) (h1 : 2 * a < 2 * (t * b) + b) (h2 : 2 * (t * b) < 2 * a + b) : nearest a b = t := by
  obtain ⟨c1, c2⟩ := nearest_close a b hb
  rcases Nat.lt_trichotomy (nearest a b) t with h | h | h
  · have : nearest a b * b + b ≤ t * b := by
      rw [show nearest a b * b + b = (nearest a b + 1) * b by ring]
      exact Nat.mul_le_mul_right _ h
    omega
  · exact h
  · have : t * b + b ≤ nearest a b * b := by
      rw [show t * b + b = (t + 1) * b by ring]
      exact Nat.mul_le_mul_right _ h
    omega

/-- If the number is within 2⁻²⁴ of a number with six digits then those digits are found. -/
theorem exponent_near (a b l t : Nat) (hb : 0 < b) (hl : 1 ≤ l) (ht1 : 10 ^ 5 ≤ t) (ht2 : t < 10 ^ 6)
    (h1 : 2 ^ 24 * (a * 10 ^ 50) ≤ 2 ^ 24 * (t * (b * 10 ^ l)) + t * (b * 10 ^ l))
    (h2 : 2 ^ 24 * (t * (b * 10 ^ l)) ≤ 2 ^ 24 * (a * 10 ^ 50) + t * (b * 10 ^ l)) :
    digits6 a b l = t ∧ exponent a b = l := by
  obtain ⟨l', rfl⟩ : ∃ l', l = l' + 1 := ⟨l - 1, by omega⟩
  have eA : a * 10 ^ 50 = a * 10 ^ 45 * 10 ^ 5 := by rw [Nat.mul_assoc, ← pow_add]
  have q1 : ∀ m, 10 ^ m ≤ a * 10 ^ 45 / b ↔ b * 10 ^ m ≤ a * 10 ^ 45 := by
    intro m
    rw [Nat.le_div_iff_mul_le hb, Nat.mul_comm b]
  have q2 : ∀ m, digits6 a b m = nearest (a * 10 ^ 45 * 10 ^ 5) (b * 10 ^ m) := by
    intro m
    unfold digits6
    rw [eA]
  have q3 : exponent a b = if digits6 a b (Nat.log 10 (a * 10 ^ 45 / b)) = 10 ^ 6 then Nat.log 10 (a * 10 ^ 45 / b) + 1
      else Nat.log 10 (a * 10 ^ 45 / b) := rfl
  rw [eA] at h1 h2
  obtain ⟨A, hA⟩ : ∃ A, a * 10 ^ 45 = A := ⟨_, rfl⟩
  rw [hA] at h1 h2 q3
  simp only [hA] at q1 q2
  clear hA eA
  have eB : b * 10 ^ (l' + 1) = 10 * (b * 10 ^ l') := by rw [pow_succ]; ring
  have eB2 : b * 10 ^ (l' + 1 + 1) = 100 * (b * 10 ^ l') := by rw [pow_succ, pow_succ]; ring
  obtain ⟨B, hB⟩ : ∃ B, b * 10 ^ l' = B := ⟨_, rfl⟩
  have hBpos : 0 < B := by rw [← hB]; exact Nat.mul_pos hb (by positivity)
  rw [hB] at eB eB2
  rw [eB] at h1 h2
  obtain ⟨T, hT⟩ : ∃ T, t * (10 * B) = T := ⟨_, rfl⟩
  have htB1 : 10 ^ 5 * (10 * B) ≤ T := hT ▸ Nat.mul_le_mul_right _ ht1
  have htB2 : T + 10 * B ≤ 10 ^ 6 * (10 * B) := by
    rw [← hT, show t * (10 * B) + 10 * B = (t + 1) * (10 * B) by ring]
    exact Nat.mul_le_mul_right _ ht2
  rw [hT] at h1 h2
  have hd : digits6 a b (l' + 1) = t := by
    rw [q2, eB]
    refine nearest_eq _ _ _ (by omega) ?_ ?_ <;> rw [hT] <;> clear * - htB1 htB2 h1 h2 hBpos <;> omega
  refine ⟨hd, ?_⟩
  by_cases hc : 10 * B ≤ A
  · have hlog : Nat.log 10 (A / b) = l' + 1 := by
      refine (Nat.log_eq_iff (Or.inl (by omega))).mpr ⟨(q1 _).mpr (by rw [eB]; exact hc), ?_⟩
      rw [← not_le, q1, eB2]
      clear * - htB1 htB2 h1 h2 hBpos
      omega
    rw [q3, hlog, hd, if_neg (by omega)]
  · have hlog : Nat.log 10 (A / b) = l' := by
      have hle : 10 ^ l' ≤ A / b := by
        rw [q1, hB]
        clear * - htB1 htB2 h1 h2 hBpos
        omega
      have hpos : A / b ≠ 0 := by
        have : 0 < 10 ^ l' := by positivity
        omega
      refine (Nat.log_eq_iff (Or.inr ⟨by decide, hpos⟩)).mpr ⟨hle, ?_⟩
      rw [← not_le, q1, eB]
      exact hc
    have hd' : digits6 a b l' = 10 ^ 6 := by
      rw [q2, hB]
      refine nearest_eq _ _ _ hBpos ?_ ?_ <;> clear * - htB1 htB2 h1 h2 hBpos hc <;> omega
    rw [q3, hlog, hd', if_pos rfl]

theorem padded_shift (k j n : Nat) : padded (k + j) (n * 10 ^ j) = padded k n ++ List.replicate j 48 := by
  induction j with
  | zero => simp
  | succ j ih =>
    rw [← Nat.add_assoc, padded, pow_succ, ← Nat.mul_assoc, Nat.mul_div_cancel _ (by omega), Nat.mul_mod_left, ih, List.append_assoc,
      List.replicate_succ']
    rfl

theorem dropZeros_replicate (s : Str) (j : Nat) : dropZeros (s ++ List.replicate j 48) = dropZeros s := by
  unfold dropZeros
  congr 1
  rw [List.reverse_append, List.reverse_replicate]
  induction j with
  | zero => rfl
  | succ j ih => rw [List.replicate_succ, List.cons_append, List.dropWhile_cons_of_pos (by simp), ih]

theorem dropZeros_padded (k n : Nat) (h : n % 10 ≠ 0) : dropZeros (padded (k + 1) n) = padded (k + 1) n := by
  have hd : UInt8.ofNat (48 + n % 10) ≠ 48 := by
    have : ∀ d, d < 10 → d ≠ 0 → UInt8.ofNat (48 + d) ≠ 48 := by decide
    exact this _ (Nat.mod_lt _ (by decide)) h
  unfold dropZeros
  rw [padded, List.reverse_append, List.reverse_singleton, List.singleton_append, List.dropWhile_cons_of_neg (by simpa using hd)]
  simp

/-- What `stof` makes of a number without exponent. -/
theorem stof_decimal (n k : Nat) (hf : roundUnits (n * 2 ^ 149) (10 ^ k) ≠ 0x7F800000) :
    stof (decimal n k) = some (BitVec.ofNat 32 (roundUnits (n * 2 ^ 149) (10 ^ k))) := by
  have hm : magnitude (decimal n k) = some (roundUnits (n * 2 ^ 149) (10 ^ k)) := by
    obtain ⟨h1, h2, h3⟩ := dec_spec (n / 10 ^ k)
    obtain ⟨p1, p2⟩ := padded_spec k (n % 10 ^ k)
    unfold decimal
    by_cases hk : k = 0
    · subst hk
      obtain ⟨t1, t2⟩ := takeWhile_digits (dec (n / 10 ^ 0)) [] h2 (by intro c u h; cases h)
      rw [if_pos rfl]
      rw [pow_zero, Nat.div_one] at h1 h2 h3 t1 t2
      rw [pow_zero] at hf ⊢
      rw [Nat.div_one]
      rw [List.append_nil] at t1 t2 ⊢
      unfold magnitude
      simp only [t1, t2, h3, false_and, if_false, List.append_nil, h1, List.length_nil, pow_zero]
      exact if_neg hf
    · obtain ⟨t1, t2⟩ := takeWhile_digits (dec (n / 10 ^ k)) (46 :: padded k (n % 10 ^ k)) h2 (by
        intro c u h
        simp only [List.cons.injEq] at h
        rw [← h.1]; decide)
      have t3 := (takeWhile_digits (padded k (n % 10 ^ k)) [] p1 (by intro c u h; cases h)).1
      rw [List.append_nil] at t3
      rw [if_neg hk]
      unfold magnitude
      simp only [t1, t2, t3, h3, false_and, if_false, p2]
      rw [digitsValue_padded k _ (Nat.mod_lt _ (by positivity)), h1, Nat.div_add_mod', if_neg hf]
  obtain ⟨c, u, he, hd⟩ : ∃ c u, decimal n k = c :: u ∧ Csv.isDigit c = true := by
    obtain ⟨_, h2, h3⟩ := dec_spec (n / 10 ^ k)
    obtain ⟨c, u, h⟩ := List.exists_cons_of_ne_nil h3
    exact ⟨c, u ++ _, by unfold decimal; rw [h]; rfl, h2 c (by rw [h]; simp)⟩
  have hc45 : c ≠ 45 := by rintro rfl; exact absurd hd (by decide)
  have hc110 : c ≠ 110 := by rintro rfl; exact absurd hd (by decide)
  have hc105 : c ≠ 105 := by rintro rfl; exact absurd hd (by decide)
  rw [he] at hm ⊢
  show (if c = 45 then stofBody (2 ^ 31) u else stofBody 0 (c :: u)) = _
  rw [if_neg hc45]
  unfold stofBody
  rw [if_neg (by simp [hc110]), if_neg (by simp [hc105]), hm]
  simp

/-- The fixed text of a number whose six digits are known. -/
theorem text_shift (n k j : Nat) (hk : k = 0 ∨ n % 10 ≠ 0) :
    dec (n * 10 ^ j / 10 ^ (k + j)) ++ fraction (padded (k + j) (n * 10 ^ j % 10 ^ (k + j))) = decimal n k := by
  rw [pow_add, Nat.mul_div_mul_right _ _ (by positivity), Nat.mul_mod_mul_right, padded_shift]
  unfold fraction decimal
  rw [dropZeros_replicate]
  congr 1
  rcases k with _ | k
  · simp [padded, dropZeros]
  · have hn : n % 10 ^ (k + 1) % 10 ≠ 0 := by
      rw [Nat.mod_mod_of_dvd _ (Dvd.intro_left (10 ^ k) (pow_succ 10 k).symm)]
      rcases hk with h | h
      · omega
      · exact h
    rw [dropZeros_padded _ _ hn, if_neg (by
      intro h
      have := congrArg List.length h
      rw [(padded_spec _ _).2] at this
      simp at this), if_neg (by omega)]

/-- Six significant digits are printed as they were written. -/
theorem positive_plain (n k a : Nat) (h0 : 0 < n) (h : Plain n k)
    (h1 : 2 ^ 24 * (a * 10 ^ k) ≤ 2 ^ 24 * (n * 2 ^ 149) + n * 2 ^ 149)
    (h2 : 2 ^ 24 * (n * 2 ^ 149) ≤ 2 ^ 24 * (a * 10 ^ k) + n * 2 ^ 149) : positive a (2 ^ 149) = decimal n k := by
  obtain ⟨hn, hk, hs⟩ := h
  -- the number of digits
  obtain ⟨d, hd1, hd2, hd6⟩ : ∃ d, 10 ^ d ≤ n ∧ n < 10 ^ (d + 1) ∧ d ≤ 5 := by
    refine ⟨Nat.log 10 n, Nat.pow_log_le_self 10 h0.ne', Nat.lt_pow_succ_log_self (by decide) n, ?_⟩
    have : Nat.log 10 n < 6 := Nat.log_lt_of_lt_pow h0.ne' hn
    omega
  have hkd : k ≤ d + 4 := by
    rcases hs with h | h
    · omega
    · by_contra hc
      have h3 : 10 ^ (d + 5) ≤ 10 ^ k := Nat.pow_le_pow_right (by decide) (by omega)
      have h4 : n * 10 ^ 4 < 10 ^ (d + 1) * 10 ^ 4 := Nat.mul_lt_mul_of_pos_right hd2 (by decide)
      rw [← pow_add] at h4
      exact absurd (lt_of_lt_of_le h4 h3) (not_lt.mpr h)
  have e : n * 10 ^ (5 - d) * 10 ^ (45 + d - k) * 10 ^ k = n * 10 ^ 50 := by
    rw [Nat.mul_assoc, Nat.mul_assoc, ← pow_add, ← pow_add]
    congr 2
    omega
  obtain ⟨g1, g2⟩ := exponent_near a (2 ^ 149) (45 + d - k) (n * 10 ^ (5 - d)) (by positivity) (by omega)
    (by
      calc 10 ^ 5 = 10 ^ d * 10 ^ (5 - d) := by rw [← pow_add]; congr 1; omega
        _ ≤ _ := Nat.mul_le_mul_right _ hd1)
    (by
      calc n * 10 ^ (5 - d) < 10 ^ (d + 1) * 10 ^ (5 - d) := Nat.mul_lt_mul_of_pos_right hd2 (by positivity)
        _ = 10 ^ 6 := by rw [← pow_add]; congr 1; omega)
    (by
      refine Nat.le_of_mul_le_mul_right (c := 10 ^ k) ?_ (by positivity)
      have := Nat.mul_le_mul_right (10 ^ 50) h1
      calc _ = 2 ^ 24 * (a * 10 ^ k) * 10 ^ 50 := by ring
        _ ≤ _ := this
        _ = 2 ^ 24 * (2 ^ 149 * (n * 10 ^ 50)) + 2 ^ 149 * (n * 10 ^ 50) := by ring
        _ = _ := by rw [← e]; ring)
    (by
      refine Nat.le_of_mul_le_mul_right (c := 10 ^ k) ?_ (by positivity)
      have := Nat.mul_le_mul_right (10 ^ 50) h2
      calc _ = 2 ^ 24 * (2 ^ 149 * (n * 10 ^ (5 - d) * 10 ^ (45 + d - k) * 10 ^ k)) := by ring
        _ = 2 ^ 24 * (n * 2 ^ 149) * 10 ^ 50 := by rw [e]; ring
        _ ≤ _ := this
        _ = 2 ^ 24 * (a * 10 ^ 50) * 10 ^ k + 2 ^ 149 * (n * 10 ^ 50) := by ring
        _ = _ := by rw [← e]; ring)
  unfold positive
  simp only [g1, g2]
  rw [if_pos (by omega), show 50 - (45 + d - k) = k + (5 - d) by omega]
  exact text_shift n k (5 - d) hk

/-- The six digits of a positive float really are six. -/
theorem digits6_bounds (a : Nat) (ha : 0 < a) :
    10 ^ 5 ≤ digits6 a (2 ^ 149) (exponent a (2 ^ 149)) ∧ digits6 a (2 ^ 149) (exponent a (2 ^ 149)) < 10 ^ 6 := by
  obtain ⟨b, hbdef⟩ : ∃ b, 2 ^ 149 = b := ⟨_, rfl⟩
  have hb : 0 < b := by rw [← hbdef]; positivity
  have hsmall : b ≤ a * 10 ^ 45 := by
    rw [← hbdef]
    exact le_trans (show 2 ^ 149 ≤ 1 * 10 ^ 45 by decide +kernel) (Nat.mul_le_mul_right _ ha)
  rw [hbdef]
  clear hbdef
  have eA : a * 10 ^ 50 = a * 10 ^ 45 * 10 ^ 5 := by rw [Nat.mul_assoc, ← pow_add]
  have q2 : ∀ m, digits6 a b m = nearest (a * 10 ^ 45 * 10 ^ 5) (b * 10 ^ m) := by
    intro m
    unfold digits6
    rw [eA]
  have q3 : exponent a b = if digits6 a b (Nat.log 10 (a * 10 ^ 45 / b)) = 10 ^ 6 then Nat.log 10 (a * 10 ^ 45 / b) + 1
      else Nat.log 10 (a * 10 ^ 45 / b) := rfl
  obtain ⟨A, hA⟩ : ∃ A, a * 10 ^ 45 = A := ⟨_, rfl⟩
  rw [hA] at q3 hsmall
  simp only [hA] at q2
  clear hA eA
  have hq : A / b ≠ 0 := (Nat.div_pos hsmall hb).ne'
  obtain ⟨l, hl⟩ : ∃ l, Nat.log 10 (A / b) = l := ⟨_, rfl⟩
  rw [hl] at q3
  obtain ⟨g1, g2⟩ := (Nat.log_eq_iff (Or.inr ⟨by decide, hq⟩)).mp hl
  rw [Nat.le_div_iff_mul_le hb, Nat.mul_comm] at g1
  rw [Nat.div_lt_iff_lt_mul hb, pow_succ] at g2
  have eB : b * 10 ^ (l + 1) = 10 * (b * 10 ^ l) := by rw [pow_succ]; ring
  have g2' : A < 10 * (b * 10 ^ l) := by
    calc A < _ := g2
      _ = _ := by ring
  obtain ⟨B, hB⟩ : ∃ B, b * 10 ^ l = B := ⟨_, rfl⟩
  have hBpos : 0 < B := by rw [← hB]; exact Nat.mul_pos hb (by positivity)
  have e0 := q2 l
  have e1 := q2 (l + 1)
  rw [hB] at g1 g2' eB e0
  rw [eB] at e1
  obtain ⟨c1, c2⟩ := nearest_close (A * 10 ^ 5) B hBpos
  rw [← e0] at c1 c2
  rw [q3]
  split
  · rename_i hc
    rw [hc] at c1 c2
    have : digits6 a b (l + 1) = 10 ^ 5 := by
      rw [e1]
      refine nearest_eq _ _ _ (by omega) ?_ ?_ <;> clear * - g1 g2' hBpos c1 c2 <;> omega
    rw [this]
    decide
  · rename_i hc
    obtain ⟨d, hd⟩ : ∃ d, digits6 a b l = d := ⟨_, rfl⟩
    rw [hd] at c1 c2 hc ⊢
    have lo : 10 ^ 5 ≤ d := by
      by_contra hcon
      have : (d + 1) * B ≤ 10 ^ 5 * B := Nat.mul_le_mul_right _ (by omega)
      rw [Nat.add_mul, Nat.one_mul] at this
      generalize d * B = x at *
      clear * - this g1 hBpos c1 c2
      omega
    have hi : d ≤ 10 ^ 6 := by
      by_contra hcon
      have : (10 ^ 6 + 1) * B ≤ d * B := Nat.mul_le_mul_right _ (by omega)
      generalize d * B = x at *
      clear * - this g2' hBpos c1 c2
      omega
    exact ⟨lo, by omega⟩

/-- A fixed text is that of a number without trailing zeros behind the point. -/
theorem text_decimal (p : Nat) : ∀ N, ∃ n k j, k + j = p ∧ n * 10 ^ j = N ∧ (k = 0 ∨ n % 10 ≠ 0) := by
  induction p with
  | zero => intro N; exact ⟨N, 0, 0, rfl, by simp, Or.inl rfl⟩
  | succ p ih =>
    intro N
    by_cases h : N % 10 = 0
    · obtain ⟨n, k, j, h1, h2, h3⟩ := ih (N / 10)
      exact ⟨n, k, j + 1, by omega, by rw [pow_succ, ← Nat.mul_assoc, h2]; omega, h3⟩
    · exact ⟨N, p + 1, 0, rfl, by simp, Or.inr h⟩

/-- A text without exponent printed for a positive float. -/
theorem positive_fixed (a : Nat) (ha : 0 < a) (h : 101 ∉ positive a (2 ^ 149)) : ∃ n k, Plain n k ∧ positive a (2 ^ 149) = decimal n k := by
  obtain ⟨b1, b2⟩ := digits6_bounds a ha
  unfold positive at h ⊢
  simp only at h ⊢
  generalize exponent a (2 ^ 149) = l at *
  generalize digits6 a (2 ^ 149) l = N at *
  by_cases hl : 41 ≤ l ∧ l ≤ 50
  · rw [if_pos hl]
    obtain ⟨n, k, j, h1, h2, h3⟩ := text_decimal (50 - l) N
    refine ⟨n, k, ⟨?_, h3, Or.inr ?_⟩, ?_⟩
    · refine lt_of_le_of_lt ?_ b2
      rw [← h2]
      exact Nat.le_mul_of_pos_right _ (by positivity)
    · refine Nat.le_of_mul_le_mul_right (c := 10 ^ j) ?_ (by positivity)
      have e1 : 10 ^ (k + j) ≤ 10 ^ 9 := Nat.pow_le_pow_right (by decide) (by omega)
      calc 10 ^ k * 10 ^ j = 10 ^ (k + j) := (pow_add _ _ _).symm
        _ ≤ 10 ^ 9 := e1
        _ = 10 ^ 5 * 10 ^ 4 := by norm_num
        _ ≤ N * 10 ^ 4 := Nat.mul_le_mul_right _ b1
        _ = _ := by rw [← h2]; ring
    · rw [← h1, ← h2]
      exact text_shift n k j h3
  · rw [if_neg hl] at h
    exact absurd (by simp [exponentText]) h

end Verif.VariantText
