import Verif.Lemmas.VariantText
import Verif.Model.Encoders

/-!
C155: a label that is a number can be named in a script without quotes.

The parser reads the number with `stof` and the encoder of labels prints the float again, with six significant digits. The text survives exactly if it has at
most six significant digits, no needless zeros, and is zero or at least 0.0001 (`C155_exactly`). Any other number, such as `1000000`, `1.50` or `007`, is not
found among the labels (`C155_violated`, `C155_throws_violated`); it must be quoted.
-/
namespace Verif.VariantText
open Verif.TextCodec Verif.FloatBits Verif.FloatArith Verif.Decimal

theorem decimal_token (n k : Nat) (h : Plain n k) : ∃ v, numberToken (decimal n k) = some v ∧ v.toText = decimal n k := by
  rcases Nat.eq_zero_or_pos n with rfl | h0
  · have hk : k = 0 := by
      rcases h.2.1 with h | h
      · exact h
      · exact absurd rfl h
    subst hk
    exact ⟨.number 0, by decide +kernel, by decide +kernel⟩
  have hden : 0 < 10 ^ k := by positivity
  have hmax : n * 2 ^ 149 ≤ 10 ^ k * Rounding.top := by
    calc n * 2 ^ 149 ≤ 10 ^ 6 * 2 ^ 149 := Nat.mul_le_mul_right _ h.1.le
      _ ≤ 1 * Rounding.top := by decide +kernel
      _ ≤ _ := Nat.mul_le_mul_right _ hden
  obtain ⟨f1, f2, u, f3, f4⟩ := Rounding.rounded_spec false (n * 2 ^ 149) (10 ^ k) hden hmax
  have hbits : (F32.rounded false (n * 2 ^ 149) (10 ^ k)).bits = BitVec.ofNat 32 (roundUnits (n * 2 ^ 149) (10 ^ k)) := by
    unfold F32.rounded
    simp
  unfold F32.units at f3
  rw [hbits] at f1 f2 f3
  have herr : 2 ^ 24 * (u * 10 ^ k) ≤ 2 ^ 24 * (n * 2 ^ 149) + n * 2 ^ 149 ∧ 2 ^ 24 * (n * 2 ^ 149) ≤ 2 ^ 24 * (u * 10 ^ k) + n * 2 ^ 149 := by
    rcases f4 with f4 | ⟨f5, f6, f7⟩
    · exact f4
    · have hk : 10 ^ k ≤ n * 10 ^ 4 := by
        rcases h.2.2 with h | h
        · rw [h] at f5; exact absurd rfl f5
        · exact h
      have : 2 ^ 23 * 10 ^ k ≤ n * 2 ^ 149 := by
        calc 2 ^ 23 * 10 ^ k ≤ 2 ^ 23 * (n * 10 ^ 4) := Nat.mul_le_mul_left _ hk
          _ = n * (2 ^ 23 * 10 ^ 4) := by ring
          _ ≤ _ := Nat.mul_le_mul_left _ (by decide +kernel)
      have key : ∀ x w y : Nat, 2 ^ 23 * w ≤ x → 2 * y ≤ 2 * x + w → 2 * x ≤ 2 * y + w → 2 ^ 24 * y ≤ 2 ^ 24 * x + x ∧ 2 ^ 24 * x ≤ 2 ^ 24 * y + x := by
        intro x w y a b c
        omega
      exact key _ _ _ this f6 f7
  have hinf : roundUnits (n * 2 ^ 149) (10 ^ k) ≠ 0x7F800000 := by
    intro hc
    rw [hc] at f1
    exact absurd f1 (by decide)
  refine ⟨.number (BitVec.ofNat 32 (roundUnits (n * 2 ^ 149) (10 ^ k))), by unfold numberToken; rw [stof_decimal n k hinf]; rfl, ?_⟩
  unfold Variant.toText general
  simp only
  generalize BitVec.ofNat 32 (roundUnits (n * 2 ^ 149) (10 ^ k)) = x at *
  have hn : isNaN x = false := by
    unfold isFinite at f1; unfold isNaN
    simp only [bne_iff_ne, ne_eq] at f1
    simp [f1]
  have hi : isInf x = false := by
    unfold isFinite at f1; unfold isInf
    simp only [bne_iff_ne, ne_eq] at f1
    simp [f1]
  have hu : u ≠ 0 := by
    rintro rfl
    have hp : 0 < n * 2 ^ 149 := Nat.mul_pos h0 (by positivity)
    have hz : ∀ y : Nat, 0 < y → ¬ 2 ^ 24 * y ≤ 2 ^ 24 * (0 * 10 ^ k) + y := by
      intro y hy
      rw [Nat.zero_mul]
      omega
    exact hz _ hp herr.2
  rw [f2, hn, hi, f3]
  simp only [Bool.false_eq_true, if_false, List.nil_append]
  rw [if_neg hu]
  exact positive_plain n k u h0 h herr.1 herr.2

/-- C155. Of the texts that are digits with an optional point, exactly the plain ones are the same after they were read and printed. -/
theorem C155_exactly (s : Str) (hs : ∀ c ∈ s, Csv.isDigit c = true ∨ c = 46) :
    (∃ v, numberToken s = some v ∧ v.toText = s) ↔ ∃ n k, Plain n k ∧ s = decimal n k := by
  constructor
  · rintro ⟨v, h1, h2⟩
    unfold numberToken at h1
    obtain ⟨x, -, rfl⟩ := Option.map_eq_some_iff.mp h1
    have hno : ∀ c : UInt8, Csv.isDigit c = false → c ≠ 46 → c ∉ general x := by
      intro c hc1 hc2 hmem
      have h2 : general x = s := h2
      rw [h2] at hmem
      rcases hs c hmem with h | h
      · rw [h] at hc1; cases hc1
      · exact hc2 h
    rw [← h2]
    show ∃ n k, Plain n k ∧ general x = decimal n k
    unfold general at hno ⊢
    by_cases hn : neg x = true
    · exact absurd (by simp [hn]) (hno 45 (by decide) (by decide))
    rw [if_neg hn, List.nil_append] at hno ⊢
    by_cases h3 : isNaN x = true
    · exact absurd (by simp [h3]) (hno 110 (by decide) (by decide))
    rw [if_neg h3] at hno ⊢
    by_cases h4 : isInf x = true
    · exact absurd (by simp [h4]) (hno 110 (by decide) (by decide))
    rw [if_neg h4] at hno ⊢
    by_cases h5 : magUnits (expo x) (frac x) = 0
    · rw [if_pos h5]
      exact ⟨0, 0, by decide, by decide +kernel⟩
    · rw [if_neg h5] at hno ⊢
      exact positive_fixed _ (Nat.pos_of_ne_zero h5) (hno 101 (by decide) (by decide))
  · rintro ⟨n, k, h, rfl⟩
    exact decimal_token n k h

/-- C155, restricted to plain numbers: a label that is one is found when it is named as a number, and encoded as the one-hot vector of that label. Missing: other
numbers, see `C155_violated`. -/
theorem C155_named_partial {F : Type} [Field F] [LinearOrder F] (asFloat : Variant → Option F) (pixel : F → F) (m : Encoders.Meta F) (hm : m.purpose = 'L')
    (hc : m.cols ≠ 0) (hk : m.chans ≠ 0) (hn : m.labels.Nodup) (n k : Nat) (h : Plain n k) (i : Nat) (hi : m.labels[i]? = some (decimal n k)) :
    ∃ v T, numberToken (decimal n k) = some v ∧ Encoders.variantEncode asFloat Variant.toText pixel m [v] = .ok T ∧
      T.rows = m.cols ∧ T.cols = m.rows ∧ T.chans = m.chans ∧ ∀ r c ch, T.get r c ch = some (if r = i then 1 else 0) := by
  obtain ⟨v, h1, h2⟩ := decimal_token n k h
  obtain ⟨hlt, hget⟩ := List.getElem?_eq_some_iff.mp hi
  have hmem : decimal n k ∈ m.labels := hget ▸ List.getElem_mem hlt
  have hidx : m.labels.idxOf (decimal n k) = i := by rw [← hget]; exact List.Nodup.idxOf_getElem hn i hlt
  refine ⟨v, Encoders.plain ⟨m.cols, m.rows, m.chans, fun r _ _ => if r = i then 1 else 0⟩, h1, ?_, rfl, rfl, rfl, fun r c ch => rfl⟩
  unfold Encoders.variantEncode
  simp only [hm, show ('L' : Char) ≠ 'I' by decide, show ('L' : Char) ≠ 'N' by decide, if_false, if_true, h2, if_pos hmem, hidx]
  rw [if_neg (by simp [hc, hk])]

/-- C155 is violated: a million is printed with an exponent, needless zeros are lost, and so is the seventh digit. -/
theorem C155_violated :
    (numberToken (decimal 1000000 0)).map Variant.toText = some [49, 101, 43, 48, 54] ∧
      (numberToken [49, 46, 53, 48]).map Variant.toText = some [49, 46, 53] ∧
      (numberToken [48, 48, 55]).map Variant.toText = some [55] ∧
      (numberToken (decimal 3141592 6)).map Variant.toText = some (decimal 314159 5) := by
  decide +kernel

/-- C155 is violated: a number that is a label but not plain is rejected as an unknown label, unless its printed form is a label too. -/
theorem C155_throws_violated {F : Type} [Field F] [LinearOrder F] (asFloat : Variant → Option F) (pixel : F → F) (m : Encoders.Meta F) (hm : m.purpose = 'L')
    (s : Str) (hs : ∀ c ∈ s, Csv.isDigit c = true ∨ c = 46) (hp : ¬ ∃ n k, Plain n k ∧ s = decimal n k) (hl : m.labels = [s]) (v : Variant)
    (hv : numberToken s = some v) : Encoders.variantEncode asFloat Variant.toText pixel m [v] = .throws := by
  have hne : v.toText ≠ s := fun he => hp ((C155_exactly s hs).mp ⟨v, hv, he⟩)
  unfold Encoders.variantEncode
  simp only [hm, show ('L' : Char) ≠ 'I' by decide, show ('L' : Char) ≠ 'N' by decide, if_false, if_true]
  rw [if_neg (by rw [hl, List.mem_singleton]; exact hne)]

/-- `3.14159`, `0.01` (whose float is below 0.01) and `999999` are plain, `1000000` is not. -/
example : Plain 314159 5 ∧ Plain 1 2 ∧ Plain 999999 0 ∧ ¬ Plain 1000000 0 ∧ decimal 314159 5 = [51, 46, 49, 52, 49, 53, 57] ∧ decimal 1 2 = [48, 46, 48, 49] := by
  decide +kernel

/-- The labels 7, 0.5 and 10: naming the second one gives the vector (0, 1, 0). -/
example : ∃ v T, numberToken (decimal 5 1) = some v ∧
    Encoders.variantEncode (F := ℚ) (fun _ => none) Variant.toText id ⟨'L', 1, 3, 1, [decimal 7 0, decimal 5 1, decimal 10 0], ⟨false, 0, 1, false, 0, 1⟩⟩ [v] = .ok T ∧
      T.get 1 0 0 = some 1 := by
  obtain ⟨v, T, h1, h2, -, -, -, h3⟩ := C155_named_partial (F := ℚ) (fun _ => none) id
    ⟨'L', 1, 3, 1, [decimal 7 0, decimal 5 1, decimal 10 0], ⟨false, 0, 1, false, 0, 1⟩⟩ rfl (by decide) (by decide) (by decide +kernel) 5 1 (by decide) 1 rfl
  exact ⟨v, T, h1, h2, by rw [h3]; rfl⟩

/-- The only label is 1000000: naming it as a number is an error. -/
example : ∃ v, numberToken (decimal 1000000 0) = some v ∧
    Encoders.variantEncode (F := ℚ) (fun _ => none) Variant.toText id ⟨'L', 1, 1, 1, [decimal 1000000 0], ⟨false, 0, 1, false, 0, 1⟩⟩ [v] = .throws := by
  have hv : numberToken (decimal 1000000 0) = some (.number 0x49742400) := by decide +kernel
  refine ⟨_, hv, C155_throws_violated (F := ℚ) _ _ _ rfl (decimal 1000000 0) (by decide +kernel) ?_ rfl _ hv⟩
  intro h
  obtain ⟨v, h1, h2⟩ := (C155_exactly (decimal 1000000 0) (by decide +kernel)).mpr h
  rw [hv] at h1
  rw [← Option.some.inj h1] at h2
  exact absurd h2 (by decide +kernel)

end Verif.VariantText
