import Verif.Model.EstimateBias
import Mathlib.Tactic.IntervalCases
import Mathlib.Tactic.Ring
import Mathlib.Algebra.Order.Ring.Int

/-!
C53. Automatic choice of the 8-bit bias, on all float bit patterns.
-/
namespace Verif.EstimateBias
open Verif.FloatBits Verif.FloatArith Verif.QuarterFloat

/-- Values between `a` and `b` lie strictly within the representable range of bias `k`: plus or minus 1.875 * 2^(14-k), i.e. 15 * 2^(11-k).
`FloatBits.value` counts in units of 2^-149. -/
def InRange (a b : BitVec 32) (k : Nat) : Prop :=
  isNaN a = false ∧ isNaN b = false ∧ -(15 * 2 ^ (160 - k) : Int) < value a ∧ value b < (15 * 2 ^ (160 - k) : Int)

/-- The code's test is the range test. -/
theorem C53_fits (a b : BitVec 32) (k : Nat) (h1 : 1 ≤ k) (h2 : k ≤ 15) : fits a b (k : Int) = true ↔ InRange a b k := by
  have t : ∀ k : Nat, 1 ≤ k → k ≤ 15 → isNaN (quarterToFloat QUARTER_MAX (k : Int)) = false ∧ isNaN (fneg (quarterToFloat QUARTER_MAX (k : Int))) = false ∧
      value (quarterToFloat QUARTER_MAX (k : Int)) = (15 * 2 ^ (160 - k) : Int) ∧
      value (fneg (quarterToFloat QUARTER_MAX (k : Int))) = -(15 * 2 ^ (160 - k) : Int) := by
    intro k h1 h2
    interval_cases k <;> decide +kernel
  obtain ⟨n1, n2, v1, v2⟩ := t k h1 h2
  unfold fits InRange flt
  dsimp only
  rw [n1, n2, v1, v2]
  generalize (15 * 2 ^ (160 - k) : Int) = M
  cases isNaN a <;> cases isNaN b <;> simp

/-- A larger bias has a smaller range: what fits a bias fits every smaller one. -/
theorem C53_nested (a b : BitVec 32) (k k' : Nat) (h : k ≤ k') (hr : InRange a b k') : InRange a b k := by
  unfold InRange at hr ⊢
  obtain ⟨n1, n2, h1, h2⟩ := hr
  have hp : (2 : Int) ^ (160 - k') ≤ 2 ^ (160 - k) := pow_le_pow_right₀ (by norm_num) (by omega)
  generalize (2 : Int) ^ (160 - k') = p at *
  generalize (2 : Int) ^ (160 - k) = q at *
  exact ⟨n1, n2, by omega, by omega⟩

theorem search_spec (lo : Int) (a b : BitVec 32) : ∀ (n : Nat) (p : Int), p + 1 - lo = n →
    (∃ k, lo ≤ k ∧ k ≤ p ∧ fits a b k = true ∧ search lo a b n p = k ∧ ∀ j, k < j → j ≤ p → fits a b j = false) ∨
    (search lo a b n p = lo ∧ ∀ j, lo ≤ j → j ≤ p → fits a b j = false) := by
  intro n
  induction n with
  | zero =>
    intro p hp
    right
    exact ⟨rfl, fun j h1 h2 => by omega⟩
  | succ n ih =>
    intro p hp
    rw [search]
    by_cases hf : fits a b p = true
    · left
      refine ⟨p, by omega, le_refl _, hf, by rw [if_pos hf], fun j h1 h2 => by omega⟩
    · rw [if_neg hf]
      have hf' : fits a b p = false := by simpa using hf
      rcases ih (p - 1) (by omega) with ⟨k, h1, h2, h3, h4, h5⟩ | ⟨h1, h2⟩
      · left
        refine ⟨k, h1, by omega, h3, h4, ?_⟩
        intro j hj hjp
        rcases eq_or_lt_of_le hjp with rfl | hlt
        · exact hf'
        · exact h5 j hj (by omega)
      · right
        refine ⟨h1, ?_⟩
        intro j hj hjp
        rcases eq_or_lt_of_le hjp with rfl | hlt
        · exact hf'
        · exact h2 j hj (by omega)

/-- C53. The estimate is the largest bias between the limits whose range strictly contains the values; if there is none it is the lower limit. -/
theorem C53_estimate (lo hi : Nat) (h1 : 1 ≤ lo) (h2 : lo ≤ hi) (h3 : hi ≤ 15) (a b : BitVec 32) :
    ∃ k : Nat, estimateBias lo hi a b = k ∧ lo ≤ k ∧ k ≤ hi ∧ (∀ j, k < j → j ≤ hi → ¬InRange a b j) ∧
      (InRange a b k ∨ (k = lo ∧ ¬InRange a b lo)) := by
  have hs := search_spec lo a b ((hi : Int) + 1 - lo).toNat hi (by omega)
  have conv : ∀ j : Nat, lo ≤ j → j ≤ hi → fits a b (j : Int) = false → ¬InRange a b j := by
    intro j hj1 hj2 hf hr
    rw [(C53_fits a b j (by omega) (by omega)).mpr hr] at hf
    exact absurd hf (by simp)
  rcases hs with ⟨k, g1, g2, g3, g4, g5⟩ | ⟨g1, g2⟩
  · obtain ⟨k, rfl⟩ : ∃ n : Nat, k = (n : Int) := ⟨k.toNat, by omega⟩
    refine ⟨k, g4, by omega, by omega, ?_, Or.inl ((C53_fits a b k (by omega) (by omega)).mp g3)⟩
    intro j hj1 hj2
    exact conv j (by omega) hj2 (g5 j (by omega) (by omega))
  · refine ⟨lo, g1, le_refl _, h2, ?_, Or.inr ⟨rfl, conv lo (le_refl _) h2 (g2 lo (by omega) (by omega))⟩⟩
    intro j hj1 hj2
    exact conv j (by omega) hj2 (g2 j (by omega) (by omega))

/-- C53. Materializing to 8 bits (which asks for biases 4 to 15 with the tensor's minimum and maximum): if all values lie strictly between
-1920 and 1920, then every value lies within the representable range of the chosen bias, so none is saturated. -/
theorem C53_materialize (a b x : BitVec 32) (hr : InRange a b 4) (h1 : value a ≤ value x) (h2 : value x ≤ value b) :
    ∃ k : Nat, estimateBias 4 15 a b = k ∧ 4 ≤ k ∧ k ≤ 15 ∧ (value x).natAbs < (value (quarterToFloat QUARTER_MAX k)).natAbs := by
  obtain ⟨k, g1, g2, g3, _, g5⟩ := C53_estimate 4 15 (by omega) (by omega) (by omega) a b
  refine ⟨k, g1, g2, g3, ?_⟩
  have hin : InRange a b k := by
    rcases g5 with h | ⟨_, h⟩
    · exact h
    · exact absurd hr h
  obtain ⟨_, _, h3, h4⟩ := hin
  have t : ∀ k : Nat, 4 ≤ k → k ≤ 15 → value (quarterToFloat QUARTER_MAX (k : Int)) = (15 * 2 ^ (160 - k) : Int) := by
    intro k h1 h2
    interval_cases k <;> decide +kernel
  rw [t k g2 g3]
  generalize (15 * 2 ^ (160 - k) : Int) = M at *
  omega

/- 1.0 and -0.5 fit bias 14 (range 1.875) but not bias 15 (range 0.9375). -/
example : estimateBias 4 15 0xBF000000#32 0x3F800000#32 = 14 := by decide +kernel
/- 4000 fits no bias. -/
example : estimateBias 4 15 0#32 0x457A0000#32 = 4 := by decide +kernel
example : InRange 0xBF000000#32 0x3F800000#32 4 := by unfold InRange; decide +kernel

end Verif.EstimateBias
