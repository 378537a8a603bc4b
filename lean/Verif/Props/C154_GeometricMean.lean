import Verif.Model.GeometricMean
import Verif.Props.C36_C40_Statistics
import Mathlib.Tactic.Linarith
import Mathlib.Tactic.FieldSimp

/-!
# C154: the geometric mean
-/
namespace Verif.GeometricMean
open Verif Statistics Views

/-! ### Helpers -/

theorem fold_none (l : List ℝ) : l.foldl step none = none := by
  induction l with
  | nil => rfl
  | cons v l ih => exact ih

theorem fold_positive (l : List ℝ) (h : ∀ v ∈ l, 0 < v) (s : ℝ × ℝ) : l.foldl step (some s) = some (s.1 + (l.map Real.log).sum, s.2 + l.length) := by
  induction l generalizing s with
  | nil => simp
  | cons v l ih =>
    rw [List.foldl_cons, show step (some s) v = some (s.1 + Real.log v, s.2 + 1) from if_neg (not_le.2 (h v (by simp))), ih fun u hu => h u (by simp [hu])]
    simp only [List.map_cons, List.sum_cons, List.length_cons, Nat.cast_add, Nat.cast_one]
    congr 2 <;> ring

theorem fold_bad (l : List ℝ) (h : ∃ v ∈ l, v ≤ 0) (s : ℝ × ℝ) : l.foldl step (some s) = none := by
  induction l generalizing s with
  | nil => obtain ⟨v, hv, _⟩ := h; cases hv
  | cons u l ih =>
    rw [List.foldl_cons]
    by_cases hu : u ≤ 0
    · rw [show step (some s) u = none from if_pos hu]; exact fold_none l
    · rw [show step (some s) u = some (s.1 + Real.log u, s.2 + 1) from if_neg hu]
      apply ih
      obtain ⟨v, hv, h0⟩ := h
      rcases List.mem_cons.1 hv with rfl | hv
      · exact absurd h0 hu
      · exact ⟨v, hv, h0⟩

theorem geometric_eq (t : Tensor ℝ) (hne : values t ≠ []) (h : ∀ v ∈ values t, 0 < v) :
    geometricMean t = some (Real.exp (((values t).map Real.log).sum / (values t).length)) := by
  have hn : ((values t).length : ℝ) ≠ 0 := by
    rw [Nat.cast_ne_zero]; exact fun h => hne (List.length_eq_zero_iff.1 h)
  unfold geometricMean
  rw [show elements t = values t from rfl, fold_positive _ h, Option.bind_some, if_neg (by simpa using hn)]
  simp

theorem sum_log (l : List ℝ) (h : ∀ v ∈ l, 0 < v) : Real.exp (l.map Real.log).sum = l.prod := by
  induction l with
  | nil => simp
  | cons v l ih => rw [List.map_cons, List.sum_cons, Real.exp_add, ih fun u hu => h u (by simp [hu]), Real.exp_log (h v (by simp)), List.prod_cons]

/-- The logarithms of positive numbers lie below a tangent. -/
theorem sum_log_le (l : List ℝ) (h : ∀ v ∈ l, 0 < v) (a : ℝ) (ha : 0 < a) : (l.map Real.log).sum ≤ l.length * Real.log a + (l.sum / a - l.length) := by
  induction l with
  | nil => simp
  | cons v l ih =>
    have h1 := ih fun u hu => h u (by simp [hu])
    have hv := h v (by simp)
    have h2 := Real.log_le_sub_one_of_pos (div_pos hv ha)
    rw [Real.log_div (ne_of_gt hv) (ne_of_gt ha)] at h2
    simp only [List.map_cons, List.sum_cons, List.length_cons, Nat.cast_add, Nat.cast_one, add_div]
    linarith

theorem sum_ge (l : List ℝ) (a : ℝ) (h : ∀ v ∈ l, a ≤ v) : l.length * a ≤ l.sum := by
  induction l with
  | nil => simp
  | cons v l ih =>
    have h1 := ih fun u hu => h u (by simp [hu])
    have h2 := h v (by simp)
    simp only [List.sum_cons, List.length_cons, Nat.cast_add, Nat.cast_one]
    linarith

theorem sum_le (l : List ℝ) (a : ℝ) (h : ∀ v ∈ l, v ≤ a) : l.sum ≤ l.length * a := by
  induction l with
  | nil => simp
  | cons v l ih =>
    have h1 := ih fun u hu => h u (by simp [hu])
    have h2 := h v (by simp)
    simp only [List.sum_cons, List.length_cons, Nat.cast_add, Nat.cast_one]
    linarith

/-! ### Theorems -/

/-- The geometric mean of positive numbers is the positive number whose power is their product. -/
theorem C154_root (t : Tensor ℝ) (hne : values t ≠ []) (h : ∀ v ∈ values t, 0 < v) :
    ∃ g, geometricMean t = some g ∧ 0 < g ∧ g ^ (values t).length = (values t).prod := by
  have hn : ((values t).length : ℝ) ≠ 0 := by
    rw [Nat.cast_ne_zero]; exact fun h => hne (List.length_eq_zero_iff.1 h)
  refine ⟨_, geometric_eq t hne h, Real.exp_pos _, ?_⟩
  rw [← Real.exp_nat_mul, mul_div_cancel₀ _ hn, sum_log _ h]

/-- It is NaN exactly if there are no numbers or one of them is not positive. -/
theorem C154_nan (t : Tensor ℝ) : geometricMean t = none ↔ values t = [] ∨ ∃ v ∈ values t, v ≤ 0 := by
  constructor
  · intro hg
    by_contra hc
    rw [not_or] at hc
    have := geometric_eq t hc.1 fun v hv => by
      by_contra h0
      exact hc.2 ⟨v, hv, not_lt.1 h0⟩
    rw [hg] at this; cases this
  · intro h
    unfold geometricMean
    rw [show elements t = values t from rfl]
    rcases h with h | h
    · rw [h]; simp
    · rw [fold_bad _ h]; rfl

/-- It lies between the smallest and the largest number, and is at most the arithmetic mean. -/
theorem C154_between (t : Tensor ℝ) (g : ℝ) (hg : geometricMean t = some g) :
    (∀ lo, (∀ v ∈ values t, lo ≤ v) → lo ≤ g) ∧ (∀ hi, (∀ v ∈ values t, v ≤ hi) → g ≤ hi) ∧ g ≤ arithmeticMean t := by
  have hno : ¬ (values t = [] ∨ ∃ v ∈ values t, v ≤ 0) := by rw [← C154_nan, hg]; simp
  rw [not_or] at hno
  obtain ⟨hne, h⟩ := hno
  have hpos : ∀ v ∈ values t, 0 < v := fun v hv => by
    by_contra h0
    exact h ⟨v, hv, not_lt.1 h0⟩
  have hlen : 0 < ((values t).length : ℝ) := by
    rw [Nat.cast_pos]; exact List.length_pos_iff.2 hne
  rw [geometric_eq t hne hpos] at hg
  have hge : g = Real.exp (((values t).map Real.log).sum / (values t).length) := (Option.some.inj hg).symm
  obtain ⟨v0, l0, hl0⟩ := List.exists_cons_of_ne_nil hne
  have hv0 : v0 ∈ values t := by rw [hl0]; simp
  have hbound : ∀ a : ℝ, 0 < a → (values t).sum ≤ (values t).length * a → g ≤ a := by
    intro a ha hs
    rw [hge, ← Real.exp_log ha, Real.exp_le_exp, div_le_iff₀ hlen]
    have := sum_log_le _ hpos a ha
    have h2 : (values t).sum / a ≤ (values t).length := by rw [div_le_iff₀ ha]; exact hs
    linarith
  refine ⟨?_, ?_, ?_⟩
  · intro lo hlo
    by_cases h0 : lo ≤ 0
    · exact le_trans h0 (by rw [hge]; exact le_of_lt (Real.exp_pos _))
    · have h0 := not_le.1 h0
      rw [hge, ← Real.exp_log h0, Real.exp_le_exp, le_div_iff₀ hlen, mul_comm]
      have := sum_ge ((values t).map Real.log) (Real.log lo) (by
        intro u hu
        obtain ⟨v, hv, rfl⟩ := List.mem_map.1 hu
        exact Real.log_le_log h0 (hlo v hv))
      rwa [List.length_map] at this
  · intro hi hhi
    exact hbound hi (lt_of_lt_of_le (hpos v0 hv0) (hhi v0 hv0)) (sum_le _ hi hhi)
  · have hm := (C81_mean_variance t hne).1
    have hs : 0 < (values t).sum := by
      rw [hl0, List.sum_cons]
      have := sum_ge l0 0 fun v hv => le_of_lt (hpos v (by rw [hl0]; simp [hv]))
      have h1 := hpos v0 hv0
      linarith
    refine hbound _ ?_ (by rw [mul_comm, hm])
    by_contra h0
    have := mul_nonpos_of_nonpos_of_nonneg (not_lt.1 h0) hlen.le
    linarith

/-- Scaling all numbers scales it. -/
theorem C154_scaled (t : Tensor ℝ) (c : ℝ) (hc : 0 < c) : geometricMean (map (fun v => c * v) t) = (geometricMean t).map fun g => c * g := by
  have hv : values (map (fun v => c * v) t) = (values t).map fun v => c * v := by
    unfold values map
    simp only [List.map_flatMap, List.map_map]
    rfl
  by_cases hb : values t = [] ∨ ∃ v ∈ values t, v ≤ 0
  · rw [(C154_nan t).2 hb, (C154_nan _).2]
    · rfl
    rw [hv]
    rcases hb with hb | ⟨v, h1, h2⟩
    · left; rw [hb]; rfl
    · right; exact ⟨c * v, List.mem_map.2 ⟨v, h1, rfl⟩, mul_nonpos_of_nonneg_of_nonpos hc.le h2⟩
  · rw [not_or] at hb
    have hpos : ∀ v ∈ values t, 0 < v := fun v hv => by
      by_contra h0
      exact hb.2 ⟨v, hv, not_lt.1 h0⟩
    have hlen : ((values t).length : ℝ) ≠ 0 := by
      rw [Nat.cast_ne_zero]; exact fun h => hb.1 (List.length_eq_zero_iff.1 h)
    rw [geometric_eq t hb.1 hpos, geometric_eq _ (by rw [hv]; simpa using hb.1) (by
      rw [hv]; intro u hu
      obtain ⟨v, h1, rfl⟩ := List.mem_map.1 hu
      exact mul_pos hc (hpos v h1)), hv, Option.map_some]
    congr 1
    have key : ∀ l : List ℝ, (∀ v ∈ l, 0 < v) → ((l.map fun v => c * v).map Real.log).sum = l.length * Real.log c + (l.map Real.log).sum := by
      intro l hl
      induction l with
      | nil => simp
      | cons v l ih =>
        have := ih fun u hu => hl u (by simp [hu])
        simp only [List.map_cons, List.sum_cons, List.length_cons, Nat.cast_add, Nat.cast_one]
        rw [this, Real.log_mul (ne_of_gt hc) (ne_of_gt (hl v (by simp)))]
        ring
    rw [key _ hpos, List.length_map, add_div, mul_div_cancel_left₀ _ hlen, Real.exp_add, Real.exp_log hc]

/-- The geometric mean of 1, 2 and 4 is 2. -/
example : geometricMean ⟨1, 3, 1, fun _ c _ => 2 ^ c⟩ = some 2 := by
  have hv : values (⟨1, 3, 1, fun _ c _ => 2 ^ c⟩ : Tensor ℝ) = [1, 2, 4] := by
    simp [values, List.range_succ]; norm_num
  obtain ⟨g, h1, h2, h3⟩ := C154_root ⟨1, 3, 1, fun _ c _ => 2 ^ c⟩ (by rw [hv]; simp) (by rw [hv]; simp)
  rw [h1]
  rw [hv] at h3
  norm_num at h3
  congr 1
  nlinarith [sq_nonneg (g + 2), sq_nonneg (g - 2), mul_pos h2 h2]

end Verif.GeometricMean
