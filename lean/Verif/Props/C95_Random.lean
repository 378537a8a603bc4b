import Verif.Model.RandomTensor
import Mathlib.Tactic.Linarith
import Mathlib.RingTheory.Coprime.Lemmas
import Mathlib.Tactic.FieldSimp
import Mathlib.Tactic.Ring
import Mathlib.Tactic.NormNum
import Mathlib.Tactic.Positivity

/-!
C95. Random start values: inside the requested range, different for different neurons.
-/
namespace Verif.RandomTensor
open Verif

/-! ### Lemmas -/

/-- The argument of `fmod`. -/
noncomputable def offset (range : ℝ) (rows cols seed r c k : Nat) : ℝ :=
  ((k : ℝ) * ((rows : ℝ) * (cols : ℝ)) + (r : ℝ) * (cols : ℝ) + ((c : ℝ) + 1) * (range / eCode) +
    ((seed % 2 ^ 32 % 12345689 + 1 : Nat) : ℝ) * (range / eCode) / piCode) * piCode

theorem piCode_pos : 0 < piCode := by unfold piCode; norm_num
theorem eCode_pos : 0 < eCode := by unfold eCode; norm_num

theorem offset_nonneg {range : ℝ} (h : 0 < range) (rows cols seed r c k : Nat) : 0 ≤ offset range rows cols seed r c k := by
  unfold offset
  have := piCode_pos
  have := eCode_pos
  positivity

/-- The value for a positive range. -/
theorem value_eq {range : ℝ} (h : 0 < range) (hi : ℝ) (rows cols seed r c k : Nat) :
    value hi range rows cols seed r c k = some (hi - (offset range rows cols seed r c k - range * (⌊offset range rows cols seed r c k / range⌋ : ℝ))) := by
  have h0 := offset_nonneg h rows cols seed r c k
  show (fmod (offset range rows cols seed r c k) range).map _ = _
  unfold fmod
  rw [if_neg (ne_of_gt h), if_pos (div_nonneg h0 h.le)]
  rfl

theorem value_bounds {range : ℝ} (h : 0 < range) (hi : ℝ) (rows cols seed r c k : Nat) :
    ∃ v, value hi range rows cols seed r c k = some v ∧ hi - range < v ∧ v ≤ hi := by
  refine ⟨_, value_eq h hi rows cols seed r c k, ?_, ?_⟩
  · have := Int.lt_floor_add_one (offset range rows cols seed r c k / range)
    rw [div_lt_iff₀ h] at this
    linarith
  · have := Int.floor_le (offset range rows cols seed r c k / range)
    rw [le_div_iff₀ h] at this
    linarith

/-- Equal values come from offsets that differ by a multiple of the range. -/
theorem value_inj {range : ℝ} (h : 0 < range) (hi : ℝ) {rows cols seed r c k rows' cols' seed' r' c' k' : Nat}
    (he : value hi range rows cols seed r c k = value hi range rows' cols' seed' r' c' k') :
    ∃ m : ℤ, offset range rows cols seed r c k - offset range rows' cols' seed' r' c' k' = range * m := by
  rw [value_eq h, value_eq h] at he
  refine ⟨⌊offset range rows cols seed r c k / range⌋ - ⌊offset range rows' cols' seed' r' c' k' / range⌋, ?_⟩
  have := Option.some.inj he
  push_cast
  linarith

theorem columns_apart {range : ℝ} (h : 0 < range) (hi : ℝ) (rows cols seed r c c' k : Nat) (hne : c ≠ c')
    (hc : c < 135914000000000000000) (hc' : c' < 135914000000000000000) :
    value hi range rows cols seed r c k ≠ value hi range rows cols seed r c' k := by
  intro he
  obtain ⟨m, hm⟩ := value_inj h hi he
  have h1 : offset range rows cols seed r c k - offset range rows cols seed r c' k = range * (((c : ℝ) - c') * (piCode / eCode)) := by
    unfold offset; ring
  rw [h1] at hm
  have h2 := mul_left_cancel₀ (ne_of_gt h) hm
  obtain ⟨P, hP⟩ : ∃ P : ℤ, P = 157079632679489661923 := ⟨_, rfl⟩
  obtain ⟨Q, hQ⟩ : ∃ Q : ℤ, Q = 135914000000000000000 := ⟨_, rfl⟩
  have hcop : IsCoprime Q P := by
    rw [hP, hQ, Int.isCoprime_iff_gcd_eq_one]; decide +kernel
  have hQ0 : (Q : ℝ) ≠ 0 := by rw [hQ]; norm_num
  have h3 : piCode / eCode = (P : ℝ) / Q := by unfold piCode eCode; rw [hP, hQ]; norm_num
  rw [h3, ← mul_div_assoc, div_eq_iff hQ0] at h2
  have h5 : ((c : ℤ) - c') * P = m * Q := by exact_mod_cast h2
  have h6 : Q ∣ (c : ℤ) - c' := hcop.dvd_of_dvd_mul_right ⟨m, by rw [h5]; ring⟩
  have hq : (c : ℤ) < Q ∧ (c' : ℤ) < Q := ⟨by rw [hQ]; exact_mod_cast hc, by rw [hQ]; exact_mod_cast hc'⟩
  have h7 := Int.eq_zero_of_abs_lt_dvd h6 (by rw [abs_lt]; constructor <;> omega)
  omega

theorem seeds_apart {range : ℝ} (h : 0 < range) (hi : ℝ) (rows cols seed seed' r c k : Nat)
    (hs : seed < 12345689) (hs' : seed' < 12345689) (hd : ¬ (67957 : ℤ) ∣ (seed : ℤ) - seed') :
    value hi range rows cols seed r c k ≠ value hi range rows cols seed' r c k := by
  intro he
  obtain ⟨m, hm⟩ := value_inj h hi he
  have e1 : seed % 2 ^ 32 % 12345689 = seed := by rw [Nat.mod_eq_of_lt (b := 2 ^ 32) (by omega), Nat.mod_eq_of_lt hs]
  have e2 : seed' % 2 ^ 32 % 12345689 = seed' := by rw [Nat.mod_eq_of_lt (b := 2 ^ 32) (by omega), Nat.mod_eq_of_lt hs']
  have hp := ne_of_gt piCode_pos
  have h1 : offset range rows cols seed r c k - offset range rows cols seed' r c k = range * (((seed : ℝ) - seed') / eCode) := by
    unfold offset
    rw [e1, e2]
    push_cast
    field_simp
    ring
  rw [h1] at hm
  have h2 := mul_left_cancel₀ (ne_of_gt h) hm
  unfold eCode at h2
  have h4 : ((seed : ℝ) - seed') * 25000 = m * 67957 := by
    have : ((seed : ℝ) - seed') / (271828 / 10 ^ 5) = ((seed : ℝ) - seed') * 25000 / 67957 := by
      norm_num; ring
    rw [this] at h2
    rw [div_eq_iff (by norm_num)] at h2
    exact h2
  have h5 : ((seed : ℤ) - seed') * 25000 = m * 67957 := by exact_mod_cast h4
  have hcop : IsCoprime (67957 : ℤ) 25000 := by rw [Int.isCoprime_iff_gcd_eq_one]; decide +kernel
  exact hd (hcop.dvd_of_dvd_mul_right ⟨m, by rw [h5]; ring⟩)

theorem xavierBound_pos {rows cols : Nat} (h : 0 < rows + cols) : 0 < xavierBound rows cols := by
  unfold xavierBound
  have : (0 : ℝ) < ((rows + cols : Nat) : ℝ) := by exact_mod_cast h
  have : 0 < Real.sqrt (2 / ((rows + cols : Nat) : ℝ)) := Real.sqrt_pos.mpr (by positivity)
  linarith

theorem xavier_range {rows cols : Nat} (h : 0 < rows + cols) :
    |xavierBound rows cols - -xavierBound rows cols| = 2 * xavierBound rows cols := by
  have := xavierBound_pos h
  rw [abs_of_pos (by linarith)]; ring

/-! ### C95 -/

/-- C95. Random tensors have the requested shape; if the bounds differ (in whatever order they are given), every value lies between them. -/
theorem C95_in_range (rows cols chans : Nat) (lo hi : ℝ) (seed : Nat) (h : lo ≠ hi) :
    (random rows cols chans lo hi seed).rows = rows ∧ (random rows cols chans lo hi seed).cols = cols ∧ (random rows cols chans lo hi seed).chans = chans ∧
    ∀ r c k, ∃ v, (random rows cols chans lo hi seed).get r c k = some v ∧ min lo hi < v ∧ v ≤ max lo hi := by
  refine ⟨rfl, rfl, rfl, fun r c k => ?_⟩
  have hp : 0 < |hi - lo| := abs_pos.mpr (sub_ne_zero.mpr (Ne.symm h))
  obtain ⟨v, h1, h2, h3⟩ := value_bounds hp (max hi lo) rows cols seed r c k
  refine ⟨v, h1, ?_, by rwa [max_comm]⟩
  rcases le_total lo hi with hl | hl
  · rw [min_eq_left hl]
    rw [max_eq_left hl, abs_of_nonneg (by linarith)] at h2
    linarith
  · rw [min_eq_right hl]
    rw [max_eq_right hl, abs_of_nonpos (by linarith)] at h2
    linarith

/-- C95 is violated when both bounds are equal: every value is NaN. -/
theorem C95_equal_bounds_violated (rows cols chans : Nat) (b : ℝ) (seed r c k : Nat) : (random rows cols chans b b seed).get r c k = none := by
  show value _ _ _ _ _ _ _ _ = _
  unfold value fmod
  simp

/-- C95. The start weights of a layer lie within the bounds of Xavier's rule for its numbers of inputs and outputs. -/
theorem C95_xavier (rows cols chans seed : Nat) (h : 0 < rows + cols) :
    ∀ r c k, ∃ v, (xavier rows cols chans seed).get r c k = some v ∧ |v| ≤ Real.sqrt (2 / ((rows : ℝ) + cols)) / 2 := by
  intro r c k
  have hp := xavierBound_pos h
  obtain ⟨v, h1, h2, h3⟩ := value_bounds (range := 2 * xavierBound rows cols) (by linarith) (xavierBound rows cols) rows cols seed r c k
  refine ⟨v, ?_, ?_⟩
  · show value _ _ _ _ _ _ _ _ = _
    rw [xavier_range h]; exact h1
  · have : xavierBound rows cols = Real.sqrt (2 / ((rows : ℝ) + cols)) / 2 := by unfold xavierBound; push_cast; rfl
    rw [← this, abs_le]
    constructor <;> linarith

/-- C95. No two neurons of a layer start with the same weight for the same input (layers of less than 10^20 neurons). -/
theorem C95_neurons (rows cols chans seed r c c' k : Nat) (hne : c ≠ c') (hc : c < cols) (hc' : c' < cols) (hb : cols ≤ 10 ^ 20) :
    (xavier rows cols chans seed).get r c k ≠ (xavier rows cols chans seed).get r c' k := by
  show value _ _ _ _ _ _ _ _ ≠ value _ _ _ _ _ _ _ _
  have hrc : 0 < rows + cols := by omega
  have := xavierBound_pos hrc
  rw [xavier_range hrc]
  exact columns_apart (by linarith) _ _ _ _ _ _ _ _ hne (by omega) (by omega)

/-- C95. The filters of a convolution layer start with different weights at every place (up to 67957 filters). -/
theorem C95_filters (o : Optimizer.Opt ℝ) (kernel depth filters : Nat) (hk : 0 < kernel) (hid : (Optimizer.register o).1 + filters + 42 < 12345689)
    (f f' : Nat) (w w' : Tensor (Option ℝ)) (hne : f ≠ f') (hf : filters ≤ 67957)
    (hw : (convStart o kernel depth filters).1[f]? = some w) (hw' : (convStart o kernel depth filters).1[f']? = some w') :
    ∀ r c k, w.get r c k ≠ w'.get r c k := by
  intro r c k
  unfold convStart at hw hw'
  simp only [List.getElem?_map, Option.map_eq_some_iff] at hw hw'
  obtain ⟨a, ha, rfl⟩ := hw
  obtain ⟨b, hb, rfl⟩ := hw'
  obtain ⟨h1, rfl⟩ := List.getElem?_eq_some_iff.mp ha
  obtain ⟨h2, rfl⟩ := List.getElem?_eq_some_iff.mp hb
  rw [List.length_range] at h1 h2
  simp only [List.getElem_range]
  have hrc : 0 < kernel + kernel := by omega
  have := xavierBound_pos hrc
  show value _ _ _ _ _ _ _ _ ≠ value _ _ _ _ _ _ _ _
  rw [xavier_range hrc]
  refine seeds_apart (by linarith) _ _ _ _ _ _ _ _ (by omega) (by omega) ?_
  intro hd
  have := Int.eq_zero_of_abs_lt_dvd hd (by rw [abs_lt]; constructor <;> omega)
  omega

/-- C95, layers that were registered with Adam or gradient descent with momentum: two layers of the same shape that are registered within less than
67957 registrations start with different weights at every place. -/
theorem C95_layers_partial (o o' : Optimizer.Opt ℝ) (hk : o.kind ≠ .mbgd) (hk' : o'.kind ≠ .mbgd) (inputs outputs : Nat) (hio : 0 < inputs + outputs)
    (hlt : o.nextId < o'.nextId) (hnear : o'.nextId < o.nextId + 67957) (hb : o'.nextId + 42 < 12345689) :
    ∀ r c k, (denseStart o inputs outputs).1.get r c k ≠ (denseStart o' inputs outputs).1.get r c k := by
  intro r c k
  have := xavierBound_pos hio
  have e : (Optimizer.register o).1 = o.nextId := by unfold Optimizer.register; split; exact absurd ‹_› hk; rfl
  have e' : (Optimizer.register o').1 = o'.nextId := by unfold Optimizer.register; split; exact absurd ‹_› hk'; rfl
  show value _ _ _ _ _ _ _ _ ≠ value _ _ _ _ _ _ _ _
  rw [xavier_range hio, e, e']
  refine seeds_apart (by linarith) _ _ _ _ _ _ _ _ (by omega) (by omega) ?_
  intro hd
  have := Int.eq_zero_of_abs_lt_dvd hd (by rw [abs_lt]; constructor <;> omega)
  omega

/-- C95 is violated with mini-batch gradient descent: all layers of the same shape start with the same weights. -/
theorem C95_layers_violated (o : Optimizer.Opt ℝ) (hk : o.kind = .mbgd) (inputs outputs : Nat) :
    (denseStart (denseStart o inputs outputs).2 inputs outputs).1 = (denseStart o inputs outputs).1 := by
  unfold denseStart Optimizer.register
  rw [hk]
  simp [hk]

/-- Non-vacuity: the second layer of an Adam-trained network. -/
example : ∃ o o' : Optimizer.Opt ℝ, o.kind ≠ .mbgd ∧ o' = (Optimizer.register o).2 ∧ o'.kind ≠ .mbgd ∧ o.nextId < o'.nextId :=
  ⟨Optimizer.create (.sgdm false) .code (1 / 10) (1 / 10), _, by decide, rfl, by decide, by decide⟩

/-- A value: the first weight of a 1×1 layer with range 1. -/
example : ∃ v : ℝ, value 1 1 1 1 0 0 0 0 = some v ∧ 0 < v ∧ v ≤ 1 := by
  obtain ⟨v, h1, h2, h3⟩ := value_bounds (range := 1) one_pos 1 1 1 0 0 0 0
  exact ⟨v, h1, by linarith, h3⟩

end Verif.RandomTensor
