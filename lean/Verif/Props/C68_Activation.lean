import Verif.Model.Activation
import Mathlib.Analysis.SpecialFunctions.Trigonometric.DerivHyp
import Mathlib.Analysis.Calculus.Deriv.Slope
import Mathlib.Analysis.Calculus.Deriv.Abs
import Mathlib.Tactic.NormNum
import Mathlib.Tactic.Linarith
import Mathlib.Tactic.FieldSimp

/-!
C68. Activation functions and the derivatives reported for them, over the real numbers.
`HasDerivAt f d x` is Mathlib's derivative; nothing of the model is used to state it.
-/
namespace Verif.Activation
open Verif Views

/-! ### Rules for the single functions -/

theorem relu_pos {x : ℝ} (h : 0 < x) : HasDerivAt (value .relu) 1 x := by
  refine (hasDerivAt_id x).congr_of_eventuallyEq ?_
  filter_upwards [lt_mem_nhds h] with y hy
  simp [value, not_lt.mpr (le_of_lt hy)]

theorem relu_neg {x : ℝ} (h : x < 0) : HasDerivAt (value .relu) 0 x := by
  refine (hasDerivAt_const x (0 : ℝ)).congr_of_eventuallyEq ?_
  filter_upwards [gt_mem_nhds h] with y hy
  simp [value, hy]

theorem leaky_pos {x : ℝ} (h : 0 < x) : HasDerivAt (value .leaky) 1 x := by
  refine (hasDerivAt_id x).congr_of_eventuallyEq ?_
  filter_upwards [lt_mem_nhds h] with y hy
  simp [value, flag, not_lt.mpr (le_of_lt hy), le_of_lt hy]

theorem leaky_neg {x : ℝ} (h : x < 0) : HasDerivAt (value .leaky) (1 / 100) x := by
  have h1 : HasDerivAt (fun y : ℝ => 1 / 100 * y) (1 / 100) x := by simpa using (hasDerivAt_id x).const_mul (1 / 100 : ℝ)
  refine h1.congr_of_eventuallyEq ?_
  filter_upwards [gt_mem_nhds h] with y hy
  simp [value, flag, hy, not_le.mpr hy]

/-- A function that is linear with different slopes on the two sides of 0 has no derivative there. -/
theorem no_derivative_at_kink (f : ℝ → ℝ) (a b : ℝ) (hab : a ≠ b) (hp : ∀ x, 0 ≤ x → f x = a * x) (hn : ∀ x, x ≤ 0 → f x = b * x) (d : ℝ) :
    ¬ HasDerivAt f d 0 := by
  intro h
  have h1 : HasDerivWithinAt f a (Set.Ici 0) 0 := by
    have : HasDerivWithinAt (fun x : ℝ => a * x) a (Set.Ici 0) 0 := by simpa using ((hasDerivAt_id (0:ℝ)).const_mul a).hasDerivWithinAt
    exact this.congr (fun x hx => hp x hx) (hp 0 le_rfl)
  have h2 : HasDerivWithinAt f b (Set.Iic 0) 0 := by
    have : HasDerivWithinAt (fun x : ℝ => b * x) b (Set.Iic 0) 0 := by simpa using ((hasDerivAt_id (0:ℝ)).const_mul b).hasDerivWithinAt
    exact this.congr (fun x hx => hn x hx) (hn 0 le_rfl)
  have e1 := (uniqueDiffWithinAt_Ici (0:ℝ)).eq_deriv _ h1 h.hasDerivWithinAt
  have e2 := (uniqueDiffWithinAt_Iic (0:ℝ)).eq_deriv _ h2 h.hasDerivWithinAt
  exact hab (e1.trans e2.symm)

theorem sigmoid_deriv (x : ℝ) : HasDerivAt (value .sigmoid) (slope .sigmoid x) x := by
  have hp : (1 + Real.exp (-1 * x)) ≠ 0 := by positivity
  have h1 : HasDerivAt (fun y : ℝ => 1 + Real.exp (-1 * y)) (Real.exp (-1 * x) * (-1)) x := by
    have := ((hasDerivAt_id x).const_mul (-1 : ℝ)).exp
    simpa using this.const_add 1
  have h2 := (hasDerivAt_const x (1 : ℝ)).div h1 hp
  refine h2.congr_deriv ?_
  simp only [slope]
  field_simp
  ring

theorem tanh_deriv (x : ℝ) : HasDerivAt (value .tanh) (slope .tanh x) x := by
  have hc : Real.cosh x ≠ 0 := (Real.cosh_pos x).ne'
  have h := (Real.hasDerivAt_sinh x).div (Real.hasDerivAt_cosh x) hc
  have hf : value .tanh = fun y => Real.sinh y / Real.cosh y := by
    funext y; exact Real.tanh_eq_sinh_div_cosh y
  rw [hf]
  refine h.congr_deriv ?_
  simp only [slope, Real.tanh_eq_sinh_div_cosh]
  have := Real.cosh_sq x
  field_simp

/-- `tanh_approx` computes the hyperbolic tangent itself, by another formula. -/
theorem tanhApprox_eq (x : ℝ) : value .tanhApprox x = Real.tanh x := by
  simp only [value]
  rw [Real.tanh_eq_sinh_div_cosh, Real.sinh_eq, Real.cosh_eq]
  have h1 : Real.exp (-1 * (2 * x)) = Real.exp (-x) / Real.exp x := by rw [← Real.exp_sub]; ring_nf
  rw [h1]
  have := Real.exp_pos x
  have := Real.exp_pos (-x)
  field_simp
  ring

theorem approx_deriv (x : ℝ) : HasDerivAt (value .sigmoidApprox) (1 / 2 / (1 + |x|) ^ 2) x := by
  have hform : ∀ σ : ℝ, (σ = 1 ∨ σ = -1) → 0 < 1 + σ * x → HasDerivAt (fun y : ℝ => 1 / 2 * (y / (1 + σ * y) + 1)) (1 / 2 / (1 + σ * x) ^ 2) x := by
    intro σ hσ hpos
    have h1 : HasDerivAt (fun y : ℝ => 1 + σ * y) σ x := by simpa using ((hasDerivAt_id x).const_mul σ).const_add 1
    have h2 := ((((hasDerivAt_id x).div h1 hpos.ne').add_const 1).const_mul (1 / 2 : ℝ))
    refine h2.congr_deriv ?_
    simp only [id]
    field_simp
    ring
  rcases lt_trichotomy x 0 with h | h | h
  · have h0 : |x| = -1 * x := by rw [abs_of_neg h]; ring
    rw [h0]
    refine (hform (-1) (Or.inr rfl) (by linarith)).congr_of_eventuallyEq ?_
    filter_upwards [gt_mem_nhds h] with y hy
    simp [value, abs_of_neg hy]
  · subst h
    have hR := hform 1 (Or.inl rfl) (by norm_num)
    have hL := hform (-1) (Or.inr rfl) (by norm_num)
    have h1 : HasDerivWithinAt (value .sigmoidApprox) (1 / 2 / (1 + |(0:ℝ)|) ^ 2) (Set.Ici 0) 0 := by
      refine (hR.hasDerivWithinAt.congr (f₁ := value .sigmoidApprox) ?_ ?_).congr_deriv (by norm_num)
      · intro y hy; simp [value, abs_of_nonneg (show (0:ℝ) ≤ y from hy)]
      · simp [value]
    have h2 : HasDerivWithinAt (value .sigmoidApprox) (1 / 2 / (1 + |(0:ℝ)|) ^ 2) (Set.Iic 0) 0 := by
      refine (hL.hasDerivWithinAt.congr (f₁ := value .sigmoidApprox) ?_ ?_).congr_deriv (by norm_num)
      · intro y hy; simp [value, abs_of_nonpos (show y ≤ (0:ℝ) from hy)]
      · simp [value]
    have h3 := h2.union h1
    rw [Set.Iic_union_Ici] at h3
    exact hasDerivWithinAt_univ.mp h3
  · have h0 : |x| = 1 * x := by rw [abs_of_pos h]; ring
    rw [h0]
    refine (hform 1 (Or.inl rfl) (by linarith)).congr_of_eventuallyEq ?_
    filter_upwards [lt_mem_nhds h] with y hy
    simp [value, abs_of_pos hy]

/-! ### C68 -/

/-- C68. For every function but the sigmoid approximation, the derivative exists away from the kink of the two rectifiers and is the
reported one. -/
theorem C68_derivative_partial (k : Kind) (hk : k ≠ .sigmoidApprox) (x : ℝ) (hx : k = .relu ∨ k = .leaky → x ≠ 0) :
    HasDerivAt (value k) (slope k x) x := by
  cases k with
  | relu =>
    rcases lt_or_gt_of_ne (hx (Or.inl rfl)) with h | h
    · simpa [slope, not_lt.mpr h.le] using relu_neg h
    · simpa [slope, h] using relu_pos h
  | leaky =>
    rcases lt_or_gt_of_ne (hx (Or.inr rfl)) with h | h
    · simpa [slope, flag, h, not_le.mpr h] using leaky_neg h
    · simpa [slope, flag, not_lt.mpr h.le, h.le] using leaky_pos h
  | linear => exact hasDerivAt_id x
  | sigmoid => exact sigmoid_deriv x
  | sigmoidApprox => exact absurd rfl hk
  | tanh => exact tanh_deriv x
  | tanhApprox =>
    have h1 : value .tanhApprox = value .tanh := by funext y; exact tanhApprox_eq y
    have h2 : slope .tanhApprox x = slope .tanh x := by
      have := tanhApprox_eq x
      simp only [value] at this
      simp only [slope, this]
    rw [h1, h2]; exact tanh_deriv x

/-- C68. Hence wherever a derivative exists, it is the reported one (except for the sigmoid approximation). -/
theorem C68_reported_partial (k : Kind) (hk : k ≠ .sigmoidApprox) (x d : ℝ) (h : HasDerivAt (value k) d x) : slope k x = d := by
  by_cases hx : (k = .relu ∨ k = .leaky) ∧ x = 0
  · exfalso
    obtain ⟨hkk, rfl⟩ := hx
    rcases hkk with rfl | rfl
    · refine no_derivative_at_kink (value .relu) 1 0 (by norm_num) ?_ ?_ d h
      · intro x hx; simp [value, not_lt.mpr hx]
      · intro x hx
        rcases hx.lt_or_eq with h | h
        · simp [value, h]
        · simp [value, h]
    · refine no_derivative_at_kink (value .leaky) 1 (1 / 100) (by norm_num) ?_ ?_ d h
      · intro x hx; simp [value, flag, not_lt.mpr hx, hx]
      · intro x hx
        rcases hx.lt_or_eq with h | h
        · simp [value, flag, h, not_le.mpr h]
        · simp [value, flag, h]
  · refine (C68_derivative_partial k hk x ?_).unique h
    intro hkk h0; exact hx ⟨hkk, h0⟩

/-- C68. At the kink the reported value is the slope on one side: the left one for the rectifier, the right one for the leaky rectifier. -/
theorem C68_kink : HasDerivWithinAt (value .relu) (slope .relu 0) (Set.Iic 0) 0 ∧
    HasDerivWithinAt (value .leaky) (slope .leaky 0) (Set.Ici 0) 0 := by
  constructor
  · have h : HasDerivWithinAt (fun _ : ℝ => (0 : ℝ)) 0 (Set.Iic 0) 0 := (hasDerivAt_const (0:ℝ) (0:ℝ)).hasDerivWithinAt
    have h2 := h.congr (f₁ := value .relu) (by
      intro y hy
      rcases (show y ≤ 0 from hy).lt_or_eq with h | h
      · simp [value, h]
      · simp [value, h]) (by simp [value])
    simpa [slope] using h2
  · have h : HasDerivWithinAt (fun x : ℝ => x) 1 (Set.Ici 0) 0 := (hasDerivAt_id (0:ℝ)).hasDerivWithinAt
    have h2 := h.congr (f₁ := value .leaky) (by
      intro y hy
      have hy' : (0:ℝ) ≤ y := hy
      simp [value, flag, not_lt.mpr hy', hy']) (by simp [value, flag])
    simpa [slope, flag] using h2

/-- C68 does not hold for the sigmoid approximation: the reported value is the derivative at ±1/2 only. -/
theorem C68_approx_violated (x : ℝ) : HasDerivAt (value .sigmoidApprox) (slope .sigmoidApprox x) x ↔ |x| = 1 / 2 := by
  have hd := approx_deriv x
  have hp : 0 < 1 + |x| := by positivity
  have hs : slope .sigmoidApprox x = 1 / 4 * (1 + 2 * |x|) / (1 + |x|) ^ 2 := by
    simp only [slope]
    have hsq : x * x = |x| * |x| := by rw [← abs_mul, abs_of_nonneg (mul_self_nonneg x)]
    field_simp
    nlinarith [hsq]
  constructor
  · intro h
    have := h.unique hd
    rw [hs] at this
    field_simp at this
    linarith
  · intro h
    have : slope .sigmoidApprox x = 1 / 2 / (1 + |x|) ^ 2 := by rw [hs, h]; norm_num
    rw [this]; exact hd

/-- C68. The value reported for the sigmoid approximation still has the sign of the derivative. -/
theorem C68_approx_sign (x : ℝ) : ∃ d, HasDerivAt (value .sigmoidApprox) d x ∧ 0 < d ∧ 0 < slope .sigmoidApprox x := by
  refine ⟨_, approx_deriv x, by positivity, ?_⟩
  have hp : 0 < 1 + |x| := by positivity
  have h1 := neg_abs_le x
  have h2 := le_abs_self x
  have hb1 : -1 < x / (1 + |x|) := by rw [lt_div_iff₀ hp]; linarith
  have hb2 : x / (1 + |x|) < 1 := by rw [div_lt_iff₀ hp]; linarith
  simp only [slope]
  apply mul_pos <;> linarith

/-- C68. Ranges and monotonicity. -/
theorem C68_range (x : ℝ) :
    0 ≤ value .relu x ∧ (0 < value .sigmoid x ∧ value .sigmoid x < 1) ∧ (0 < value .sigmoidApprox x ∧ value .sigmoidApprox x < 1) ∧
    (-1 < value .tanh x ∧ value .tanh x < 1) ∧ (-1 < value .tanhApprox x ∧ value .tanhApprox x < 1) := by
  have hp : 0 < 1 + |x| := by positivity
  have h1 := neg_abs_le x
  have h2 := le_abs_self x
  have hb1 : -1 < x / (1 + |x|) := by rw [lt_div_iff₀ hp]; linarith
  have hb2 : x / (1 + |x|) < 1 := by rw [div_lt_iff₀ hp]; linarith
  have he := Real.exp_pos (-1 * x)
  refine ⟨?_, ⟨?_, ?_⟩, ⟨?_, ?_⟩, ⟨Real.neg_one_lt_tanh x, Real.tanh_lt_one x⟩, ?_⟩
  · simp only [value]; split <;> linarith
  · simp only [value]; positivity
  · simp only [value]; rw [div_lt_one (by positivity)]; linarith
  · simp only [value]; linarith
  · simp only [value]; linarith
  · rw [tanhApprox_eq]; exact ⟨Real.neg_one_lt_tanh x, Real.tanh_lt_one x⟩

/-- C68. A larger input never gives a smaller output. -/
theorem C68_monotone (k : Kind) : Monotone (value k) := by
  have smooth : ∀ k, (∀ x, ∃ d, HasDerivAt (value k) d x ∧ 0 ≤ d) → Monotone (value k) := by
    intro k h
    refine monotone_of_deriv_nonneg (fun x => (h x).choose_spec.1.differentiableAt) fun x => ?_
    rw [(h x).choose_spec.1.deriv]; exact (h x).choose_spec.2
  cases k with
  | relu => intro a b hab; simp only [value]; split <;> split <;> linarith
  | leaky =>
    intro a b hab
    simp only [value, flag]
    rcases lt_or_ge a 0 with ha | ha <;> rcases lt_or_ge b 0 with hb | hb <;>
      simp [ha, hb, not_lt.mpr, not_le.mpr] <;> linarith
  | linear => exact monotone_id
  | sigmoid =>
    refine smooth _ fun x => ⟨_, sigmoid_deriv x, ?_⟩
    have := (C68_range x).2.1
    simp only [value] at this
    simp only [slope]
    exact mul_nonneg this.1.le (by linarith)
  | sigmoidApprox => exact smooth _ fun x => ⟨_, approx_deriv x, by positivity⟩
  | tanh =>
    refine smooth _ fun x => ⟨_, tanh_deriv x, ?_⟩
    have := Real.abs_tanh_lt_one x
    have := abs_lt.mp this
    simp only [slope]; nlinarith
  | tanhApprox =>
    have h1 : value .tanhApprox = value .tanh := by funext y; exact tanhApprox_eq y
    rw [h1]
    refine smooth _ fun x => ⟨_, tanh_deriv x, ?_⟩
    have := abs_lt.mp (Real.abs_tanh_lt_one x)
    simp only [slope]; nlinarith

/-- C68. On tensors: element by element, the shape is kept. -/
theorem C68_tensor_partial (k : Kind) (hk : k ≠ .sigmoidApprox) (t : Tensor ℝ) (r c ch : Nat) (hx : k = .relu ∨ k = .leaky → t.get r c ch ≠ 0) :
    (activate k t).rows = t.rows ∧ (activate k t).cols = t.cols ∧ (activate k t).chans = t.chans ∧
    (derivative k t).rows = t.rows ∧ (derivative k t).cols = t.cols ∧ (derivative k t).chans = t.chans ∧
    ∀ t' : ℝ → Tensor ℝ, (∀ s, (t' s).get r c ch = s) →
      HasDerivAt (fun s => (activate k (t' s)).get r c ch) ((derivative k t).get r c ch) (t.get r c ch) := by
  refine ⟨rfl, rfl, rfl, rfl, rfl, rfl, fun t' ht' => ?_⟩
  have := C68_derivative_partial k hk _ hx
  have hf : (fun s => (activate k (t' s)).get r c ch) = value k := by
    funext s; simp [activate, map, ht']
  rw [hf]; exact this

example : HasDerivAt (value .relu) 1 3 := by simpa [slope] using C68_derivative_partial .relu (by decide) 3 (by intro _; norm_num)
example : HasDerivAt (value .sigmoid) (1 / 4) 0 := by
  have := C68_derivative_partial .sigmoid (by decide) 0 (by simp)
  simp only [slope] at this
  norm_num at this ⊢; exact this
example : ¬ HasDerivAt (value .sigmoidApprox) (slope .sigmoidApprox 0) 0 := by rw [C68_approx_violated]; norm_num

end Verif.Activation
