import Verif.Model.Loss
import Verif.Model.Activation
import Verif.Props.C69_Softmax
import Verif.Lemmas.Calculus
import Mathlib.Analysis.SpecialFunctions.Log.Deriv
import Mathlib.Analysis.SpecialFunctions.ExpDeriv
import Mathlib.Tactic.FieldSimp

/-!
C67. Loss functions and the derivatives reported for them, over the real numbers. `Calculus.IsGradient` is the specification.
-/
namespace Verif.Loss
open Verif Views Calculus

/-! ### Closed forms -/

theorem zip_of_shape {op : ℝ → ℝ → ℝ} {a b : Tensor ℝ} (h : Shape a b) :
    zip op a b = some ⟨a.rows, a.cols, a.chans, fun r c k => op (a.get r c k) (b.get r c k)⟩ := by
  obtain ⟨h1, h2, h3⟩ := h
  unfold zip
  rw [if_neg]
  rintro (h | h | h)
  · exact h h3
  · exact h h1
  · exact h h2

theorem zip_mk {op : ℝ → ℝ → ℝ} {r c k : Nat} {f g : Nat → Nat → Nat → ℝ} :
    zip op ⟨r, c, k, f⟩ ⟨r, c, k, g⟩ = some ⟨r, c, k, fun a b d => op (f a b d) (g a b d)⟩ := by
  unfold zip; rw [if_neg (by simp)]

variable (c : Constants) {p t : Tensor ℝ}

theorem mse_closed (h : Shape p t) : lossOf c .mse t p = some (total p (fun i => (el p i - el t i) ^ 2) / (p.size : ℝ)) := by
  simp only [lossOf, error, subtract, zip_of_shape h, Option.map_some, loss, mean_total]
  rfl

theorem mae_closed (h : Shape p t) : lossOf c .mae t p = some (total p (fun i => |el p i - el t i|) / (p.size : ℝ)) := by
  simp only [lossOf, error, subtract, zip_of_shape h, Option.map_some, loss, mean_total]
  rfl

theorem smae_closed (h : Shape p t) :
    lossOf c .smae t p = some (total p (fun i => 1 / 2 / c.smoothness * (el p i - el t i) ^ 2) / (p.size : ℝ)) := by
  simp only [lossOf, error, subtract, zip_of_shape h, Option.map_some, loss, sum_total, select, maskedSelect, ite_self]
  rfl

theorem bce_closed (h : Shape p t) : lossOf c .bce t p = some (total p (fun i =>
    -1 * (el t i * Real.log (clamp c.low c.high (clamp c.low c.high (el p i))) +
      (1 - el t i) * Real.log (clamp c.low c.high (clamp c.low c.high (1 - el p i)))))) := by
  obtain ⟨h1, h2, h3⟩ := h
  have ha : Shape t (logView c (map (clamp c.low c.high) p)) := ⟨h1.symm, h2.symm, h3.symm⟩
  have hb : Shape (map (fun v => 1 - v) t) (logView c (map (clamp c.low c.high) (map (fun v => 1 - v) p))) := ⟨h1.symm, h2.symm, h3.symm⟩
  simp only [lossOf, error, multiply, add]
  rw [zip_of_shape ha, Option.bind_some, zip_of_shape hb, Option.bind_some]
  simp only [map, zip_mk, Option.map_some, loss, sum_total]
  congr 1
  exact total_congr_shape (a := ⟨t.rows, t.cols, t.chans, _⟩) (b := p) ⟨h1.symm, h2.symm, h3.symm⟩ _

theorem cce_closed (h : Shape p t) :
    lossOf c .cce t p = some (total p (fun i => -1 * el t i * Real.log (clamp c.low c.high (el p i)))) := by
  obtain ⟨h1, h2, h3⟩ := h
  have ha : Shape (map (fun v => -1 * v) t) (logView c p) := ⟨h1.symm, h2.symm, h3.symm⟩
  simp only [lossOf, error, multiply]
  rw [zip_of_shape ha]
  simp only [Option.map_some, loss, sum_total]
  congr 1
  exact total_congr_shape (a := ⟨t.rows, t.cols, t.chans, _⟩) (b := p) ⟨h1.symm, h2.symm, h3.symm⟩ _

/-- `prediction - truth`, element by element -/
def diff (p t : Tensor ℝ) : Tensor ℝ := ⟨p.rows, p.cols, p.chans, fun r c k => p.get r c k - t.get r c k⟩

theorem mse_reported (h : Shape p t) : reported c .mse t p = some (map (fun v => 2 * v) (diff p t)) := by
  simp only [reported, error, subtract, zip_of_shape h, Option.bind_some, derivative, diff]

theorem mae_reported (h : Shape p t) : reported c .mae t p = some (map (fun v => -1 * v) (diff p t)) := by
  simp only [reported, error, subtract, zip_of_shape h, Option.bind_some, derivative, diff, Option.map_some]

theorem smae_reported (h : Shape p t) : reported c .smae t p = some (map (fun v => 1 / c.smoothness * v) (diff p t)) := by
  simp only [reported, error, subtract, zip_of_shape h, Option.bind_some, derivative, diff, Option.map_some, select, maskedSelect, ite_self]
  rfl

theorem size_shape {a b : Tensor ℝ} (h : Shape a b) : a.size = b.size := by
  obtain ⟨h1, h2, h3⟩ := h; simp [Tensor.size, h1, h2, h3]

theorem Shape.trans {a b c : Tensor ℝ} (h : Shape a b) (h' : Shape b c) : Shape a c :=
  ⟨h.1.trans h'.1, h.2.1.trans h'.2.1, h.2.2.trans h'.2.2⟩

theorem clamp_mid {lo hi x : ℝ} (h1 : lo ≤ x) (h2 : x ≤ hi) : clamp lo hi x = x := by
  unfold clamp; rw [if_neg (not_lt.mpr h1), if_neg (not_lt.mpr h2)]

/-! ### Mean squared error -/

/-- C67, mean squared error: the reported derivative is the gradient times the number of elements. -/
theorem C67_mse (h : Shape p t) (hn : 0 < p.size) :
    ∃ g, reported c .mse t p = some g ∧ Shape g p ∧ IsGradient (lossOf c .mse t) p (map (fun v => (1 / (p.size : ℝ)) * v) g) := by
  refine ⟨_, mse_reported c h, ⟨rfl, rfl, rfl⟩, ⟨rfl, rfl, rfl⟩, ?_⟩
  intro q v hq h0 hd
  refine ⟨fun s => total p (fun i => (el (q s) i - el t i) ^ 2) / (p.size : ℝ), fun s => ?_, ?_⟩
  · rw [mse_closed c (Shape.trans (hq s) h), total_congr_shape (hq s), size_shape (hq s)]
  · have h1 := total_deriv p (fun i s => (el (q s) i - el t i) ^ 2) (fun i => 2 * (el p i - el t i) * el v i) 0 (fun i hi => by
      have := ((hd i hi).sub_const (el t i)).pow 2
      refine this.congr_deriv ?_
      simp only [h0 i hi]; norm_num)
    refine (h1.div_const (p.size : ℝ)).congr_deriv ?_
    rw [← total_div]
    unfold inner
    refine total_congr fun i _ => ?_
    show _ = 1 / (p.size : ℝ) * (2 * (el p i - el t i)) * el v i
    ring

/-- C67, mean squared error: a step of size `s` against the reported derivative multiplies the loss by `(1 - 2s)²`; any step below 1 makes a
positive loss smaller. -/
theorem C67_mse_step (h : Shape p t) (s : ℝ) (g : Tensor ℝ) (hg : reported c .mse t p = some g) :
    ∃ a, lossOf c .mse t p = some a ∧ lossOf c .mse t (along p g (-s)) = some ((1 - 2 * s) ^ 2 * a) := by
  rw [mse_reported c h, Option.some.injEq] at hg
  subst hg
  refine ⟨_, mse_closed c h, ?_⟩
  rw [mse_closed c (Shape.trans (shape_along _ _ _) h), total_congr_shape (shape_along _ _ _), size_shape (shape_along _ _ _)]
  congr 1
  rw [← mul_div_assoc, ← total_mul]
  congr 1
  refine total_congr fun i _ => ?_
  rw [el_along]
  show (el p i + -s * (2 * (el p i - el t i)) - el t i) ^ 2 = _
  ring

/-! ### Mean absolute error -/

/-- C67 does not hold for the mean absolute error: a step of any size `s` against the reported derivative multiplies the loss by `1 + s`. -/
theorem C67_mae_violated (h : Shape p t) (s : ℝ) (hs : 0 < s) (hne : ∃ i ∈ places p, el p i ≠ el t i) :
    ∃ g a, reported c .mae t p = some g ∧ lossOf c .mae t p = some a ∧ 0 < a ∧
      lossOf c .mae t (along p g (-s)) = some ((1 + s) * a) := by
  refine ⟨_, _, mae_reported c h, mae_closed c h, ?_, ?_⟩
  · obtain ⟨i, hi, hne⟩ := hne
    have hn : 0 < p.size := by rw [← places_length]; exact List.length_pos_of_mem hi
    refine div_pos ?_ (by exact_mod_cast hn)
    exact total_pos (fun _ _ => abs_nonneg _) ⟨i, hi, abs_pos.mpr (sub_ne_zero.mpr hne)⟩
  · rw [mae_closed c (Shape.trans (shape_along _ _ _) h), total_congr_shape (shape_along _ _ _), size_shape (shape_along _ _ _)]
    congr 1
    rw [← mul_div_assoc, ← total_mul]
    congr 1
    refine total_congr fun i _ => ?_
    rw [el_along]
    show |el p i + -s * (-1 * (el p i - el t i)) - el t i| = _
    rw [show el p i + -s * (-1 * (el p i - el t i)) - el t i = (1 + s) * (el p i - el t i) by ring, abs_mul, abs_of_pos (by linarith)]

/-! ### Smooth mean absolute error -/

/-- C67, smooth mean absolute error: the reported derivative is the gradient of the computed loss times the number of elements. -/
theorem C67_smae (h : Shape p t) (hn : 0 < p.size) :
    ∃ g, reported c .smae t p = some g ∧ Shape g p ∧ IsGradient (lossOf c .smae t) p (map (fun v => (1 / (p.size : ℝ)) * v) g) := by
  refine ⟨_, smae_reported c h, ⟨rfl, rfl, rfl⟩, ⟨rfl, rfl, rfl⟩, ?_⟩
  intro q v hq h0 hd
  refine ⟨fun s => total p (fun i => 1 / 2 / c.smoothness * (el (q s) i - el t i) ^ 2) / (p.size : ℝ), fun s => ?_, ?_⟩
  · rw [smae_closed c (Shape.trans (hq s) h), total_congr_shape (hq s), size_shape (hq s)]
  · have h1 := total_deriv p (fun i s => 1 / 2 / c.smoothness * (el (q s) i - el t i) ^ 2) (fun i => 1 / c.smoothness * (el p i - el t i) * el v i) 0
      (fun i hi => by
        have := (((hd i hi).sub_const (el t i)).pow 2).const_mul (1 / 2 / c.smoothness)
        refine this.congr_deriv ?_
        simp only [h0 i hi]; norm_num; ring)
    refine (h1.div_const (p.size : ℝ)).congr_deriv ?_
    rw [← total_div]
    unfold inner
    refine total_congr fun i _ => ?_
    show _ = 1 / (p.size : ℝ) * (1 / c.smoothness * (el p i - el t i)) * el v i
    ring

/-- The documented smooth mean absolute error of one difference. -/
noncomputable def huber (σ d : ℝ) : ℝ := if |d| < σ then 1 / 2 / σ * d ^ 2 else |d| - 1 / 2 * σ

/-- The loss is not the documented one: for a single difference the values agree exactly when the difference is at most the smoothness; beyond
it the computed loss is too large and grows quadratically. -/
theorem C67_smae_formula_violated (hσ : 0 < c.smoothness) (x y : ℝ) :
    lossOf c .smae ⟨1, 1, 1, fun _ _ _ => y⟩ ⟨1, 1, 1, fun _ _ _ => x⟩ = some (huber c.smoothness (x - y)) ↔ |x - y| ≤ c.smoothness := by
  rw [smae_closed c (p := ⟨1, 1, 1, fun _ _ _ => x⟩) (t := ⟨1, 1, 1, fun _ _ _ => y⟩) ⟨rfl, rfl, rfl⟩]
  have hpl : places (⟨1, 1, 1, fun _ _ _ => x⟩ : Tensor ℝ) = [(0, 0, 0)] := by simp [places]
  simp only [total, hpl, el, List.map_cons, List.map_nil, List.sum_cons, List.sum_nil, add_zero, Tensor.size, Nat.mul_one, Nat.cast_one, div_one, Option.some.injEq]
  unfold huber
  split
  · rename_i h; exact ⟨fun _ => h.le, fun _ => rfl⟩
  · rename_i h
    have hsq : (x - y) ^ 2 = |x - y| ^ 2 := (sq_abs _).symm
    rw [hsq]
    have h' := not_lt.mp h
    constructor
    · intro he
      field_simp at he
      have : (|x - y| - c.smoothness) ^ 2 = 0 := by nlinarith
      have := pow_eq_zero_iff (two_ne_zero) |>.mp this
      linarith
    · intro hle
      have : |x - y| = c.smoothness := le_antisymm hle h'
      rw [this]; field_simp; ring

/-! ### Binary cross entropy -/

/-- C67, binary cross entropy: strictly between the clipping bounds the reported derivative is the gradient. -/
theorem C67_bce (h : Shape p t) (hlo : 0 < c.low) (hp : ∀ i ∈ places p, c.low < el p i ∧ el p i < c.high ∧ c.low < 1 - el p i ∧ 1 - el p i < c.high) :
    ∃ g, reported c .bce t p = some g ∧ Shape g p ∧ IsGradient (lossOf c .bce t) p g := by
  have hT : Shape t p := ⟨h.1.symm, h.2.1.symm, h.2.2.symm⟩
  have he : ∃ e, error c .bce t p = some e := by
    have := bce_closed c h
    simp only [lossOf] at this
    obtain ⟨e, he, _⟩ := Option.map_eq_some_iff.mp this
    exact ⟨e, he⟩
  obtain ⟨e, he⟩ := he
  have hb : Shape (map (fun v => 1 - v) t) (map (fun v => 1 - v) p) := hT
  refine ⟨⟨t.rows, t.cols, t.chans, fun r c' k => -1 * (t.get r c' k / (if p.get r c' k = 0 then c.eps else p.get r c' k) -
      (1 - t.get r c' k) / (if 1 - p.get r c' k = 0 then c.eps else 1 - p.get r c' k))⟩, ?_, hT, hT, ?_⟩
  · simp only [reported, he, Option.bind_some, derivative, divide, subtract]
    rw [zip_of_shape hT, Option.bind_some, zip_of_shape hb, Option.bind_some]
    simp only [map, zip_mk, Option.map_some]
    rfl
  intro q v hq h0 hd
  refine ⟨_, fun s => bce_closed c (Shape.trans (hq s) h), ?_⟩
  have h1 := total_deriv p (fun i s => -1 * (el t i * Real.log (clamp c.low c.high (clamp c.low c.high (el (q s) i))) +
      (1 - el t i) * Real.log (clamp c.low c.high (clamp c.low c.high (1 - el (q s) i)))))
      (fun i => -1 * (el t i / el p i - (1 - el t i) / (1 - el p i)) * el v i) 0 (fun i hi => by
    obtain ⟨a1, a2, a3, a4⟩ := hp i hi
    have hc : ContinuousAt (fun s => el (q s) i) 0 := (hd i hi).continuousAt
    have hpos : (0:ℝ) < el p i := by linarith
    have hpos' : (0:ℝ) < 1 - el p i := by linarith
    have g1 : HasDerivAt (fun s => Real.log (el (q s) i)) (el v i / el p i) 0 := by
      have := (hd i hi).log (by rw [h0 i hi]; exact hpos.ne')
      rw [h0 i hi] at this; exact this
    have g2 : HasDerivAt (fun s => Real.log (1 - el (q s) i)) (-el v i / (1 - el p i)) 0 := by
      have := ((hd i hi).const_sub 1).log (by rw [h0 i hi]; exact hpos'.ne')
      rw [h0 i hi] at this; exact this
    have g3 := ((g1.const_mul (el t i)).add (g2.const_mul (1 - el t i))).const_mul (-1)
    have g4 : HasDerivAt (fun s => -1 * (el t i * Real.log (el (q s) i) + (1 - el t i) * Real.log (1 - el (q s) i)))
        (-1 * (el t i / el p i - (1 - el t i) / (1 - el p i)) * el v i) 0 := by
      refine g3.congr_deriv ?_
      field_simp
      ring
    refine g4.congr_of_eventuallyEq ?_
    have n1 : ∀ᶠ s in nhds (0:ℝ), c.low < el (q s) i := hc.eventually (lt_mem_nhds (by simp only [h0 i hi]; exact a1))
    have n2 : ∀ᶠ s in nhds (0:ℝ), el (q s) i < c.high := hc.eventually (gt_mem_nhds (by simp only [h0 i hi]; exact a2))
    have hc' : ContinuousAt (fun s => 1 - el (q s) i) 0 := ((hd i hi).const_sub 1).continuousAt
    have n3 : ∀ᶠ s in nhds (0:ℝ), c.low < 1 - el (q s) i := hc'.eventually (lt_mem_nhds (by simp only [h0 i hi]; exact a3))
    have n4 : ∀ᶠ s in nhds (0:ℝ), 1 - el (q s) i < c.high := hc'.eventually (gt_mem_nhds (by simp only [h0 i hi]; exact a4))
    filter_upwards [n1, n2, n3, n4] with s b1 b2 b3 b4
    rw [clamp_mid b1.le b2.le, clamp_mid b1.le b2.le, clamp_mid b3.le b4.le, clamp_mid b3.le b4.le])
  have hfun : (fun s => total (q s) fun i => -1 * (el t i * Real.log (clamp c.low c.high (clamp c.low c.high (el (q s) i))) +
      (1 - el t i) * Real.log (clamp c.low c.high (clamp c.low c.high (1 - el (q s) i))))) = fun s => total p fun i =>
      -1 * (el t i * Real.log (clamp c.low c.high (clamp c.low c.high (el (q s) i))) +
      (1 - el t i) * Real.log (clamp c.low c.high (clamp c.low c.high (1 - el (q s) i)))) := by
    funext s; exact total_congr_shape (hq s) _
  rw [hfun]
  refine h1.congr_deriv ?_
  unfold inner
  refine Eq.trans ?_ (total_congr_shape (a := ⟨t.rows, t.cols, t.chans, _⟩) (b := p) hT _).symm
  refine total_congr fun i hi => ?_
  obtain ⟨a1, a2, a3, a4⟩ := hp i hi
  have e1 : el p i ≠ 0 := by intro h; rw [h] at a1; linarith
  have e2 : 1 - el p i ≠ 0 := by intro h; rw [h] at a3; linarith
  show _ = -1 * (el t i / (if el p i = 0 then c.eps else el p i) - (1 - el t i) / (if 1 - el p i = 0 then c.eps else 1 - el p i)) * el v i
  rw [if_neg e1, if_neg e2]

/-- C67, binary cross entropy: for a label 0 or 1 and any prediction in [0, 1], even at the ends, the reported derivative pushes the prediction
towards the label. -/
theorem C67_bce_sign (h : Shape p t) (heps : 0 < c.eps) (g : Tensor ℝ) (hg : reported c .bce t p = some g) (i)
    (hp : 0 ≤ el p i ∧ el p i ≤ 1) : (el t i = 1 → el g i < 0) ∧ (el t i = 0 → 0 < el g i) := by
  have hT : Shape t p := ⟨h.1.symm, h.2.1.symm, h.2.2.symm⟩
  obtain ⟨e, he⟩ : ∃ e, error c .bce t p = some e := by
    have := bce_closed c h
    simp only [lossOf] at this
    obtain ⟨e, he, _⟩ := Option.map_eq_some_iff.mp this
    exact ⟨e, he⟩
  have hb : Shape (map (fun v => 1 - v) t) (map (fun v => 1 - v) p) := hT
  simp only [reported, he, Option.bind_some, derivative, divide, subtract] at hg
  rw [zip_of_shape hT, Option.bind_some, zip_of_shape hb, Option.bind_some] at hg
  simp only [map, zip_mk, Option.map_some, Option.some.injEq] at hg
  have hv : el g i = -1 * (el t i / (if el p i = 0 then c.eps else el p i) - (1 - el t i) / (if 1 - el p i = 0 then c.eps else 1 - el p i)) := by
    rw [← hg]; rfl
  have d1 : 0 < (if el p i = 0 then c.eps else el p i) := by
    split
    · exact heps
    · rename_i h; exact lt_of_le_of_ne hp.1 (Ne.symm h)
  have d2 : 0 < (if 1 - el p i = 0 then c.eps else 1 - el p i) := by
    split
    · exact heps
    · rename_i h; exact lt_of_le_of_ne (by linarith [hp.2]) (Ne.symm h)
  constructor
  · intro h1
    rw [hv, h1]
    have := div_pos one_pos d1
    simp only [sub_self, zero_div, sub_zero]; linarith
  · intro h1
    rw [hv, h1]
    have := div_pos one_pos d2
    simp only [zero_div, sub_zero]; linarith

/-! ### Categorical cross entropy -/

/-- C67, categorical cross entropy after softmax: the reported derivative is the gradient with respect to the inputs of the softmax, for truth values
that sum to one and predictions strictly between the clipping bounds. -/
theorem C67_cce (z : Tensor ℝ) (hz : 0 < z.size) (h : Shape z t) (hsum : total t (el t) = 1)
    (hlo : 0 < c.low) (hp : ∀ i ∈ places z, c.low < el (Activation.softmax z) i ∧ el (Activation.softmax z) i < c.high) :
    ∃ g, reported c .cce t (Activation.softmax z) = some g ∧ Shape g z ∧
      IsGradient (fun y => lossOf c .cce t (Activation.softmax y)) z g := by
  obtain ⟨hsh, hform⟩ := Activation.softmax_formula z hz
  have hpt : Shape (Activation.softmax z) t := Shape.trans hsh h
  obtain ⟨e, he⟩ : ∃ e, error c .cce t (Activation.softmax z) = some e := by
    have := cce_closed c hpt
    simp only [lossOf] at this
    obtain ⟨e, he, _⟩ := Option.map_eq_some_iff.mp this
    exact ⟨e, he⟩
  refine ⟨diff (Activation.softmax z) t, by simp only [reported, he, Option.bind_some, derivative, subtract]; exact zip_of_shape hpt, hsh, hsh, ?_⟩
  intro q v hq h0 hd
  have hqs : ∀ s, 0 < (q s).size := fun s => by rw [size_shape (hq s)]; exact hz
  have hformq : ∀ s i, el (Activation.softmax (q s)) i = Real.exp (el (q s) i) / total z (fun j => Real.exp (el (q s) j)) := by
    intro s i
    rw [(Activation.softmax_formula _ (hqs s)).2 i, total_congr_shape (hq s)]
  have hshq : ∀ s, Shape (Activation.softmax (q s)) z := fun s => Shape.trans (Activation.softmax_formula _ (hqs s)).1 (hq s)
  refine ⟨_, fun s => cce_closed c (Shape.trans (hshq s) h), ?_⟩
  have hZpos : ∀ s, 0 < total z (fun j => Real.exp (el (q s) j)) := fun s => by
    have := Activation.exp_total_pos _ (hqs s)
    rwa [total_congr_shape (hq s)] at this
  have hZ0 : total z (fun j => Real.exp (el (q 0) j)) = total z (fun j => Real.exp (el z j)) :=
    total_congr fun j hj => by rw [h0 j hj]
  have hZd : HasDerivAt (fun s => total z (fun j => Real.exp (el (q s) j))) (total z (fun j => Real.exp (el z j) * el v j)) 0 :=
    total_deriv z (fun j s => Real.exp (el (q s) j)) _ 0 (fun j hj => by
      have := (hd j hj).exp
      rw [h0 j hj] at this; exact this)
  have hmean : total z (fun j => Real.exp (el z j) * el v j) / total z (fun j => Real.exp (el (q 0) j)) =
      total z (fun j => el (Activation.softmax z) j * el v j) := by
    rw [hZ0, ← total_div]
    refine total_congr fun j _ => ?_
    rw [hform]; ring
  have hlogZ := hZd.log (hZpos 0).ne'
  rw [hmean] at hlogZ
  have h1 := total_deriv z (fun i s => -1 * el t i * Real.log (clamp c.low c.high (el (Activation.softmax (q s)) i)))
    (fun i => -1 * el t i * (el v i - total z (fun j => el (Activation.softmax z) j * el v j))) 0 (fun i hi => by
      have g1 := ((hd i hi).sub hlogZ).const_mul (-1 * el t i)
      refine g1.congr_of_eventuallyEq ?_
      have hc : ContinuousAt (fun s => el (Activation.softmax (q s)) i) 0 := by
        have : (fun s => el (Activation.softmax (q s)) i) = fun s => Real.exp (el (q s) i) / total z (fun j => Real.exp (el (q s) j)) := by
          funext s; exact hformq s i
        rw [this]
        exact ((hd i hi).exp.div hZd (hZpos 0).ne').continuousAt
      have hat0 : el (Activation.softmax (q 0)) i = el (Activation.softmax z) i := by
        rw [hformq, hform, hZ0, h0 i hi]
      have n1 : ∀ᶠ s in nhds (0:ℝ), c.low < el (Activation.softmax (q s)) i := hc.eventually (lt_mem_nhds (by simp only [hat0]; exact (hp i hi).1))
      have n2 : ∀ᶠ s in nhds (0:ℝ), el (Activation.softmax (q s)) i < c.high := hc.eventually (gt_mem_nhds (by simp only [hat0]; exact (hp i hi).2))
      filter_upwards [n1, n2] with s b1 b2
      rw [clamp_mid b1.le b2.le, hformq, Real.log_div (Real.exp_pos _).ne' (hZpos s).ne', Real.log_exp]
      rfl)
  have hfun : (fun s => total (Activation.softmax (q s)) fun i => -1 * el t i * Real.log (clamp c.low c.high (el (Activation.softmax (q s)) i))) =
      fun s => total z fun i => -1 * el t i * Real.log (clamp c.low c.high (el (Activation.softmax (q s)) i)) := by
    funext s; exact total_congr_shape (hshq s) _
  rw [hfun]
  refine h1.congr_deriv ?_
  unfold inner
  rw [total_congr_shape (a := diff (Activation.softmax z) t) (b := z) hsh]
  have e1 : total z (fun i => -1 * el t i * (el v i - total z (fun j => el (Activation.softmax z) j * el v j))) =
      total z (fun j => el (Activation.softmax z) j * el v j) * total z (el t) - total z (fun i => el t i * el v i) := by
    rw [← total_mul, ← total_sub]
    refine total_congr fun i _ => ?_
    ring
  rw [e1, total_congr_shape h (el t), hsum, mul_one, ← total_sub]
  refine total_congr fun i _ => ?_
  show _ = (el (Activation.softmax z) i - el t i) * el v i
  ring

/-! ### A small step against the reported derivative makes the loss smaller -/

/-- C67. For mean squared error, smooth mean absolute error and binary cross entropy a small enough step against the reported derivative
makes the loss smaller, unless the reported derivative is zero everywhere. -/
theorem C67_descent_partial (k : Kind) (hk : k = .mse ∨ k = .smae ∨ k = .bce) (h : Shape p t) (hlo : 0 < c.low)
    (hp : k = .bce → ∀ i ∈ places p, c.low < el p i ∧ el p i < c.high ∧ c.low < 1 - el p i ∧ 1 - el p i < c.high) (g : Tensor ℝ)
    (hg : reported c k t p = some g) (hne : ∃ i ∈ places p, el g i ≠ 0) :
    ∃ a, lossOf c k t p = some a ∧ ∃ s0 > 0, ∀ s, 0 < s → s < s0 → ∃ b, lossOf c k t (along p g (-s)) = some b ∧ b < a := by
  have hn : 0 < p.size := by obtain ⟨i, hi, _⟩ := hne; rw [← places_length]; exact List.length_pos_of_mem hi
  have hw : 0 < 1 / (p.size : ℝ) := by positivity
  rcases hk with rfl | rfl | rfl
  · obtain ⟨g', hg', _, hgr⟩ := C67_mse c h hn
    rw [hg] at hg'; cases hg'
    exact hgr.descends hw hne
  · obtain ⟨g', hg', _, hgr⟩ := C67_smae c h hn
    rw [hg] at hg'; cases hg'
    exact hgr.descends hw hne
  · obtain ⟨g', hg', _, hgr⟩ := C67_bce c h hlo (hp rfl)
    rw [hg] at hg'; cases hg'
    refine IsGradient.descends one_pos ?_ hne
    have : map (fun v => 1 * v) g = g := by simp [map]
    rw [this]; exact hgr

/-- C67. The same for categorical cross entropy, stepping the inputs of the softmax. -/
theorem C67_cce_descent (z : Tensor ℝ) (h : Shape z t) (hsum : total t (el t) = 1)
    (hlo : 0 < c.low) (hp : ∀ i ∈ places z, c.low < el (Activation.softmax z) i ∧ el (Activation.softmax z) i < c.high) (g : Tensor ℝ)
    (hg : reported c .cce t (Activation.softmax z) = some g) (hne : ∃ i ∈ places z, el g i ≠ 0) :
    ∃ a, lossOf c .cce t (Activation.softmax z) = some a ∧ ∃ s0 > 0, ∀ s, 0 < s → s < s0 →
      ∃ b, lossOf c .cce t (Activation.softmax (along z g (-s))) = some b ∧ b < a := by
  have hn : 0 < z.size := by obtain ⟨i, hi, _⟩ := hne; rw [← places_length]; exact List.length_pos_of_mem hi
  obtain ⟨g', hg', _, hgr⟩ := C67_cce c z hn h hsum hlo hp
  rw [hg] at hg'; cases hg'
  refine IsGradient.descends (L := fun y => lossOf c .cce t (Activation.softmax y)) one_pos ?_ hne
  have : map (fun v => 1 * v) g = g := by simp [map]
  rw [this]; exact hgr

/-! ### The hypotheses are met by ordinary data -/

/-- The constants of the code. -/
noncomputable def code : Constants := ⟨1, 1 / 100000000, 1, 1 / 100000000⟩
noncomputable def half : Tensor ℝ := ⟨1, 2, 1, fun _ _ _ => 1 / 2⟩
noncomputable def oneHot : Tensor ℝ := ⟨1, 2, 1, fun _ c _ => if c = 0 then 1 else 0⟩

example : Shape half oneHot ∧ 0 < half.size ∧ (∃ i ∈ places half, el half i ≠ el oneHot i) ∧
    ∀ i ∈ places half, code.low < el half i ∧ el half i < code.high ∧ code.low < 1 - el half i ∧ 1 - el half i < code.high := by
  refine ⟨⟨rfl, rfl, rfl⟩, by decide, ⟨(0, 0, 0), by simp [places, half], by norm_num [el, half, oneHot]⟩, fun i _ => ?_⟩
  norm_num [el, half, code]

example : total oneHot (el oneHot) = 1 := by
  have h : places oneHot = [(0, 0, 0), (0, 1, 0)] := by simp [places, oneHot, List.range_succ]
  rw [total, h]; simp [el, oneHot]

example : ∀ i ∈ places half, code.low < el (Activation.softmax half) i ∧ el (Activation.softmax half) i < code.high := by
  intro i _
  have h : places half = [(0, 0, 0), (0, 1, 0)] := by simp [places, half, List.range_succ]
  rw [(Activation.softmax_formula half (by decide)).2 i]
  have he : ∀ j, el half j = 1 / 2 := fun _ => rfl
  have := Real.exp_pos (1 / 2)
  simp only [total, h, List.map_cons, List.map_nil, List.sum_cons, List.sum_nil, he, code]
  constructor
  · rw [lt_div_iff₀ (by positivity)]; linarith
  · rw [div_lt_one (by positivity)]; linarith

end Verif.Loss
