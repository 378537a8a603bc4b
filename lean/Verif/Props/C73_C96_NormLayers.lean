import Verif.Model.NormLayers
import Verif.Props.C36_C40_Statistics
import Verif.Spec.Calculus
import Verif.Lemmas.Calculus

/-!
C73, C96. The dropout layer and the normalization layer.
-/
namespace Verif.NormLayers
open Verif Views Statistics

section
variable {F : Type} [Field F] [LinearOrder F] [IsStrictOrderedRing F]

/-! ### C73 -/

/-- What dropout should do: the positions whose draw does not exceed the rate are zero, the others are kept. -/
def Dropped (rate : F) (draws x y : Tensor F) : Prop :=
  y.rows = x.rows ∧ y.cols = x.cols ∧ y.chans = x.chans ∧
    ∀ r c k, r < x.rows → c < x.cols → k < x.chans → y.get r c k = if draws.get r c k ≤ rate then 0 else x.get r c k

theorem multiply_self (x m : Tensor F) (h1 : m.rows = x.rows) (h2 : m.cols = x.cols) (h3 : m.chans = x.chans) :
    multiply x m = some ⟨x.rows, x.cols, x.chans, fun r c k => x.get r c k * m.get r c k⟩ := by
  unfold multiply Views.zip
  rw [if_neg]
  rintro (h | h | h)
  · exact h h3.symm
  · exact h h1.symm
  · exact h h2.symm

theorem multiply_uniform (x : Tensor F) (v : F) :
    multiply x (uniformLike x v) = some ⟨x.rows, x.cols, x.chans, fun r c k => x.get r c k * v⟩ :=
  multiply_self x (uniformLike x v) rfl rfl rfl

theorem multiply_masked (e x m : Tensor F) (above : F → Bool) (h1 : m.rows = e.rows) (h2 : m.cols = e.cols) (h3 : m.chans = e.chans) :
    multiply e (maskedSelect above m (uniformLike x 1) (uniformLike x 0)) = some ⟨e.rows, e.cols, e.chans, fun r c k => e.get r c k * 1⟩ := by
  rw [multiply_self e (maskedSelect above m (uniformLike x 1) (uniformLike x 0)) h1 h2 h3]
  simp [maskedSelect, uniformLike]

/-- C73. Exactly the rates from 0 to 1 are accepted. -/
theorem C73_rates (rate : F) : (∃ l, Dropout.create rate = some l ∧ l.rate = rate) ↔ 0 ≤ rate ∧ rate ≤ 1 := by
  unfold Dropout.create
  split
  · rename_i h
    refine ⟨fun ⟨l, h'⟩ => absurd h'.1 (by simp), fun ⟨h1, h2⟩ => ?_⟩
    rcases h with h | h
    · exact absurd h1 (not_le.mpr h)
    · exact absurd h2 (not_le.mpr h)
  · rename_i h
    push Not at h
    exact ⟨fun _ => h, fun _ => ⟨_, rfl, rfl⟩⟩

/-- C73 is violated: whatever the rate and the draws, a forward pass for training keeps every value. -/
theorem C73_training_violated (random : Nat → Tensor F → Tensor F) (hr : ∀ s x, (random s x).rows = x.rows ∧ (random s x).cols = x.cols ∧
    (random s x).chans = x.chans) (l : Dropout F) (x : Tensor F) :
    ∃ y l', l.forward random x true = some (y, l') ∧ y.Same x ∧ l'.seed = l.seed + 1 ∧ l'.rate = l.rate := by
  obtain ⟨h1, h2, h3⟩ := hr (l.seed + 1) x
  unfold Dropout.forward
  simp only [if_true]
  rw [multiply_masked x x _ _ h1 h2 h3]
  refine ⟨_, _, rfl, ⟨rfl, rfl, rfl, fun r c k _ _ _ => ?_⟩, rfl, rfl⟩
  exact mul_one _

/-- C73. A forward pass for training does what it should exactly when every draw at a non-zero position exceeds the rate, that is, when nothing has
to be dropped. -/
theorem C73_partial (random : Nat → Tensor F → Tensor F) (hr : ∀ s x, (random s x).rows = x.rows ∧ (random s x).cols = x.cols ∧
    (random s x).chans = x.chans) (l l' : Dropout F) (x y : Tensor F) (h : l.forward random x true = some (y, l')) :
    Dropped l.rate (random (l.seed + 1) x) x y ↔
      ∀ r c k, r < x.rows → c < x.cols → k < x.chans → x.get r c k ≠ 0 → l.rate < (random (l.seed + 1) x).get r c k := by
  obtain ⟨y', l2, h1, ⟨s1, s2, s3, s4⟩, _, _⟩ := C73_training_violated random hr l x
  rw [h1] at h
  obtain rfl : y' = y := congrArg Prod.fst (Option.some.inj h)
  constructor
  · rintro ⟨_, _, _, hd⟩ r c k hr hc hk hx
    by_contra hlt
    have := hd r c k hr hc hk
    rw [if_pos (not_lt.mp hlt), s4 r c k (s1 ▸ hr) (s2 ▸ hc) (s3 ▸ hk)] at this
    exact hx this
  · intro hd
    refine ⟨s1, s2, s3, fun r c k hr hc hk => ?_⟩
    rw [s4 r c k (s1 ▸ hr) (s2 ▸ hc) (s3 ▸ hk)]
    split
    · rename_i hle
      by_contra hx
      exact absurd (hd r c k hr hc hk hx) (not_lt.mpr hle)
    · rfl

/-- C73 is violated: the requested rate is not used when a network is described; the layer always has the rate 0. -/
theorem C73_configured_violated (rate : F) : ∃ l, (addDropoutLayer rate).build = some l ∧ l.rate = 0 := by
  refine ⟨⟨0, none, 0⟩, ?_, rfl⟩
  unfold Vertex.build Dropout.create addDropoutLayer
  rw [if_neg]
  rintro (h | h)
  · exact lt_irrefl _ h
  · exact absurd h (not_lt.mpr zero_le_one)

/-- C73. A layer with the rate 0, the only one that a described network contains, keeps all values, with and without training, and hands errors of the
same shape down unchanged. -/
theorem C73_rate_zero (random : Nat → Tensor F → Tensor F) (hr : ∀ s x, (random s x).rows = x.rows ∧ (random s x).cols = x.cols ∧
    (random s x).chans = x.chans) (l : Dropout F) (h0 : l.rate = 0) (x e : Tensor F) (he : e.rows = x.rows ∧ e.cols = x.cols ∧ e.chans = x.chans) :
    (∃ y, l.forward random x false = some (y, l) ∧ y.Same x) ∧
    ∃ y l' g, l.forward random x true = some (y, l') ∧ y.Same x ∧ l'.backward e = some g ∧ g.Same e := by
  constructor
  · refine ⟨⟨x.rows, x.cols, x.chans, fun r c k => x.get r c k * (1 / (1 - 0))⟩, ?_, rfl, rfl, rfl, fun r c k _ _ _ => by simp⟩
    unfold Dropout.forward fdiv
    rw [h0]
    simp only [Bool.false_eq_true, if_false]
    rw [if_neg (by simp), Option.bind_some, multiply_uniform]
    rfl
  · obtain ⟨y, l', h1, h2, _⟩ := C73_training_violated random hr l x
    obtain ⟨r1, r2, r3⟩ := hr (l.seed + 1) x
    refine ⟨y, l', ⟨e.rows, e.cols, e.chans, fun r c k => e.get r c k * 1⟩, h1, h2, ?_, rfl, rfl, rfl, fun r c k _ _ _ => by simp⟩
    unfold Dropout.forward at h1
    simp only [if_true] at h1
    obtain ⟨z, _, h4⟩ := Option.map_eq_some_iff.mp h1
    have hl : l'.mask = some (maskedSelect (fun v => decide (v > l.rate)) (random (l.seed + 1) x) (uniformLike x 1) (uniformLike x 0)) :=
      (congrArg (fun p => p.2.mask) h4).symm
    unfold Dropout.backward
    rw [hl, Option.bind_some, multiply_masked e x _ _ (r1.trans he.1.symm) (r2.trans he.2.1.symm) (r3.trans he.2.2.symm)]

/-- C73 is violated for every rate between 0 and 1: a prediction multiplies what training has used by `1 / (1 - rate)`, although training keeps all values. -/
theorem C73_prediction_violated (random : Nat → Tensor F → Tensor F) (hr : ∀ s x, (random s x).rows = x.rows ∧ (random s x).cols = x.cols ∧
    (random s x).chans = x.chans) (l : Dropout F) (h0 : 0 < l.rate) (h1 : l.rate < 1) (x : Tensor F) :
    ∃ y z l', l.forward random x true = some (y, l') ∧ l.forward random x false = some (z, l) ∧
      ∀ r c k, r < x.rows → c < x.cols → k < x.chans → z.get r c k = y.get r c k / (1 - l.rate) ∧ (x.get r c k ≠ 0 → z.get r c k ≠ y.get r c k) := by
  obtain ⟨y, l', y1, ⟨s1, s2, s3, s4⟩, _⟩ := C73_training_violated random hr l x
  have hne : 1 - l.rate ≠ 0 := by intro h; have : l.rate = 1 := by linarith
                                  exact absurd h1 (by rw [this]; exact lt_irrefl _)
  refine ⟨y, ⟨x.rows, x.cols, x.chans, fun r c k => x.get r c k * (1 / (1 - l.rate))⟩, l', y1, ?_, fun r c k hr hc hk => ?_⟩
  · unfold Dropout.forward fdiv
    simp only [Bool.false_eq_true, if_false]
    rw [if_neg hne, Option.bind_some, multiply_uniform]
    rfl
  · rw [s4 r c k (s1 ▸ hr) (s2 ▸ hc) (s3 ▸ hk)]
    refine ⟨by ring, fun hx h => ?_⟩
    have h2 : (x.get r c k * (1 / (1 - l.rate))) = x.get r c k := h
    rw [mul_one_div, div_eq_iff hne] at h2
    have h3 : x.get r c k * l.rate = 0 := by linear_combination h2
    rcases mul_eq_zero.mp h3 with h | h
    · exact hx h
    · exact absurd h0 (by rw [h]; exact lt_irrefl _)

/-- C73 is violated for the rate 1, which is accepted: predictions are infinite. -/
theorem C73_rate_one_violated (random : Nat → Tensor F → Tensor F) (x : Tensor F) :
    ∃ l : Dropout F, Dropout.create 1 = some l ∧ l.forward random x false = none := by
  refine ⟨⟨1, none, 0⟩, by simp [Dropout.create, not_lt.mpr (zero_le_one (α := F))], ?_⟩
  simp [Dropout.forward, fdiv]

/-! ### C96 -/

/-- One step of the loop in the constructor of the view, for a tensor of `n` elements. -/
def viewStep (n : F) (s : F × F) (v : F) : F × F := (s.1 + (v - s.1) / n, s.2 + (v - s.1) * (v - (s.1 + (v - s.1) / n)))

theorem viewConstants_eq (t : Tensor F) : viewConstants t =
    let s := (values t).foldl (viewStep (t.size : F)) (0, 0)
    (s.1, if s.2 / (t.size : F) = 0 then 1 else s.2 / (t.size : F)) := by
  unfold viewConstants viewStep
  rw [values_eq_offsets, List.foldl_map]

theorem viewStep_nonneg (n : F) (hn : 1 ≤ n) (l : List F) (s : F × F) (hs : 0 ≤ s.2) : 0 ≤ (l.foldl (viewStep n) s).2 := by
  induction l generalizing s with
  | nil => exact hs
  | cons v l ih =>
    refine ih _ ?_
    have hn0 : n ≠ 0 := by linarith
    have e : (v - s.1) * (v - (s.1 + (v - s.1) / n)) = (v - s.1) ^ 2 * ((n - 1) / n) := by field_simp; ring
    show 0 ≤ s.2 + (v - s.1) * (v - (s.1 + (v - s.1) / n))
    rw [e]
    have : 0 ≤ (n - 1) / n := div_nonneg (by linarith) (by linarith)
    positivity

/-- The divisor of the view is positive. -/
theorem deviation_pos (sqrt : F → F) (hs : IsSqrt sqrt) (t : Tensor F) (h : 0 < t.size) : 0 < sqrt (viewConstants t).2 := by
  have hn : (1 : F) ≤ (t.size : F) := by exact_mod_cast h
  have hv : 0 < (viewConstants t).2 := by
    rw [viewConstants_eq]
    have h0 := viewStep_nonneg (t.size : F) hn (values t) (0, 0) (le_refl _)
    simp only
    split
    · exact one_pos
    · rename_i hne
      exact lt_of_le_of_ne (div_nonneg h0 (by linarith)) (Ne.symm hne)
  obtain ⟨h1, h2⟩ := hs _ hv.le
  refine lt_of_le_of_ne h1 fun h0 => ?_
  rw [← h0, zero_mul] at h2
  exact absurd hv (by rw [← h2]; exact lt_irrefl _)

/-- C96. The normalization layer is defined for every tensor that has elements, keeps the shape and the order of the elements, and rescales
distances by a common positive factor. -/
theorem C96_order (sqrt : F → F) (hs : IsSqrt sqrt) (x : Tensor F) (h : 0 < x.size) :
    ∃ y, ∃ factor > 0, standardized sqrt x = some y ∧ y.rows = x.rows ∧ y.cols = x.cols ∧ y.chans = x.chans ∧
      (∀ r c k r' c' k', y.get r c k - y.get r' c' k' = factor * (x.get r c k - x.get r' c' k')) ∧
      ∀ r c k r' c' k', y.get r c k < y.get r' c' k' ↔ x.get r c k < x.get r' c' k' := by
  have hp := deviation_pos sqrt hs x h
  refine ⟨map (fun v => (v - (viewConstants x).1) / sqrt (viewConstants x).2) x, 1 / sqrt (viewConstants x).2, by positivity, ?_, rfl, rfl, rfl, ?_, ?_⟩
  · unfold standardized; simp only; rw [if_neg (ne_of_gt hp)]
  · intro r c k r' c' k'
    simp only [Views.map]
    field_simp; ring
  · intro r c k r' c' k'
    simp only [Views.map]
    rw [div_lt_div_iff_of_pos_right hp]
    constructor <;> intro h <;> linarith

theorem viewStep_mean (n : F) (hn : n ≠ 0) (l : List F) (s : F × F) :
    (l.foldl (viewStep n) s).1 = s.1 * (1 - 1 / n) ^ l.length + (l.zipIdx.map fun p => p.1 / n * (1 - 1 / n) ^ (l.length - 1 - p.2)).sum := by
  induction l using List.reverseRecOn with
  | nil => simp
  | append_singleton l v ih =>
    rw [List.foldl_append]
    show (l.foldl (viewStep n) s).1 + (v - (l.foldl (viewStep n) s).1) / n = _
    rw [ih, List.zipIdx_append, List.map_append, List.sum_append, List.length_append]
    simp only [List.length_singleton, List.zipIdx_singleton, List.map_cons, List.map_nil, List.sum_cons, List.sum_nil, Nat.zero_add, add_zero,
      Nat.add_sub_cancel, Nat.sub_self, pow_zero, mul_one]
    have e : (l.zipIdx.map fun p => p.1 / n * (1 - 1 / n) ^ (l.length - p.2)).sum =
        (1 - 1 / n) * (l.zipIdx.map fun p => p.1 / n * (1 - 1 / n) ^ (l.length - 1 - p.2)).sum := by
      rw [← List.sum_map_mul_left]
      refine congrArg _ (List.map_congr_left fun p hp => ?_)
      have hlt := List.snd_lt_of_mem_zipIdx hp
      rw [show l.length - p.2 = (l.length - 1 - p.2) + 1 by omega, pow_succ]
      ring
    rw [e, pow_succ]
    ring

/-- C96, C36: what the layer subtracts is not the mean but a weighted sum in which later elements count more: element `i` of `n` has the weight
`(1 - 1/n)^(n-1-i) / n`. -/
theorem C96_weights (x : Tensor F) (h : 0 < x.size) :
    (viewConstants x).1 = ((values x).zipIdx.map fun p => p.1 / (x.size : F) * (1 - 1 / (x.size : F)) ^ (x.size - 1 - p.2)).sum := by
  have hn : (x.size : F) ≠ 0 := by exact_mod_cast h.ne'
  have hl : (values x).length = x.size := by rw [values_eq_offsets]; simp
  rw [viewConstants_eq]
  simp only
  rw [viewStep_mean _ hn, hl]
  simp

theorem viewStep_replicate (n : F) (hn : n ≠ 0) (v : F) (m : Nat) :
    ((List.replicate m v).foldl (viewStep n) (0, 0)).1 = v * (1 - (1 - 1 / n) ^ m) := by
  induction m with
  | zero => simp
  | succ m ih =>
    rw [List.replicate_succ', List.foldl_append]
    show ((List.replicate m v).foldl (viewStep n) (0, 0)).1 + (v - ((List.replicate m v).foldl (viewStep n) (0, 0)).1) / n = _
    rw [ih, pow_succ]
    ring

/-- C96 is violated: a tensor of two or more elements that all equal some `v ≠ 0` is not mapped to zero. -/
theorem C96_constant_violated (sqrt : F → F) (hs : IsSqrt sqrt) (x y : Tensor F) (v : F) (hv : v ≠ 0) (h : 2 ≤ x.size)
    (hx : values x = List.replicate x.size v) (hy : standardized sqrt x = some y) (r c k : Nat) (hg : x.get r c k = v) : y.get r c k ≠ 0 := by
  have hp := deviation_pos sqrt hs x (by omega)
  have hn : (x.size : F) ≠ 0 := by have : x.size ≠ 0 := by omega
                                   exact_mod_cast this
  have hm : (viewConstants x).1 = v * (1 - (1 - 1 / (x.size : F)) ^ x.size) := by
    rw [viewConstants_eq]
    simp only
    conv_lhs => rw [hx]
    exact viewStep_replicate _ hn v _
  unfold standardized at hy
  simp only at hy
  rw [if_neg (ne_of_gt hp)] at hy
  rw [← Option.some.inj hy]
  show (x.get r c k - _) / _ ≠ 0
  rw [hg, hm]
  refine div_ne_zero ?_ (ne_of_gt hp)
  have e : v - v * (1 - (1 - 1 / (x.size : F)) ^ x.size) = v * (1 - 1 / (x.size : F)) ^ x.size := by ring
  rw [e]
  refine mul_ne_zero hv (pow_ne_zero _ ?_)
  have h2 : (2 : F) ≤ (x.size : F) := by exact_mod_cast h
  intro h0
  have : (x.size : F) = 1 := by field_simp at h0; linarith
  linarith

end

/-- C96 is violated: the error that the normalization layer hands down is not the gradient. The result for one element is 0 whatever the element,
so every gradient is zero, but the layer hands down `(1 + x - x²)` times the error it was given. -/
theorem C96_gradient_violated (x : Tensor ℝ) (h : x.rows = 1 ∧ x.cols = 1 ∧ x.chans = 1) :
    (∃ y, standardized Real.sqrt x = some y ∧ y.get 0 0 0 = 0) ∧
    ∀ e : Tensor ℝ, normBackward Real.sqrt x e 0 0 0 = some (e.get 0 0 0 * (1 + x.get 0 0 0 - x.get 0 0 0 ^ 2)) := by
  obtain ⟨h1, h2, h3⟩ := h
  have hsz : x.size = 1 := by unfold Tensor.size; rw [h1, h2, h3]
  have hc : viewConstants x = (x.get 0 0 0, 1) := by
    unfold viewConstants
    simp [hsz, offsetGet, h1, h2]
  have hst : standardized Real.sqrt x = some (map (fun v => (v - x.get 0 0 0) / 1) x) := by
    unfold standardized
    rw [hc]
    simp
  refine ⟨⟨_, hst, by simp [Views.map]⟩, fun e => ?_⟩
  unfold normBackward
  rw [hst, hc, hsz]
  simp only [Option.bind_some, Real.sqrt_one, derivativeValue, Views.map]
  norm_num
  ring

/-- Non-vacuity of `C96_constant_violated`. -/
example : ∃ x : Tensor ℝ, 2 ≤ x.size ∧ values x = List.replicate x.size 3 ∧ ∃ y, standardized Real.sqrt x = some y := by
  refine ⟨⟨1, 2, 1, fun _ _ _ => 3⟩, by decide, by simp [values, Tensor.size, List.range_succ, List.replicate], ?_⟩
  obtain ⟨y, _, _, h, _⟩ := C96_order Real.sqrt (fun x hx => ⟨Real.sqrt_nonneg x, Real.mul_self_sqrt hx⟩) (⟨1, 2, 1, fun _ _ _ => 3⟩ : Tensor ℝ) (by decide)
  exact ⟨y, h⟩

/-- Non-vacuity of the theorems about dropout: draws on both sides of the rate. -/
example : ((Dropout.forward (fun _ x => ⟨x.rows, x.cols, x.chans, fun _ c _ => (c : ℚ) / 4⟩) ⟨1 / 2, none, 0⟩ ⟨1, 4, 1, fun _ c _ => c + 5⟩ true).map
    fun r => values r.1) = some [5, 6, 7, 8] := by decide +kernel

end Verif.NormLayers
