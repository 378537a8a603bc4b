import Verif.Spec.Calculus
import Verif.Lemmas.Statistics
import Verif.Props.C29_C32_Views
import Verif.Props.C36_C40_Statistics
import Mathlib.Analysis.Calculus.Deriv.Add
import Mathlib.Analysis.Calculus.Deriv.Mul
import Mathlib.Analysis.Calculus.Deriv.Slope
import Mathlib.Tactic.Linarith

namespace Verif.Calculus
open Verif Views

theorem mem_places {t : Tensor ℝ} {i : Nat × Nat × Nat} : i ∈ places t ↔ i.1 < t.rows ∧ i.2.1 < t.cols ∧ i.2.2 < t.chans := by
  obtain ⟨r, c, k⟩ := i
  simp only [places, List.mem_flatMap, List.mem_range, List.mem_map, Prod.mk.injEq]
  constructor
  · rintro ⟨k', hk, r', hr, c', hc, rfl, rfl, rfl⟩; exact ⟨hr, hc, hk⟩
  · rintro ⟨hr, hc, hk⟩; exact ⟨k, hk, r, hr, c, hc, rfl, rfl, rfl⟩

theorem places_congr {a b : Tensor ℝ} (h : Shape a b) : places a = places b := by
  obtain ⟨h1, h2, h3⟩ := h; simp [places, h1, h2, h3]

theorem total_congr_shape {a b : Tensor ℝ} (h : Shape a b) (f) : total a f = total b f := by
  unfold total; rw [places_congr h]

theorem total_congr {t : Tensor ℝ} {f g : Nat × Nat × Nat → ℝ} (h : ∀ i ∈ places t, f i = g i) : total t f = total t g := by
  unfold total; rw [List.map_congr_left h]

theorem total_add (t : Tensor ℝ) (f g) : total t (fun i => f i + g i) = total t f + total t g := by
  unfold total
  induction places t with
  | nil => simp
  | cons x xs ih => simp only [List.map_cons, List.sum_cons, ih]; ring

theorem total_mul (t : Tensor ℝ) (a : ℝ) (f) : total t (fun i => a * f i) = a * total t f := by
  unfold total
  induction places t with
  | nil => simp
  | cons x xs ih => simp only [List.map_cons, List.sum_cons, ih]; ring

theorem total_sub (t : Tensor ℝ) (f g) : total t (fun i => f i - g i) = total t f - total t g := by
  unfold total
  induction places t with
  | nil => simp
  | cons x xs ih => simp only [List.map_cons, List.sum_cons, ih]; ring

theorem total_div (t : Tensor ℝ) (a : ℝ) (f) : total t (fun i => f i / a) = total t f / a := by
  have := total_mul t a⁻¹ f
  simp only [div_eq_inv_mul]; exact this

theorem total_nonneg {t : Tensor ℝ} {f : Nat × Nat × Nat → ℝ} (h : ∀ i ∈ places t, 0 ≤ f i) : 0 ≤ total t f := by
  unfold total
  apply List.sum_nonneg
  intro x hx
  obtain ⟨i, hi, rfl⟩ := List.mem_map.mp hx
  exact h i hi

theorem total_pos {t : Tensor ℝ} {f : Nat × Nat × Nat → ℝ} (h : ∀ i ∈ places t, 0 ≤ f i) (hp : ∃ i ∈ places t, 0 < f i) : 0 < total t f := by
  unfold total
  obtain ⟨i, hi, hpos⟩ := hp
  revert hi h
  induction places t with
  | nil => intro _ hi; cases hi
  | cons x xs ih =>
    intro h hi
    simp only [List.map_cons, List.sum_cons]
    have h0 : 0 ≤ (xs.map f).sum := by
      apply List.sum_nonneg
      intro y hy
      obtain ⟨j, hj, rfl⟩ := List.mem_map.mp hy
      exact h j (List.mem_cons_of_mem _ hj)
    rcases List.mem_cons.mp hi with rfl | hi
    · linarith
    · have := ih (fun j hj => h j (List.mem_cons_of_mem _ hj)) hi
      have := h x List.mem_cons_self
      linarith

theorem le_total {t : Tensor ℝ} {f : Nat × Nat × Nat → ℝ} (h : ∀ i ∈ places t, 0 ≤ f i) {i} (hi : i ∈ places t) : f i ≤ total t f := by
  unfold total
  exact List.single_le_sum (by intro x hx; obtain ⟨j, hj, rfl⟩ := List.mem_map.mp hx; exact h j hj) _ (List.mem_map.mpr ⟨i, hi, rfl⟩)

theorem total_deriv (t : Tensor ℝ) (f : Nat × Nat × Nat → ℝ → ℝ) (f' : Nat × Nat × Nat → ℝ) (x : ℝ)
    (h : ∀ i ∈ places t, HasDerivAt (f i) (f' i) x) : HasDerivAt (fun s => total t fun i => f i s) (total t f') x := by
  unfold total
  revert h
  induction places t with
  | nil => intro _; simpa using hasDerivAt_const x (0 : ℝ)
  | cons y ys ih =>
    intro h
    simp only [List.map_cons, List.sum_cons]
    exact (h y List.mem_cons_self).add (ih fun i hi => h i (List.mem_cons_of_mem _ hi))

theorem elements_places (t : Tensor ℝ) : Statistics.elements t = (places t).map (el t) := by
  simp [Statistics.elements, places, el, List.map_flatMap, Function.comp_def]

theorem sum_total (t : Tensor ℝ) : Statistics.sum t = total t (el t) := by
  rw [(Statistics.C81_sum_product t).1]
  show (Statistics.elements t).sum = _
  rw [elements_places]; rfl

theorem places_length (t : Tensor ℝ) : (places t).length = t.size := by
  simp [places, Tensor.size, List.length_flatMap]
  ring

theorem mean_total (t : Tensor ℝ) : Statistics.arithmeticMean t = total t (el t) / (t.size : ℝ) := by
  unfold Statistics.arithmeticMean
  rw [Statistics.mean_fold, elements_places]
  simp only [List.length_map, places_length]
  rfl

theorem places_ne_nil {t : Tensor ℝ} (h : 0 < t.size) : places t ≠ [] := by
  intro h0; rw [← places_length, h0] at h; simp at h

/-- A function with negative derivative at 0 is smaller shortly after. -/
theorem decreases {f : ℝ → ℝ} {d : ℝ} (h : HasDerivAt f d 0) (hd : d < 0) : ∃ s0 > 0, ∀ s, 0 < s → s < s0 → f s < f 0 := by
  have hs := h.tendsto_slope
  have h1 : ∀ᶠ s in nhdsWithin 0 {0}ᶜ, slope f 0 s < 0 := hs.eventually (gt_mem_nhds hd)
  rw [eventually_nhdsWithin_iff, Metric.eventually_nhds_iff] at h1
  obtain ⟨ε, hε, h2⟩ := h1
  refine ⟨ε, hε, fun s hs0 hs1 => ?_⟩
  have h3 := h2 (y := s) (by rw [Real.dist_eq, sub_zero, abs_of_pos hs0]; exact hs1) (by simpa using hs0.ne')
  rw [slope_def_field, sub_zero] at h3
  have h4 := (div_lt_iff₀ hs0).mp h3
  linarith

theorem increases {f : ℝ → ℝ} {d : ℝ} (h : HasDerivAt f d 0) (hd : 0 < d) : ∃ s0 > 0, ∀ s, 0 < s → s < s0 → f 0 < f s := by
  obtain ⟨s0, h0, h1⟩ := decreases (f := fun x => -f x) h.neg (by linarith)
  exact ⟨s0, h0, fun s a b => by have := h1 s a b; linarith⟩

theorem el_along (p v : Tensor ℝ) (s : ℝ) (i) : el (along p v s) i = el p i + s * el v i := rfl

theorem along_zero (p v : Tensor ℝ) : along p v 0 = p := by
  unfold along; simp

theorem shape_along (p v : Tensor ℝ) (s : ℝ) : Shape (along p v s) p := ⟨rfl, rfl, rfl⟩

/-- A gradient, up to a positive factor, is a direction of growth: a small enough step against it makes the function smaller. -/
theorem IsGradient.descends {L : Tensor ℝ → Option ℝ} {p g : Tensor ℝ} {w : ℝ} (hw : 0 < w) (h : IsGradient L p (Views.map (fun v => w * v) g))
    (hg : ∃ i ∈ places p, el g i ≠ 0) :
    ∃ a, L p = some a ∧ ∃ s0 > 0, ∀ s, 0 < s → s < s0 → ∃ b, L (along p g (-s)) = some b ∧ b < a := by
  obtain ⟨hsh, h⟩ := h
  obtain ⟨f, hf, hd⟩ := h (fun s => along p g (-s)) (Views.map (fun v => -v) g) (fun s => shape_along p g (-s))
    (fun i _ => by rw [el_along]; simp) (fun i _ => by
      have h1 : HasDerivAt (fun s : ℝ => el p i + -s * el g i) (-1 * el g i) 0 :=
        (((hasDerivAt_id (0:ℝ)).neg).mul_const (el g i)).const_add (el p i)
      exact h1.congr_deriv (by show -1 * el g i = -(el g i); ring))
  have hneg : inner (Views.map (fun v => w * v) g) (Views.map (fun v => -v) g) < 0 := by
    have e : inner (Views.map (fun v => w * v) g) (Views.map (fun v => -v) g) = -w * total p (fun i => el g i * el g i) := by
      unfold inner
      rw [total_congr_shape hsh, ← total_mul]
      refine total_congr fun i _ => ?_
      show w * el g i * -(el g i) = _; ring
    rw [e]
    obtain ⟨i, hi, hne⟩ := hg
    have := total_pos (t := p) (f := fun i => el g i * el g i) (fun _ _ => mul_self_nonneg _) ⟨i, hi, mul_self_pos.mpr hne⟩
    nlinarith
  obtain ⟨s0, h0, h1⟩ := decreases hd hneg
  refine ⟨f 0, ?_, s0, h0, fun s a b => ⟨f s, hf s, h1 s a b⟩⟩
  have := hf 0
  simp only [neg_zero, along_zero] at this
  exact this

end Verif.Calculus
