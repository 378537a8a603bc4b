import Verif.Model.Activation
import Verif.Lemmas.Calculus

/-!
C69. Softmax over the whole tensor.
-/
namespace Verif.Activation
open Verif Views Calculus

/-- softmax without the subtraction of the maximum -/
theorem softmax_formula (t : Tensor ℝ) (ht : 0 < t.size) :
    Shape (softmax t) t ∧ ∀ i, el (softmax t) i = Real.exp (el t i) / total t (fun j => Real.exp (el t j)) := by
  have hne : Statistics.elements t ≠ [] := by
    rw [elements_places]; simpa using places_ne_nil ht
  obtain ⟨_, m, _, hm, _⟩ := Statistics.C81_extremes t hne
  unfold softmax
  rw [hm]
  dsimp only
  refine ⟨⟨rfl, rfl, rfl⟩, fun i => ?_⟩
  rw [sum_total]
  have hs : Shape (map Real.exp (map (fun v => v - m) t)) t := ⟨rfl, rfl, rfl⟩
  rw [total_congr_shape hs]
  have h1 : total t (el (map Real.exp (map (fun v => v - m) t))) = Real.exp (-m) * total t (fun j => Real.exp (el t j)) := by
    rw [← total_mul]
    refine total_congr fun j _ => ?_
    show Real.exp (el t j - m) = _
    rw [← Real.exp_add]; ring_nf
  rw [h1]
  show Real.exp (el t i - m) / _ = _
  have h2 : Real.exp (el t i - m) = Real.exp (-m) * Real.exp (el t i) := by rw [← Real.exp_add]; ring_nf
  rw [h2, mul_div_mul_left _ _ (Real.exp_pos _).ne']

theorem exp_total_pos (t : Tensor ℝ) (ht : 0 < t.size) : 0 < total t (fun j => Real.exp (el t j)) := by
  obtain ⟨i, hi⟩ := List.exists_mem_of_ne_nil _ (places_ne_nil ht)
  exact total_pos (fun j _ => (Real.exp_pos _).le) ⟨i, hi, Real.exp_pos _⟩

/-- C69. For every non-empty tensor: the shape is kept, every output is positive and at most 1, the outputs sum to 1, larger inputs give
larger outputs, and adding a constant to all inputs changes nothing. -/
theorem C69 (t : Tensor ℝ) (ht : 0 < t.size) :
    Shape (softmax t) t ∧
    (∀ i ∈ places t, 0 < el (softmax t) i ∧ el (softmax t) i ≤ 1) ∧
    (values (softmax t)).sum = 1 ∧
    (∀ i ∈ places t, ∀ j ∈ places t, el t i < el t j ↔ el (softmax t) i < el (softmax t) j) ∧
    (∀ a, (softmax (map (· + a) t)).Same (softmax t)) := by
  obtain ⟨hsh, hf⟩ := softmax_formula t ht
  have hp := exp_total_pos t ht
  have hsum : total t (el (softmax t)) = 1 := by
    rw [total_congr (fun i _ => hf i), total_div, div_self hp.ne']
  have hpos : ∀ i, 0 < el (softmax t) i := fun i => by rw [hf]; exact div_pos (Real.exp_pos _) hp
  refine ⟨hsh, fun i hi => ⟨hpos i, ?_⟩, ?_, ?_, ?_⟩
  · rw [← hsum]; exact le_total (f := el (softmax t)) (fun j _ => (hpos j).le) hi
  · rw [← (Statistics.C81_sum_product (softmax t)).1, sum_total, total_congr_shape hsh, hsum]
  · intro i _ j _
    rw [hf, hf, div_lt_div_iff_of_pos_right hp, Real.exp_lt_exp]
  · intro a
    have hta : 0 < (map (· + a) t).size := ht
    obtain ⟨hsh', hf'⟩ := softmax_formula _ hta
    obtain ⟨e1, e2, e3⟩ := hsh
    obtain ⟨f1, f2, f3⟩ := hsh'
    refine ⟨f1.trans e1.symm, f2.trans e2.symm, f3.trans e3.symm, fun r c k _ _ _ => ?_⟩
    have h1 := hf (r, c, k)
    have h2 := hf' (r, c, k)
    show el (softmax (map (· + a) t)) (r, c, k) = el (softmax t) (r, c, k)
    rw [h1, h2]
    have h3 : total (map (· + a) t) (fun j => Real.exp (el (map (· + a) t) j)) = Real.exp a * total t (fun j => Real.exp (el t j)) := by
      rw [total_congr_shape (b := t) ⟨rfl, rfl, rfl⟩, ← total_mul]
      refine total_congr fun j _ => ?_
      show Real.exp (el t j + a) = _
      rw [Real.exp_add, mul_comm]
    rw [h3]
    show Real.exp (el t (r, c, k) + a) / _ = _
    rw [Real.exp_add, mul_comm (Real.exp _) (Real.exp a), mul_div_mul_left _ _ (Real.exp_pos a).ne']

/-- A row of three logits; the hypothesis of `C69` is met. -/
example : 0 < (⟨1, 3, 1, fun _ c _ => (c : ℝ) - 1⟩ : Tensor ℝ).size := by decide
/-- Two equal logits share the probability. -/
example : el (softmax ⟨1, 2, 1, fun _ _ _ => (5 : ℝ)⟩) (0, 1, 0) = 1 / 2 := by
  rw [(softmax_formula _ (by decide)).2]
  have h : places (⟨1, 2, 1, fun _ _ _ => (5 : ℝ)⟩ : Tensor ℝ) = [(0, 0, 0), (0, 1, 0)] := by simp [places, List.range_succ]
  simp only [total, h, el]
  have := Real.exp_pos 5
  simp
  field_simp
  norm_num

end Verif.Activation
