import Verif.Model.Tensor
import Mathlib.Data.Real.Basic
import Mathlib.Algebra.BigOperators.Group.Finset.Basic

/-!
Vocabulary for linear regression: the least-squares objective of predictions `x * w + b`, in plain sums. Nothing here refers to the
layers, the loss functions or the optimizers.
-/
namespace Verif.Regression
open Verif

/-- What the model with weights `w` and biases `b` (used if `useBias`) predicts for the input `x`, in column `c`. -/
def output (useBias : Bool) (w b x : Tensor ℝ) (c : Nat) : ℝ :=
  ∑ j ∈ Finset.range w.rows, x.get 0 j 0 * w.get j c 0 + if useBias then b.get 0 c 0 else 0

/-- The sum of the squares of the errors for the record `d` (input, truth). -/
def squares (useBias : Bool) (w b : Tensor ℝ) (d : Tensor ℝ × Tensor ℝ) : ℝ :=
  ∑ c ∈ Finset.range w.cols, (output useBias w b d.1 c - d.2.get 0 c 0) ^ 2

/-- The sum of the squares of the elements of a matrix. -/
def norm2 (w : Tensor ℝ) : ℝ := ∑ j ∈ Finset.range w.rows, ∑ c ∈ Finset.range w.cols, w.get j c 0 ^ 2

/-- The least-squares objective: the mean over the records of the sum of the squares of the errors, plus `s / 2` times the sum of the
squares of the weights. -/
noncomputable def fit (useBias : Bool) (s : ℝ) (data : List (Tensor ℝ × Tensor ℝ)) (w b : Tensor ℝ) : ℝ :=
  (data.map (squares useBias w b)).sum / data.length + s / 2 * norm2 w

/-- The mean of the squared lengths of the inputs. -/
noncomputable def power (n : Nat) (data : List (Tensor ℝ × Tensor ℝ)) : ℝ :=
  (data.map fun d => ∑ j ∈ Finset.range n, d.1.get 0 j 0 ^ 2).sum / data.length

/-- What has to be at most a half for the learning rates `rw` (weights) and `rb` (biases) to be small enough. -/
noncomputable def reach (useBias : Bool) (s rw rb : ℝ) (n : Nat) (data : List (Tensor ℝ × Tensor ℝ)) : ℝ :=
  rw * (power n data + s / 2) + if useBias then rb else 0

/-- The difference of two matrices of the same shape. -/
def minus (a b : Tensor ℝ) : Tensor ℝ := ⟨a.rows, a.cols, a.chans, fun r c k => a.get r c k - b.get r c k⟩

/-- The squared distance between two pairs of weights and biases, measured in learning rates. -/
noncomputable def distance (rw rb : ℝ) (w b w' b' : Tensor ℝ) : ℝ := norm2 (minus w w') / rw + norm2 (minus b b') / rb

/-- A matrix of `n` rows and `m` columns. -/
def Matrix (n m : Nat) (t : Tensor ℝ) : Prop := t.rows = n ∧ t.cols = m ∧ t.chans = 1

/-- Records of `n` inputs and `m` outputs, at least one. -/
def Records (n m : Nat) (data : List (Tensor ℝ × Tensor ℝ)) : Prop := data ≠ [] ∧ ∀ d ∈ data, Matrix 1 n d.1 ∧ Matrix 1 m d.2

end Verif.Regression
