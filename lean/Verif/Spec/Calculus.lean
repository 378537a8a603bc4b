import Verif.Model.Tensor
import Mathlib.Analysis.Calculus.Deriv.Basic

/-!
Vocabulary for statements about gradients: positions of a tensor, inner product, a straight line of tensors, the gradient of a function
of tensors. Nothing here refers to the loss or activation functions.
-/
namespace Verif.Calculus
open Verif

/-- The positions (row, column, channel) of a tensor, each once. -/
def places (t : Tensor ℝ) : List (Nat × Nat × Nat) :=
  (List.range t.chans).flatMap fun k => (List.range t.rows).flatMap fun r => (List.range t.cols).map fun c => (r, c, k)

/-- The element at a position. -/
def el (t : Tensor ℝ) (i : Nat × Nat × Nat) : ℝ := t.get i.1 i.2.1 i.2.2

/-- Sum over all positions of `t`. -/
def total (t : Tensor ℝ) (f : Nat × Nat × Nat → ℝ) : ℝ := ((places t).map f).sum

/-- Inner product over the positions of the first tensor. -/
def inner (a b : Tensor ℝ) : ℝ := total a fun i => el a i * el b i

/-- Same shape. -/
def Shape (a b : Tensor ℝ) : Prop := a.rows = b.rows ∧ a.cols = b.cols ∧ a.chans = b.chans

/-- `p + s * v`. -/
def along (p v : Tensor ℝ) (s : ℝ) : Tensor ℝ := ⟨p.rows, p.cols, p.chans, fun r c k => p.get r c k + s * v.get r c k⟩

/-- `g` is the gradient of `L` at `p`: along every differentiable path `q` through `p` with velocity `v`, `L` is defined and its derivative
is the inner product of `g` and `v`. -/
def IsGradient (L : Tensor ℝ → Option ℝ) (p g : Tensor ℝ) : Prop :=
  Shape g p ∧ ∀ (q : ℝ → Tensor ℝ) (v : Tensor ℝ), (∀ s, Shape (q s) p) → (∀ i ∈ places p, el (q 0) i = el p i) →
    (∀ i ∈ places p, HasDerivAt (fun s => el (q s) i) (el v i) 0) →
    ∃ f : ℝ → ℝ, (∀ s, L (q s) = some (f s)) ∧ HasDerivAt f (inner g v) 0

end Verif.Calculus
