import Verif.Model.Views
import Mathlib.Algebra.Field.Basic

/-
Model of `/repo/src/types/tensor_views/inverse_tensor_view.hpp`:14-69 (Gauss–Jordan elimination) and
`matrix_divide_tensor_view.hpp`, over an arbitrary field (exact arithmetic instead of `float`).

The working matrix `mat` has `n` rows and `2 n` columns; entries outside are never looked at.
-/
namespace Verif.Inverse
open Verif Views

variable {F : Type} [Field F] [DecidableEq F]

/-- A working matrix, row then column. -/
abbrev Mat (F : Type) := Nat → Nat → F

/-- inverse_tensor_view.hpp:19-27: `[A | I]` -/
def augment (n : Nat) (a : Mat F) : Mat F := fun r c => if c < n then a r c else if r = c - n then 1 else 0

/-- inverse_tensor_view.hpp:31-41: the row to use as pivot row; `none` is the exception "Matrix is not invertible". -/
def pivotRow (n : Nat) (m : Mat F) (i : Nat) : Option Nat :=
  if m i i = 0 then (List.range n).find? (fun j => decide (i < j) && decide (m j i ≠ 0)) else some i

/-- inverse_tensor_view.hpp:42 `swap(mat[i], mat[row_to_swap])` -/
def swapRows (m : Mat F) (a b : Nat) : Mat F := fun r => if r = a then m b else if r = b then m a else m r

/-- inverse_tensor_view.hpp:45-48: divide row `i` by its pivot, from column `i` on. -/
def scaleRow (n : Nat) (m : Mat F) (i : Nat) : Mat F :=
  fun r c => if r = i ∧ i ≤ c ∧ c < 2 * n then m r c / m i i else m r c

/-- inverse_tensor_view.hpp:51-54: subtract `factor` times row `i` from row `j`; `factor` is read before the inner loop. -/
def subtractRow (n : Nat) (m : Mat F) (i j : Nat) : Mat F :=
  fun r c => if r = j ∧ c < 2 * n then m j c - m j i * m i c else m r c

/-- inverse_tensor_view.hpp:49-56: clear column `i` in the other rows, one row after the other. -/
def clearColumn (n : Nat) (m : Mat F) (i : Nat) : Mat F :=
  (List.range n).foldl (fun m j => if j = i then m else subtractRow n m i j) m

/-- inverse_tensor_view.hpp:31-56: one iteration of the outer loop. -/
def step (n : Nat) (m : Mat F) (i : Nat) : Option (Mat F) :=
  (pivotRow n m i).map fun p => clearColumn n (scaleRow n (swapRows m i p) i) i

/-- inverse_tensor_view.hpp:30-57: the outer loop. -/
def eliminate (n : Nat) (m : Mat F) : Option (Mat F) := (List.range n).foldlM (step n) m

/-- inverse_tensor_view.hpp:18-66 for one channel: the right half of the eliminated matrix. -/
def invert (n : Nat) (a : Mat F) : Option (Mat F) := (eliminate n (augment n a)).map fun m r c => m r (c + n)

/-- The channels of the result, in order; the exception for any channel aborts the whole (inverse_tensor_view.hpp:16-67). -/
def invertChannels (t : Tensor F) : Option (List (Mat F)) :=
  (List.range t.chans).mapM fun k => invert t.rows fun r c => t.get r c k

/-- inverse_tensor_view.hpp:14-69 `inverse_tensor`. The number of columns of the argument is not looked at. -/
def inverseTensor (t : Tensor F) : Option (Tensor F) :=
  (invertChannels t).map fun ms => ⟨t.rows, t.rows, t.chans, fun r c k => (ms[k]?.getD fun _ _ => 0) r c⟩

/-- matrix_divide_tensor_view.hpp:18-55: the constructor inverts the right operand and compares shapes; `getValue` combines row
`row` of the left operand with row `row` of the inverse, whatever `column` is. -/
def matdiv (a b : Tensor F) : Option (Tensor F) :=
  (inverseTensor b).bind fun inv =>
    if a.rows ≠ inv.rows ∨ a.cols ≠ inv.cols ∨ a.chans ≠ inv.chans then none
    else some ⟨a.rows, inv.cols, a.chans, fun r _ k => sumLoop a.cols fun j => a.get r j k * inv.get r j k⟩

end Verif.Inverse
