import Verif.Spec.Rounding
import Verif.Model.FloatTable

/-!
What is asked of a linear model whose input is a label.
-/
namespace Verif.FloatTable
open Verif FloatActivation Rounding

/-- A label as the encoder writes it: 1 in its column and 0 in the others. -/
def oneHot (n i : Nat) : Tensor F32 := ⟨1, n, 1, fun _ c _ => if c = i then one else 0⟩

/-- A number that has finite differences. -/
def Small (x : F32) : Prop := Rounding.Finite x ∧ |real x| ≤ 2 ^ 90

/-- A table with a row for each of `n` labels and `m` columns. -/
def Table (n m : Nat) (w : Tensor F32) : Prop := w.rows = n ∧ w.cols = m ∧ w.chans = 1 ∧ ∀ i j, i < n → j < m → Small (w.get i j 0)

/-- A record with one of `n` labels and `m` expected numbers. -/
structure Labelled where
  label : Nat
  expected : Tensor F32

def Labelled.record (n : Nat) (r : Labelled) : Record := ⟨oneHot n r.label, r.expected⟩

/-- It can be used to train a table. -/
def Labelled.Ok (n m : Nat) (r : Labelled) : Prop :=
  r.label < n ∧ r.expected.rows = 1 ∧ r.expected.cols = m ∧ r.expected.chans = 1 ∧ ∀ j, j < m → Small (r.expected.get 0 j 0)

/-- A learning rate up to a quarter. -/
def Moderate (rate : F32) : Prop := Rounding.Finite rate ∧ 0 < real rate ∧ real rate ≤ 1 / 4

/-- `x` is between `a` and `b`. -/
def Between (a b x : ℝ) : Prop := min a b ≤ x ∧ x ≤ max a b

end Verif.FloatTable
