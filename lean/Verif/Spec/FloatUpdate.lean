import Verif.Spec.Rounding

/-!
# What an update should do: specification

The exact change of a weight is the learning rate times its gradient.
-/
namespace Verif.Rounding
open Verif

/-- The change of the weight at one position. -/
noncomputable def step (rate : F32) (g : Tensor F32) (r c k : Nat) : ℝ := real rate * real (g.get r c k)

/-- A 16-bit value: the lower half of the bits is zero. -/
def Sixteen (a : F32) : Prop := FloatBits.mag a.bits % 2 ^ 16 = 0

instance (a : F32) : Decidable (Sixteen a) := by unfold Sixteen; infer_instance

/-- Sizes with which nothing overflows. -/
def Fits (w rate g : F32) : Prop := Finite w ∧ Finite rate ∧ Finite g ∧ |real w| ≤ 2 ^ 100 ∧ |real rate * real g| ≤ 2 ^ 100

open Classical in
/-- How many of the changes go towards zero from `w`. -/
noncomputable def towards (w : ℝ) (steps : List ℝ) : Nat := steps.countP fun p => decide (0 < p * w)

end Verif.Rounding
