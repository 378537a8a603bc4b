import Verif.Spec.FloatAdam
import Verif.Spec.Rounding
import Verif.Model.FloatDistance

/-!
What is asked of losses that measure a distance, on 32-bit floats.
-/
namespace Verif.FloatDistance
open Verif FloatActivation FloatAdam Rounding

/-- How far a prediction is from the truth. -/
noncomputable def distance (truth prediction : F32) : ℝ := |real prediction - real truth|

/-- `2^-76` -/
def tiny : F32 := ⟨0x19800000#32⟩

/-- What is assumed about squares computed by the C library: those of `Verif.FloatAdam.Sound`, the square of 0 is 0, and that of `2^-76` (exactly `2^-152`, which
is nearer to 0 than to the smallest float) is 0. -/
structure Squares (lib : Roots) : Prop where
  sound : Sound lib
  zero : lib.pow 0 two = 0
  small : lib.pow tiny two = 0

/-- The derivative is positive above the truth, negative below it and 0 at the truth. -/
def Uphill (f : F32 → F32 → F32) (truth prediction : F32) : Prop :=
  (F32.lt truth prediction = true → F32.lt 0 (f truth prediction) = true) ∧ (F32.lt prediction truth = true → F32.lt (f truth prediction) 0 = true) ∧
    (Equal prediction truth → Equal (f truth prediction) 0)

end Verif.FloatDistance
