import Verif.Spec.FloatAdam
import Verif.Model.FloatMomentum

/-!
What is asked of gradient descent with momentum on 32-bit floats.
-/
namespace Verif.FloatMomentum
open Verif FloatActivation

/-- Powers of two as floats. -/
def two94 : F32 := ⟨0x6E800000#32⟩
def two98 : F32 := ⟨0x70800000#32⟩

/-- `2^-121` -/
def small : F32 := ⟨0x03000000#32⟩

/-- Four times the smallest positive float, `2^-147`. -/
def four : F32 := ⟨0x00000004#32⟩

/-- `k` updates with the rate `rate` and gradient 0. -/
def idle (rate : F32) (k : Nat) : List (F32 × F32) := List.replicate k (rate, 0)

end Verif.FloatMomentum
