import Verif.Model.FloatActivation

/-!
What is asked of activation functions on 32-bit floats, in terms of C++ comparisons (`>=` is false for a NaN).
-/
namespace Verif.FloatActivation
open Verif

/-- `a >= low && high >= a`; in particular `a` is a number. -/
def Within (low high a : F32) : Prop := F32.ge a low = true ∧ F32.ge high a = true

instance (l h a : F32) : Decidable (Within l h a) := by unfold Within; infer_instance

/-- Infinity. -/
def inf : F32 := ⟨0x7F800000#32⟩
def minusInf : F32 := ⟨0xFF800000#32⟩
/-- `0.25f` -/
def quarter : F32 := ⟨0x3E800000#32⟩

/-- A number, infinities included. -/
def Number (x : F32) : Prop := FloatBits.isNaN x.bits = false

/-- A number that is not infinite. -/
def IsFinite (x : F32) : Prop := FloatBits.isFinite x.bits = true

instance (x : F32) : Decidable (Number x) := by unfold Number; infer_instance
instance (x : F32) : Decidable (IsFinite x) := by unfold IsFinite; infer_instance

/-- What is assumed about the C library: the exponential function and the hyperbolic tangent return numbers for numbers, keep their order, are exact at 0 and
stay in the range of the functions they compute. (Nothing is assumed about accuracy.) -/
structure Sound (m : Libm) : Prop where
  exp_nan : ∀ x, ¬ Number x → ¬ Number (m.exp x)
  exp_range : ∀ x, Number x → Within 0 inf (m.exp x)
  exp_order : ∀ x y, F32.ge y x = true → F32.ge (m.exp y) (m.exp x) = true
  exp_zero : ∀ x, F32.ge x 0 = true → F32.ge 0 x = true → m.exp x = one
  tanh_nan : ∀ x, ¬ Number x → ¬ Number (m.tanh x)
  tanh_range : ∀ x, Number x → Within minusOne one (m.tanh x)
  tanh_order : ∀ x y, F32.ge y x = true → F32.ge (m.tanh y) (m.tanh x) = true
  tanh_zero : ∀ x, F32.ge x 0 = true → F32.ge 0 x = true → Within 0 0 (m.tanh x)

/-- The documented range of an activation function. -/
def Act.low : Act → F32
  | .relu => 0 | .leaky => minusInf | .linear => minusInf | .sigmoid => 0 | .sigmoidApprox => 0 | .tanh => minusOne | .tanhApprox => minusOne
def Act.high : Act → F32
  | .relu => inf | .leaky => inf | .linear => inf | .sigmoid => one | .sigmoidApprox => one | .tanh => one | .tanhApprox => one

/-- The value in the middle. -/
def Act.centre : Act → F32
  | .sigmoid => half | .sigmoidApprox => half | _ => 0

/-- The steepest slope. -/
def Act.steepest : Act → F32
  | .sigmoid => quarter | .sigmoidApprox => quarter | _ => one

end Verif.FloatActivation
