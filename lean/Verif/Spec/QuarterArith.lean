import Verif.Spec.Rounding
import Verif.Model.QuarterArith

/-!
What arithmetic on 8-bit floats should return, in real numbers.
-/
namespace Verif.QuarterArith
open QuarterFloat Rounding

/-- The four operations. -/
inductive Op
  | add | sub | mul | div
  deriving DecidableEq

/-- What the operation is, for real numbers. -/
noncomputable def Op.exact : Op → ℝ → ℝ → ℝ
  | .add, x, y => x + y
  | .sub, x, y => x - y
  | .mul, x, y => x * y
  | .div, x, y => x / y

/-- The function of happyml. -/
def Op.code : Op → BitVec 8 → Int → BitVec 8 → Int → Int → BitVec 8
  | .add => quarterAdd
  | .sub => quarterSubtract
  | .mul => quarterMultiply
  | .div => quarterDivide

/-- A code that stands for a number: its exponent field is not the highest one. -/
def IsNumber (q : BitVec 8) : Prop := q.toNat / 8 % 16 ≠ 15

instance (q : BitVec 8) : Decidable (IsNumber q) := by unfold IsNumber; infer_instance

/-- The number that a code stands for. -/
noncomputable def num (q : BitVec 8) (bias : Nat) : ℝ := real ⟨quarterToFloat q bias⟩

/-- The biases of the 8-bit floats. -/
def Bias (b : Nat) : Prop := 1 ≤ b ∧ b ≤ 15

instance (b : Nat) : Decidable (Bias b) := by unfold Bias; infer_instance

/-- The largest number at a bias. -/
noncomputable def largest (bias : Nat) : ℝ := 15 / 8 * 2 ^ 14 / 2 ^ bias

/-- The lowest power of two at a bias. -/
noncomputable def lowest (bias : Nat) : ℝ := 1 / 2 ^ bias

/-- The code of the number one. -/
def oneCode (bias : Nat) : BitVec 8 := BitVec.ofNat 8 (8 * bias)

end Verif.QuarterArith
