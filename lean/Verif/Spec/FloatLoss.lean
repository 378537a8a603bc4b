import Verif.Model.FloatLoss
import Verif.Spec.FloatActivation

/-!
What is asked of the cross-entropy losses on 32-bit floats.
-/
namespace Verif.FloatLoss
open Verif FloatActivation

/-- `19.0f` -/
def nineteen : F32 := ⟨0x41980000#32⟩
/-- `-19.0f` -/
def minusNineteen : F32 := ⟨0xC1980000#32⟩
/-- `38.0f` -/
def thirtyEight : F32 := ⟨0x42180000#32⟩

/-- `2^-127`: the smallest prediction for which no overflow is claimed. -/
def small : F32 := ⟨0x00400000#32⟩

/-- `a == b` -/
def Same (a b : F32) : Prop := Within a a b

instance (a b : F32) : Decidable (Same a b) := by unfold Same; infer_instance

/-- A probability, at least 1e-8 (`0x322BCC77`) and at most 1. -/
def limited (p : F32) : F32 := if F32.ge p one then one else if F32.ge p ⟨0x322BCC77#32⟩ then p else ⟨0x322BCC77#32⟩

/-- What is assumed about `std::log(float)`: on the numbers from 1e-8 to 1 it returns numbers from -19 to 0 (the logarithm of 1e-8 is -18.4), it keeps their
order, and it is exact at 1. -/
structure SoundLog (log : F32 → F32) : Prop where
  range : ∀ x, Within epsilon one x → Within minusNineteen 0 (log x)
  order : ∀ x y, Within epsilon one x → Within epsilon one y → F32.ge y x = true → F32.ge (log y) (log x) = true
  one : Same 0 (log one)

end Verif.FloatLoss
