import Verif.Spec.FloatActivation
import Verif.Spec.Rounding
import Verif.Model.Statistics

/-!
What is asked of softmax on 32-bit floats.
-/
namespace Verif.FloatSoftmax
open Verif FloatActivation

/-- The elements are numbers, none of them is infinity, at least one is finite (the others may be minus infinity). -/
def Proper (t : Tensor F32) : Prop :=
  (∀ v ∈ Statistics.elements t, F32.lt v inf = true) ∧ ∃ v ∈ Statistics.elements t, IsFinite v

instance (t : Tensor F32) : Decidable (Proper t) := by unfold Proper; infer_instance

/-- The exact sum of the numbers that the elements denote. -/
noncomputable def total (t : Tensor F32) : ℝ := ((Statistics.elements t).map Rounding.real).sum

end Verif.FloatSoftmax
