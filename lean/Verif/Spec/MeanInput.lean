import Verif.Model.Tensor
import Mathlib.Algebra.Field.Defs
import Mathlib.Algebra.BigOperators.Group.List.Defs

/-!
The mean of some tensors of one shape, element by element.
-/
namespace Verif.MeanInput
variable {F : Type} [Field F]

def mean (rows cols chans : Nat) (xs : List (Tensor F)) : Tensor F :=
  ⟨rows, cols, chans, fun r c k => (xs.map fun x => x.get r c k).sum / (xs.length : F)⟩

end Verif.MeanInput
