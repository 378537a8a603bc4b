import Verif.Model.FloatAdam

/-!
The `sgdm` optimizer (gradient descent with momentum) on single 32-bit floats: `/repo/src/ml/optimizers/sgdm_optimizer.hpp` (the version over an arbitrary
field, with tensors and registrations, is `Verif.Optimizer.sgdmUpdate`). Every element of a tensor is updated on its own, so one weight is followed here.

Simplifications: weights are stored with 32 bits; every operation is rounded to 32 bits on its own; the learning rate of each update is given, and
what decays it separately, from the average of the momenta.
-/
namespace Verif.FloatMomentum
open Verif FloatActivation FloatAdam

/-- sgdm_optimizer.hpp:23: `0.9` as a float. -/
def factor : F32 := ⟨0x3F666666#32⟩

/-- A weight and its element of `weight_momentum` (or a bias and its element of `bias_momentum`). -/
structure State where
  w : F32
  momentum : F32
  deriving DecidableEq

/-- sgdm_optimizer.hpp:43-46, 71-74: no momentum before the first update. -/
def start (w : F32) : State := ⟨w, 0⟩

/-- sgdm_optimizer.hpp:49-57 and 77-84, with scalar_multiply_tensor_view.hpp:32-34, add_tensor_view.hpp:44-46, subtract_tensor_view.hpp:45-47. -/
def update (rate : F32) (s : State) (g : F32) : State :=
  let momentum := factor * s.momentum + rate * g
  ⟨s.w - momentum, momentum⟩

/-- Updates with a list of pairs of a rate and a gradient, one after the other. -/
def updates (s : State) (l : List (F32 × F32)) : State := l.foldl (fun s x => update x.1 s x.2) s

/-- `calculateDemonAdjustedLearnRate`: sgdm_optimizer.hpp:105-124, from the average of the map and `(float) time_step`. The constants (lines 24-26 and 100-101)
are those of adam. -/
def decayed (lib : Roots) (mAverage timeStep : F32) : F32 :=
  let factor := least largest (greatest smallest (one / (one - lib.pow beta1 timeStep)))
  let mHat := mAverage * factor
  let vHat := mAverage * mAverage * (one / (one - lib.pow beta2 timeStep))
  least largest (greatest smallest (mHat / (lib.sqrt vHat + epsilon)))

end Verif.FloatMomentum
