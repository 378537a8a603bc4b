import Verif.Model.FloatActivation

/-!
The `adam` optimizer on single 32-bit floats: `/repo/src/ml/optimizers/adam_optimizer.hpp` (the version over an arbitrary field, with tensors and
registrations, is `Verif.Optimizer.adamUpdate`). Every element of a tensor is updated on its own, so one weight is followed here.

`powf` and `std::sqrt(float)` are parameters. Simplifications: weights are stored with 32 bits; every operation is rounded to 32 bits on its own.
-/
namespace Verif.FloatAdam
open Verif FloatActivation

/-- `powf` and `std::sqrt(float)`. -/
structure Roots where
  pow : F32 → F32 → F32
  sqrt : F32 → F32

/-- adam_optimizer.hpp:33-35: `0.9`, `0.999` and `1e-8` as floats; the last one is also the default of element_wise_inverse_tensor_view.hpp:16. -/
def beta1 : F32 := ⟨0x3F666666#32⟩
def beta2 : F32 := ⟨0x3F7FBE77#32⟩
def epsilon : F32 := ⟨0x322BCC77#32⟩

/-- adam_optimizer.hpp:94-95: `1e-5` and `1e-1` as floats. -/
def smallest : F32 := ⟨0x3727C5AC#32⟩
def largest : F32 := ⟨0x3DCCCCCD#32⟩

/-- The moments of one weight: an element of the tensors in `weight_m` and `weight_v` (or `bias_m` and `bias_v`). -/
structure Moments where
  m : F32
  v : F32
  deriving DecidableEq

/-- adam_optimizer.hpp:54-59, 74-79: both are 0 before the first update. -/
def Moments.fresh : Moments := ⟨0, 0⟩

/-- adam_optimizer.hpp:134-150, with scalar_multiply_tensor_view.hpp:32-34, power_tensor_view.hpp:20-23, add_tensor_view.hpp:44-46. -/
def Moments.next (lib : Roots) (s : Moments) (g : F32) : Moments :=
  ⟨beta1 * s.m + (one - beta1) * g, beta2 * s.v + (one - beta2) * lib.pow g two⟩

/-- What is added to the weight: adam_optimizer.hpp:153-157, with sqrt_tensor_view.hpp:19-22, scalar_add_tensor_view.hpp:26-28,
element_wise_inverse_tensor_view.hpp:21-24, element_wise_multiply_tensor_view.hpp:55-58. -/
def Moments.change (lib : Roots) (rate : F32) (s : Moments) : F32 :=
  (F32.negate rate * s.m) * (one / ((lib.sqrt s.v + epsilon) + epsilon))

/-- `adam_update`: adam_optimizer.hpp:126-162. -/
def update (lib : Roots) (rate : F32) (w : F32) (s : Moments) (g : F32) : F32 × Moments :=
  let s := s.next lib g
  (w + s.change lib rate, s)

/-- Updates with a list of pairs of a rate and a gradient, one after the other. -/
def updates (lib : Roots) (w : F32) (s : Moments) (l : List (F32 × F32)) : F32 × Moments :=
  l.foldl (fun p x => update lib x.1 p.1 p.2 x.2) (w, s)

/-- `std::min(a, b)` is `(b < a) ? b : a`, `std::max(a, b)` is `(a < b) ? b : a`. -/
def least (a b : F32) : F32 := if F32.lt b a then b else a
def greatest (a b : F32) : F32 := if F32.lt a b then b else a

/-- `calculateDemonAdjustedLearnRate`: adam_optimizer.hpp:101-124, from the averages of the two maps and `(float) time_step`. -/
def decayed (lib : Roots) (mAverage vAverage timeStep : F32) : F32 :=
  let factor := least largest (greatest smallest (one / (one - lib.pow beta1 timeStep)))
  let mHat := mAverage * factor
  let vHat := vAverage * (one / (one - lib.pow beta2 timeStep))
  least largest (greatest smallest (mHat / (lib.sqrt vHat + epsilon)))

end Verif.FloatAdam
