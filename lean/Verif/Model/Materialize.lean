import Verif.Model.BinaryDataset
import Verif.Model.HalfFloat
import Verif.Model.EstimateBias
import Verif.Model.Statistics

/-!
Model of how tensors are stored with 32, 16 or 8 bits per element: `/repo/src/util/tensor_utils.hpp`:70-84 `materializeTensor` and 99-117 `loadTensor`,
`/repo/src/types/tensor_impls/half_tensor.hpp`, `quarter_tensor.hpp` and `full_tensor.hpp`. Floats are bit patterns.
-/
namespace Verif.Materialize
open Verif Verif.FloatArith Verif.BinaryDataset

/-- base_tensors.hpp:296-312 `range` on floats: `std::min` and `std::max` from plus and minus infinity. -/
def range (t : Tensor (BitVec 32)) : BitVec 32 × BitVec 32 :=
  (Statistics.elements t).foldl (fun (a, b) v => (fmin a v, fmax b v)) (0x7F800000#32, 0xFF800000#32)

/-- full_tensor.hpp:71-88, half_tensor.hpp:18-35, quarter_tensor.hpp:17-35 with tensor_allocators.hpp:14-32: the vectors of a tensor made from another one. `conv` is what
an element goes through when it is stored by `setVal` and read by `getValue`. -/
def stored (conv : BitVec 32 → BitVec 32) (t : Tensor (BitVec 32)) : Data :=
  (List.range t.chans).map fun k => (List.range t.rows).map fun r => (List.range t.cols).map fun c => conv (t.get r c k)

/-- A float stored in and read from a HalfTensor (half_tensor.hpp:90-92, 133-135). -/
def halfConv (v : BitVec 32) : BitVec 32 := HalfFloat.halfToFloat (HalfFloat.floatToHalf v)

/-- A float stored in and read from a QuarterTensor (quarter_tensor.hpp:99-101, 152-154). -/
def quarterConv (bias : Int) (v : BitVec 32) : BitVec 32 := QuarterFloat.quarterToFloat (QuarterFloat.floatToQuarter v bias) bias

/-- tensor_utils.hpp:81-82: the bias for a tensor -/
def bias (t : Tensor (BitVec 32)) : Int := EstimateBias.estimateBias 4 15 (range t).1 (range t).2

/-- tensor_utils.hpp:70-84 `materializeTensor` with a number of bits. `materialized`: what `isMaterialized` says; with `bits == 32` such a tensor is
returned as it is. -/
def materialize (materialized : Bool) (t : Tensor (BitVec 32)) (bits : Nat) : Tensor (BitVec 32) :=
  if bits = 32 then if materialized then t else (stored id t).tensor
  else if bits = 16 then (stored halfConv t).tensor
  else (stored (quarterConv (bias t)) t).tensor

/-- tensor_utils.hpp:99-117 `loadTensor` from the bytes of a file (half_tensor.hpp:56-66, 101-127, full_tensor.hpp:119-129); `none`: the file is too short. -/
def loadTensor (bits : Nat) (file : List Byte) : Option (Tensor (BitVec 32)) :=
  if bits = 16 then (load halfConv file).map fun d => d.1.tensor
  else if bits = 8 then (load halfConv file).map fun d => materialize true d.1.tensor 8
  else (load id file).map fun d => d.1.tensor

end Verif.Materialize
