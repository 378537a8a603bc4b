import Verif.Model.FloatActivation
import Verif.Model.Tensor

/-!
Searching and comparing tensors of 32-bit floats, with infinities and NaN: where the largest and smallest elements are (/repo/src/types/base_tensors.hpp 335-409; with exact
numbers in `Verif.Model.Statistics`), whether all elements are finite (121-130), and `assertEqual` (/repo/src/util/tensor_utils.hpp 137-159).
-/
namespace Verif.FloatIndex
open Verif FloatBits

/-- `-INFINITY` -/
def minusInf : F32 := ⟨0xFF800000#32⟩
/-- `INFINITY` -/
def inf : F32 := ⟨0x7F800000#32⟩

/-- `a == b` for floats: false for a NaN, and zeros of both signs are equal. -/
def equal (a b : F32) : Bool := !isNaN a.bits && !isNaN b.bits && decide (value a.bits = value b.bits)

/-- The loops of `maxIndexByCol` and `maxIndexByRow`, base_tensors.hpp:335-361, over `n` elements: the index and the largest value. -/
def maxLoop (n : Nat) (f : Nat → F32) : Nat × F32 :=
  (List.range n).foldl (fun s i => if F32.lt s.2 (f i) then (i, f i) else s) (0, minusInf)

/-- `maxIndexByRow`, base_tensors.hpp:349-361; `maxIndex`, tensor_utils.hpp:53-55, with channel and row 0. -/
def maxIndexByRow (t : Tensor F32) (channel row : Nat) : Nat := (maxLoop t.cols fun c => t.get row c channel).1

/-- `maxIndexByCol`, base_tensors.hpp:335-347. -/
def maxIndexByCol (t : Tensor F32) (channel col : Nat) : Nat := (maxLoop t.rows fun r => t.get r col channel).1

/-- `minIndex`, base_tensors.hpp:363-375. -/
def minIndex (t : Tensor F32) (channel row : Nat) : Nat :=
  ((List.range t.cols).foldl (fun s i => if F32.lt (t.get row i channel) s.2 then (i, t.get row i channel) else s) (0, inf)).1

/-- `maxIndices`, base_tensors.hpp:377-392. -/
def maxIndices (t : Tensor F32) (channel row : Nat) : List Nat :=
  ((List.range t.cols).foldl (fun s i =>
    let v := t.get row i channel
    if F32.lt s.2 v then ([i], v) else if equal v s.2 then (s.1 ++ [i], s.2) else s) ([], minusInf)).1

/-- `minIndices`, base_tensors.hpp:394-409. -/
def minIndices (t : Tensor F32) (channel row : Nat) : List Nat :=
  ((List.range t.cols).foldl (fun s i =>
    let v := t.get row i channel
    if F32.lt v s.2 then ([i], v) else if equal v s.2 then (s.1 ++ [i], s.2) else s) ([], inf)).1

/-- `BestTextCategoryDecoder::decodeBest`, data_decoder.hpp:117-124; `none` is the exception. -/
def decodeBest {S : Type} (labels : List S) (t : Tensor F32) : Option S := labels[maxIndexByRow t 0 0]?

/-- `hasInvalidValues`, tensor_utils.hpp:119-135, as the order of its loops has it; `hasNaNOrInf`, base_tensors.hpp:121-130, asks the same of the elements in the same order. -/
def hasInvalidValues (t : Tensor F32) : Bool :=
  (List.range t.chans).any fun k => (List.range t.rows).any fun r => (List.range t.cols).any fun c => isNaN (t.get r c k).bits || isInf (t.get r c k).bits

/-- `roughlyEqual<float>`, quarter_float.hpp:173-177: a thousand times the machine precision 2^-23, compared as `double`, which is exact; the smallest normal number is 2^-126. -/
def roughlyEqual (a b : F32) : Bool :=
  let d := F32.abs (a - b)
  (!isNaN d.bits && decide (value d.bits ≤ 1000 * 2 ^ 126)) || F32.lt d ⟨0x00800000#32⟩

/-- `assertEqual`, tensor_utils.hpp:137-159: true if it throws nothing. -/
def assertEqual (t u : Tensor F32) : Bool :=
  t.chans == u.chans && t.rows == u.rows && t.cols == u.cols &&
    (List.range t.chans).all fun k => (List.range t.rows).all fun r => (List.range t.cols).all fun c => roughlyEqual (t.get r c k) (u.get r c k)

end Verif.FloatIndex
