import Verif.Model.Tensor

/-
Model of the shape-changing and selecting tensor views of `/repo/src/types/tensor_views/*` and of
`/repo/src/ml/layers/concatenate_wide_layer.hpp`.

`size_t` and `unsigned long` are taken to be exact (no tensor has 2^64 elements; on a platform with 32-bit `unsigned long` the element
count must stay below 2^32). A constructor that throws is `none`. `getValue` of an in-range position never throws in the views below, so
`get` is total (see `Verif.Tensor`).
-/
namespace Verif.Views
open Verif

variable {F : Type}

/-- base_tensors.hpp:211-219 `getValue(position_offset)`. The C++ divides by `cols * rows`; that is zero only for a tensor without
elements, which has no valid offset. -/
def offsetGet (t : Tensor F) (p : Nat) : F :=
  t.get (p % (t.cols * t.rows) / t.cols) (p % (t.cols * t.rows) % t.cols) (p / (t.cols * t.rows))

/-- reshape_tensor_view.hpp:30-38 and 45-56: the constructor without channels and `getValue`. -/
def reshape (t : Tensor F) (rows cols : Nat) : Option (Tensor F) :=
  if t.rows * t.cols ≠ rows * cols then none
  else some ⟨rows, cols, t.chans, fun r c k => offsetGet t (r * cols + c + k * (rows * cols))⟩

/-- reshape_tensor_view.hpp:17-27: the constructor with channels. -/
def reshape3 (t : Tensor F) (rows cols chans : Nat) : Option (Tensor F) :=
  if chans ≠ t.chans then none else reshape t rows cols

/-- row_flatten_tensor_view.hpp:15-54 -/
def rowFlatten (t : Tensor F) : Tensor F := ⟨1, t.size, 1, fun _ c _ => offsetGet t c⟩

/-- column_flatten_tensor_view.hpp:16-57 -/
def columnFlatten (t : Tensor F) : Tensor F := ⟨t.size, 1, 1, fun r _ _ => offsetGet t r⟩

/-- transpose_tensor_view.hpp:12-46 -/
def transpose (t : Tensor F) : Tensor F := ⟨t.cols, t.rows, t.chans, fun r c k => t.get c r k⟩

/-- rotate_180_tensor_view.hpp:12-33. `row_base_value - row` does not wrap for in-range rows. -/
def rotate180 (t : Tensor F) : Tensor F :=
  ⟨t.rows, t.cols, t.chans, fun r c k => t.get (t.rows - 1 - r) (t.cols - 1 - c) k⟩

/-- concat_wide_tensor_view.h:12-49; only the row counts are checked. -/
def concatWide (a b : Tensor F) : Option (Tensor F) :=
  if a.rows ≠ b.rows then none
  else some ⟨a.rows, a.cols + b.cols, a.chans, fun r c k => if c < a.cols then a.get r c k else b.get r (c - a.cols) k⟩

/-- window_tensor_view.hpp:13-42 -/
def window (t : Tensor F) (start stop : Nat) : Option (Tensor F) :=
  if start ≥ stop ∨ stop > t.cols then none
  else some ⟨t.rows, stop - start, t.chans, fun r c k => t.get r (c + start) k⟩

/-- The left-to-right concatenation loop of concatenate_wide_layer.hpp:50-56. -/
def concatLoop (acc : Tensor F) : List (Tensor F) → Option (Tensor F)
  | [] => some acc
  | t :: ts => (concatWide acc t).bind (concatLoop · ts)

/-- concatenate_wide_layer.hpp:43-57 `forward` -/
def concatForward : List (Tensor F) → Option (Tensor F)
  | a :: b :: ts => concatLoop a (b :: ts)
  | _ => none

/-- concatenate_wide_layer.hpp:63-72: the loop of `backward`, from `start_column` on; `widths` are the input shapes' column counts. -/
def concatBackwardFrom (e : Tensor F) (start : Nat) : List Nat → Option (List (Tensor F))
  | [] => some []
  | w :: ws => (window e start (start + w)).bind fun v => (concatBackwardFrom e (start + w) ws).map (v :: ·)

/-- concatenate_wide_layer.hpp:59-73 `backward` -/
def concatBackward (e : Tensor F) (widths : List Nat) : Option (List (Tensor F)) := concatBackwardFrom e 0 widths

/-- concatenate_wide_layer.hpp:18-41: the constructor's check of the declared input shapes (rows, columns, channels); the result is the
declared output shape. The vector access `input_shapes[0]` on an empty list is undefined behaviour, also `none`. -/
def concatShape : List (Nat × Nat × Nat) → Option (Nat × Nat × Nat)
  | [] => none
  | [_] => none
  | s :: t :: rest =>
    if (s :: t :: rest).all (fun x => x.1 == s.1 && x.2.2 == s.2.2) then
      some (s.1, ((s :: t :: rest).map (·.2.1)).sum, s.2.2)
    else none

/-- zero_pad_tensor_view.hpp:15-57. `row - topPadding` wraps when `row < topPadding`, but that case returns 0 first. -/
def zeroPad [Zero F] (t : Tensor F) (top bottom left right : Nat) : Tensor F :=
  ⟨t.rows + (bottom + top), t.cols + (right + left), t.chans, fun r c k =>
    if r < top ∨ t.rows ≤ r - top ∨ c < left ∨ t.cols ≤ c - left then 0 else t.get (r - top) (c - left) k⟩

/-- channel_to_tensor_view.hpp:15-42 -/
def channelTo [Zero F] (t : Tensor F) (offset : Nat) : Tensor F :=
  ⟨t.rows, t.cols, 1, fun r c k => if k ≠ 0 then 0 else t.get r c (k + offset)⟩

/-- `float val = 0; for (i = 0; i < n; i++) val += f(i);` -/
def sumLoop [Zero F] [Add F] (n : Nat) (f : Nat → F) : F := (List.range n).foldl (fun acc i => acc + f i) 0

/-- sum_to_channel_tensor_view.hpp:15-49 -/
def sumToChannel [Zero F] [Add F] (t : Tensor F) (index channels : Nat) : Tensor F :=
  ⟨t.rows, t.cols, channels, fun r c k => if k ≠ index then 0 else sumLoop t.chans fun j => t.get r c j⟩

/-- sum_channels_tensor_view.hpp:13-22 -/
def sumChannels [Zero F] [Add F] (t : Tensor F) : Tensor F := sumToChannel t 0 1

/-- diagonal_tensor_view.hpp:32-66 -/
def diagonal [Zero F] (t : Tensor F) : Tensor F :=
  ⟨t.rows * t.cols, t.rows * t.cols, t.chans, fun r c k =>
    if r = c ∧ r < t.rows ∧ c < t.cols ∧ k < t.chans then t.get r c k else 0⟩

/-- identity_tensor.hpp:38-40 `getValue` with its shape -/
def identity [Zero F] [One F] (rows cols chans : Nat) : Tensor F := ⟨rows, cols, chans, fun r c _ => if r = c then 1 else 0⟩

/-- base_tensors.hpp:202-209 `getRowValues`; the `channel` argument is ignored (line 206 reads channel 0). -/
def getRowValues (t : Tensor F) (row _channel : Nat) : List F := (List.range t.cols).map fun c => t.get row c 0

/-- base_tensors.hpp:733-741 and masked_select_tensor_view.hpp:10-26: the trinary base class stores its second tensor in both
`middle_child_` and `right_child_`; `above v` is `v > mask_discriminator_`. -/
def maskedSelect (above : F → Bool) (mask valueAbove _valueBelow : Tensor F) : Tensor F :=
  let middle := valueAbove
  let right := valueAbove
  ⟨mask.rows, mask.cols, mask.chans, fun r c k => if above (mask.get r c k) then middle.get r c k else right.get r c k⟩

/-! ### Element-wise views and products -/

/-- Same shape check of add_tensor_view.hpp:18-24, subtract_tensor_view.hpp:19-25, element_wise_multiply_tensor_view.hpp:20-34,
element_wise_divide_tensor_view.hpp:20-34. -/
def zip (op : F → F → F) (a b : Tensor F) : Option (Tensor F) :=
  if a.chans ≠ b.chans ∨ a.rows ≠ b.rows ∨ a.cols ≠ b.cols then none
  else some ⟨a.rows, a.cols, a.chans, fun r c k => op (a.get r c k) (b.get r c k)⟩

/-- add_tensor_view.hpp:14-48 -/
def add [Add F] (a b : Tensor F) : Option (Tensor F) := zip (· + ·) a b
/-- subtract_tensor_view.hpp:15-49 -/
def subtract [Sub F] (a b : Tensor F) : Option (Tensor F) := zip (· - ·) a b
/-- element_wise_multiply_tensor_view.hpp:15-60 -/
def multiply [Mul F] (a b : Tensor F) : Option (Tensor F) := zip (· * ·) a b
/-- element_wise_divide_tensor_view.hpp:15-64; `eps` is the constant 1e-8 that replaces a zero denominator. -/
def divide [Zero F] [Div F] [DecidableEq F] (eps : F) (a b : Tensor F) : Option (Tensor F) :=
  zip (fun x y => x / (if y = 0 then eps else y)) a b

/-- A unary element-wise view (value_transform_tensor_view.hpp:13-33 and the other unary views). -/
def map {G : Type} (f : F → G) (t : Tensor F) : Tensor G := ⟨t.rows, t.cols, t.chans, fun r c k => f (t.get r c k)⟩

/-- matrix_multiply_tensor_view.hpp:15-59 -/
def matmul [Zero F] [Add F] [Mul F] (a b : Tensor F) : Option (Tensor F) :=
  if a.cols ≠ b.rows then none
  else if a.chans ≠ b.chans then none
  else some ⟨a.rows, b.cols, a.chans, fun r c k => sumLoop a.cols fun i => a.get r i k * b.get i c k⟩

/-- dot_product_tensor_view.hpp:15-57 -/
def dot [Zero F] [Add F] [Mul F] (a b : Tensor F) : Option (Tensor F) :=
  if a.rows ≠ 1 ∨ b.rows ≠ 1 ∨ a.chans ≠ 1 ∨ b.chans ≠ 1 then none
  else if a.cols ≠ b.cols then none
  else some ⟨1, 1, 1, fun _ _ _ => sumLoop a.cols fun i => a.get 0 i 0 * b.get 0 i 0⟩

/-- outer_product_tensor_view.hpp:12-38; nothing is checked. -/
def outer [Mul F] (a b : Tensor F) : Tensor F := ⟨a.rows, b.cols, a.chans, fun r c k => a.get r 0 k * b.get 0 c k⟩

/-- valid_2d_cross_correlation_tensor_view.hpp:12-60. `rows = tensor.rows - kernel.rows + 1` is computed in `size_t`: it wraps when the
kernel is larger (modelled with modulus 2^64). -/
def validCorrelation [Zero F] [Add F] [Mul F] (t kernel : Tensor F) : Tensor F :=
  ⟨(t.rows + 1 + (2 ^ 64 - kernel.rows)) % 2 ^ 64, (t.cols + 1 + (2 ^ 64 - kernel.cols)) % 2 ^ 64, t.chans, fun r c k =>
    (List.range kernel.rows).foldl (fun acc i =>
      (List.range kernel.cols).foldl (fun acc j => acc + kernel.get i j k * t.get (r + i) (c + j) k) acc) 0⟩

/-- full_2d_cross_correlation_tensor_view.hpp:26-35: `(k > 1) * (size_t) round(k / 2.0)`; rounding halves away from zero. -/
def fullPad (k : Nat) : Nat := if 1 < k then (k + 1) / 2 else 0

/-- full_2d_cross_correlation_tensor_view.hpp:23-38 -/
def fullCorrelation [Zero F] [Add F] [Mul F] (t kernel : Tensor F) : Tensor F :=
  validCorrelation (zeroPad t (fullPad kernel.rows) (fullPad kernel.rows) (fullPad kernel.cols) (fullPad kernel.cols)) kernel

/-- full_2d_convolve_tensor_view.hpp:20-26 -/
def fullConvolve [Zero F] [Add F] [Mul F] (t kernel : Tensor F) : Tensor F := fullCorrelation t (rotate180 kernel)

end Verif.Views
