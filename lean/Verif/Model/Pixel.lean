import Verif.Model.BinaryDataset
import Verif.Model.Encoders

/-!
`PixelTensor`: numbers between zero and one kept in eight bits each (pixel_tensor.hpp).
-/
namespace Verif.Pixel
open Verif.BinaryDataset Verif.Encoders

/-- `vector<vector<vector<uint8_t>>> data` (pixel_tensor.hpp:125) -/
abbrev Bytes := List (List (List (BitVec 8)))

/-- pixel_tensor.hpp:97-118: the shape is that of the first channel and its first row, elements are divided by 255.
(`.at` throws out of range; the default is never reached for in-range indices of rectangular data.) -/
def Bytes.tensor (d : Bytes) : Tensor (BitVec 32) where
  chans := d.length
  rows := match d with | [] => 0 | ch :: _ => ch.length
  cols := match d with | [] => 0 | ch :: _ => (match ch with | [] => 0 | row :: _ => row.length)
  get r c k := pixelLoad (((((d[k]?).getD [])[r]?).getD [])[c]?.getD 0#8)

/-- tensor_allocators.hpp:14-31 `allocateTensorVector<uint8_t>`: `resize` makes all elements zero -/
def allocate (rows cols chans : Nat) : Bytes := List.replicate chans (List.replicate rows (List.replicate cols 0#8))

/-- pixel_tensor.hpp:27-45: every element of the allocated vectors is set from the original. -/
def ofTensor (t : Tensor (BitVec 32)) : Bytes :=
  (List.range t.chans).map fun k => (List.range t.rows).map fun r => (List.range t.cols).map fun c => pixelStore (t.get r c k)

/-- pixel_tensor.hpp:49-56: one row of the values -/
def ofVector (values : List (BitVec 32)) : Bytes := [[values.map pixelStore]]

/-- A loop that counts an index along with the values and replaces the elements with that index (pixel_tensor.hpp:63-75);
`.at` throws when there is no such element. -/
def fillWith {A B : Type} (f : A → B → Out B) : List B → List A → Out (List B)
  | bs, [] => .ok bs
  | [], _ :: _ => .throws
  | b :: bs, a :: as =>
    match f a b with
    | .ok b' => (fillWith f bs as).map fun bs' => b' :: bs'
    | .throws => .throws
    | .undefined => .undefined

/-- pixel_tensor.hpp:67-70 with `setVal` (159-161) -/
def fillRow (values : List (BitVec 32)) (row : List (BitVec 8)) : Out (List (BitVec 8)) :=
  fillWith (fun v _ => .ok (pixelStore v)) row values
/-- pixel_tensor.hpp:65-72 -/
def fillChannel (values : List (List (BitVec 32))) (ch : List (List (BitVec 8))) : Out (List (List (BitVec 8))) :=
  fillWith fillRow ch values

/-- pixel_tensor.hpp:61-76 (`pixelTensor`, tensor_utils.hpp:30-32): room is made for the shape of the first channel and its
first row. `values[0]` and `values[0][0]` are undefined when there is no such vector. -/
def ofNested (values : Data) : Out Bytes :=
  match values with
  | [] => .undefined
  | [] :: _ => .undefined
  | (row :: rows) :: rest => fillWith fillChannel (allocate (rows.length + 1) row.length (rest.length + 1)) values

end Verif.Pixel
