import Verif.Model.FloatBits
import Verif.Model.BinaryDataset
import Verif.Model.Encoders

/-!
What eight bits can keep of a brightness. A float is given by its bits; `value` is its number in units of `2^-149`, so that
`2^149` units are 1.0. A step is a 255th.
-/
namespace Verif.Pixel
open Verif.FloatBits

/-- A number, or an infinity. -/
def IsNumber (v : BitVec 32) : Prop := isNaN v = false
instance (v : BitVec 32) : Decidable (IsNumber v) := inferInstanceAs (Decidable (_ = _))

/-- `w` is at most about one step darker than `v` and hardly brighter (all in 255ths of a unit; `2^133` of these are `2^-16`
of a step). -/
def Close (v w : BitVec 32) : Prop :=
  255 * value v < 255 * value w + 2 ^ 149 + 2 ^ 133 ∧ 255 * value w ≤ 255 * value v + 2 ^ 133
instance (v w : BitVec 32) : Decidable (Close v w) := inferInstanceAs (Decidable (_ ∧ _))

/-- No channel has more rows than the first one, and no row is longer than the first one. -/
def Fits (values : BinaryDataset.Data) : Prop :=
  ∀ ch ∈ values, ch.length ≤ values.tensor.rows ∧ ∀ row ∈ ch, row.length ≤ values.tensor.cols

/-- A value that was given, black where none was given. -/
def given (values : BinaryDataset.Data) (r c k : Nat) : BitVec 32 := ((((values[k]?).getD [])[r]?).getD [])[c]?.getD 0#32

end Verif.Pixel
