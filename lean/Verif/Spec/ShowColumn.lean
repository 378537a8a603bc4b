import Verif.Spec.PrintRow
import Mathlib.Data.Rat.Defs

/-!
The number that a text denotes: a decimal number with three decimals and at most a minus sign.
-/
namespace Verif.ShowColumn
open Verif.TextCodec Verif.Decimal

def Says (s : Str) (q : ℚ) : Prop :=
  ∃ w f, w ≠ [] ∧ (∀ c ∈ w, Csv.isDigit c = true) ∧ (∀ c ∈ f, Csv.isDigit c = true) ∧ f.length = 3 ∧
    ((s = w ++ 46 :: f ∧ q = (digitsValue (w ++ f) : ℚ) / 1000) ∨ (s = 45 :: (w ++ 46 :: f) ∧ q = -((digitsValue (w ++ f) : ℚ) / 1000)))

end Verif.ShowColumn
