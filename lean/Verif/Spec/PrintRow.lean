import Verif.Model.Decimal

/-!
What a printed number means, without looking at how it is printed.
-/
namespace Verif.PrintRow
open Verif.TextCodec Verif.FloatBits Verif.Decimal

/-- The text is a decimal number with exactly three decimals and at most a minus sign, and differs from the value of the float by at most half a thousandth. -/
def Shows (s : Str) (x : BitVec 32) : Prop :=
  ∃ w f, s = (if neg x then [45] else []) ++ w ++ 46 :: f ∧ w ≠ [] ∧ (∀ c ∈ w, Csv.isDigit c = true) ∧ (∀ c ∈ f, Csv.isDigit c = true) ∧ f.length = 3 ∧
    2 * (magUnits (expo x) (frac x) * 1000) ≤ 2 * (digitsValue (w ++ f) * 2 ^ 149) + 2 ^ 149 ∧
    2 * (digitsValue (w ++ f) * 2 ^ 149) ≤ 2 * (magUnits (expo x) (frac x) * 1000) + 2 ^ 149

/-- Texts with a separator between them. -/
def joined (sep : Str) : List Str → Str
  | [] => []
  | [s] => s
  | s :: t :: ss => s ++ sep ++ joined sep (t :: ss)

end Verif.PrintRow
