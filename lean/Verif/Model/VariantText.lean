import Verif.Model.Decimal
import Mathlib.Data.Nat.Log

/-!
# How a value given in a script is turned into text (`src/lang/happyml_variant.hpp` 56-80)

A float is printed with the stream's default format, which the C++ standard defines as `printf` with `%g`: six significant digits, trailing zeros removed,
and an exponent if the number is at least 10⁶ or below 10⁻⁴. The value of a finite float is `units / 2^149`. To stay in the naturals, decimal exponents are
counted from 10⁻⁴⁵: the smallest positive float is 1.4·10⁻⁴⁵.
-/

namespace Verif.VariantText
open Verif.TextCodec Verif.FloatBits Verif.FloatArith Verif.Decimal

/-- The six significant digits of `a / b` as one integer if its first digit counts 10^(l - 45): the number times 10^(50 - l), rounded to the nearest
integer (the library behind happyml_variant.hpp 61-63, as for the next definitions). -/
def digits6 (a b l : Nat) : Nat := nearest (a * 10 ^ 50) (b * 10 ^ l)

/-- The decimal exponent (plus 45) of `a / b` as `%e` prints it: that of the first digit, one more if rounding carries into a new digit. -/
def exponent (a b : Nat) : Nat :=
  let l := Nat.log 10 (a * 10 ^ 45 / b)
  if digits6 a b l = 10 ^ 6 then l + 1 else l

/-- `%g` removes trailing zeros of the fraction. -/
def dropZeros (s : Str) : Str := (s.reverse.dropWhile (· = 48)).reverse

/-- The point and the fraction; no point if no digit is left. -/
def fraction (s : Str) : Str := if dropZeros s = [] then [] else 46 :: dropZeros s

/-- An exponent (plus 45) as `%e` prints it: sign and at least two digits. -/
def exponentText (l : Nat) : Str :=
  let k := if 45 ≤ l then l - 45 else 45 - l
  101 :: (if 45 ≤ l then 43 else 45) :: padded 2 k

/-- `%g` of a positive number `a / b`. -/
def positive (a b : Nat) : Str :=
  let l := exponent a b
  let n := digits6 a b l
  if 41 ≤ l ∧ l ≤ 50 then dec (n / 10 ^ (50 - l)) ++ fraction (padded (50 - l) (n % 10 ^ (50 - l)))
  else dec (n / 10 ^ 5) ++ fraction (padded 5 (n % 10 ^ 5)) ++ exponentText l

/-- `out << float_value_`, happyml_variant.hpp 61-63. -/
def general (x : BitVec 32) : Str :=
  (if neg x then [45] else []) ++
    if isNaN x then [110, 97, 110]
    else if isInf x then [105, 110, 102]
    else if magUnits (expo x) (frac x) = 0 then [48]
    else positive (magUnits (expo x) (frac x)) (2 ^ 149)

/-- The kinds of values a script can give, happyml_variant.hpp 12-30 and parser.hpp 349-355, 367-373: a `_number` token is read with `stof`, any other token is
kept as text. Simplification: integers, truth values and the empty variant, which no script makes, are left out. -/
inductive Variant
  | number (x : BitVec 32)
  | text (s : Str)
  deriving DecidableEq

/-- `HappyMLVariant::to_string`, happyml_variant.hpp 76-80. -/
def Variant.toText : Variant → Str
  | .number x => general x
  | .text s => s

/-- What the parser makes of a `_number` token, parser.hpp 349-350 and 367-368; `none` is an exception of `stof`. -/
def numberToken (s : Str) : Option Variant := (stof s).map .number

end Verif.VariantText
