import Verif.Model.TensorStats
import Verif.Model.QuarterFloat
import Verif.Model.Float32
import Mathlib.Data.List.Sort

/-!
# The recommended bias and offset (`src/util/tensor_stats.hpp`)

Continues `TensorStats`: the constructor with one thread. Values are exact rational numbers; the differences of floats in the ranges (lines 431-462) and the conversion of the offset to a float are not rounded here. Infinite and NaN elements are skipped by the code and do not
occur here. `bucket bias f` is `floatToQuarter(f, bias)` as an index. `none` is the undefined `front` of an empty vector.
-/
namespace Verif.TensorStats

/-- tensor_stats.hpp:17-19 `FIT_BIAS_FOR_100`, `FIT_BIAS_FOR_80`, `FIT_BIAS_FOR_50`; other integers are not modelled. -/
inductive Fit
  | hundred | eighty | fifty
  deriving DecidableEq

/-- The number of `QUARTER_MAX`, `quarterToFloat(QUARTER_MAX, bias)`, quarter_float.hpp:115-136; `QUARTER_MIN` is its negative, and
`calculateBiasRange(bias)`, quarter_float.hpp:166-170, twice this number. -/
def limit (bias : Int) : ℚ :=
  if bias ≤ 11 then ((15 * 2 ^ (11 - bias).toNat : Nat) : ℚ) else 15 / ((2 ^ (bias - 11).toNat : Nat) : ℚ)

/-- tensor_stats.hpp:532-540 `buildBagFromCounts`; no two entries have the same value, so the order is unique. -/
def buildBag (bag : Bag) : List (ℚ × Nat) :=
  (((List.range 256).map fun i => ((bag i).val, (bag i).count)).filter fun e => decide (e.2 > 0)).insertionSort fun a b => a.1 ≤ b.1

/-- The members `quarterValues` and `eightyValues`, tensor_stats.hpp:242-243. -/
structure Values where
  quarterValues : List ℚ
  eightyValues : List ℚ
  deriving DecidableEq

/-- tensor_stats.hpp:464-468 `bag` -/
def bagValues (elementCount : Nat) (bag : Bag) : Option Values := do
  let q ← quarters elementCount (buildBag bag)
  let e ← eighty elementCount (buildBag bag)
  some ⟨q, e⟩

/-- The common part of the three ranges, tensor_stats.hpp:431-462. -/
def spanOf (require0 : Bool) (low high : ℚ) : ℚ := if require0 then |max 0 high - min 0 low| else |high - low|

/-- tensor_stats.hpp:431-440 `q2ToQ3Range`, 442-451 `tenTo90Range`, 453-462 `fullRange`; `none` is the exception. -/
def rangeOf (fit : Fit) (require0 : Bool) (v : Values) : Option ℚ :=
  match fit with
  | .fifty => match v.quarterValues with
    | [_, q1, _, q3, _] => some (spanOf require0 q1 q3)
    | _ => none
  | .eighty => match v.eightyValues with
    | [_, e1, _, e3, _] => some (spanOf require0 e1 e3)
    | _ => none
  | .hundred => match v.quarterValues with
    | [q0, _, _, _, q4] => some (spanOf require0 q0 q4)
    | _ => none

/-- tensor_stats.hpp:416-429 `countElementsAndFindMinMax`: the number of elements, the smallest and the largest value of all 256 entries. -/
def countAndMinMax (bag : Bag) : Nat × ℚ × ℚ :=
  (((List.range 256).map fun i => (bag i).count).sum,
    ((List.range 255).map fun i => (bag (i + 1)).val).foldl min (bag 0).val,
    ((List.range 255).map fun i => (bag (i + 1)).val).foldl max (bag 0).val)

/-- tensor_stats.hpp:542-552 `bagAndCheckRangeForBiasGoal`: the answer and the values afterwards. -/
def bagAndCheck (fit : Fit) (require0 : Bool) (n : Nat) (bag : Bag) (bias : Int) (wide : ℚ) (v : Values) : Option (Bool × Values) :=
  if 2 * limit bias < wide then some (false, v)
  else do
    let v ← bagValues n bag
    let r ← rangeOf fit require0 v
    some (decide (r ≤ 2 * limit bias), v)

/-- tensor_stats.hpp:151-163, the choice of the bias among those still to be tried, with the values afterwards. -/
def chooseBias (fit : Fit) (require0 : Bool) (n : Nat) (bags : Int → Bag) (wide : ℚ) : List Int → Values → Option (Int × Values)
  | [], _ => do
    let v ← bagValues n (bags (-4))
    some (-4, v)
  | b :: rest, v => do
    let r ← bagAndCheck fit require0 n (bags b) b wide v
    if r.1 then some (b, r.2) else chooseBias fit require0 n bags wide rest r.2

/-- tensor_stats.hpp:165-187, the offset. -/
def offsetOf (fit : Fit) (require0 : Bool) (wide : ℚ) (v : Values) : Option ℚ :=
  match fit, v.quarterValues, v.eightyValues with
  | .eighty, _, [_, e1, e2, _, _] => some (if require0 then min 0 e1 + wide / 2 else e2)
  | .fifty, [_, q1, q2, _, _], _ => some (if require0 then min 0 q1 + wide / 2 else q2)
  | .hundred, _, e0 :: _ => some (if require0 then min 0 e0 + wide / 2 else e0 + wide / 2)
  | _, _, _ => none

/-- tensor_stats.hpp:111-140, the bag from which the wide range is computed: the most precise one whose range contains all values. -/
def firstBias (lo hi : ℚ) : Int :=
  if -limit 14 ≤ lo ∧ limit 14 ≥ hi then 14
  else if -limit 8 ≤ lo ∧ limit 8 ≥ hi then 8
  else if -limit 4 ≤ lo ∧ limit 4 ≥ hi then 4
  else if -limit 1 ≤ lo ∧ limit 1 ≥ hi then 1
  else -4

/-- tensor_stats.hpp:28-186, the constructor with a tensor of the given elements: `getRecommendedBias` and `getRecommendedOffset`. -/
def recommend (fit : Fit) (require0 : Bool) (bucket : Int → ℚ → Nat) (fs : List ℚ) : Option (Int × ℚ) := do
  let bags := fun bias => collect (bucket bias) fs
  let c := countAndMinMax (bags 14)
  let v ← bagValues c.1 (bags (firstBias c.2.1 c.2.2))
  let wide ← rangeOf fit require0 v
  let r ← chooseBias fit require0 c.1 bags wide [14, 8, 4, 1] v
  let offset ← offsetOf fit require0 wide r.2
  some (r.1, offset)

/-- The bucket of an element: the element is the nearest 32-bit float of `f` (the element itself, if it is one). -/
def codeOf (bias : Int) (f : ℚ) : Nat :=
  (QuarterFloat.floatToQuarter (F32.rounded (decide (f < 0)) (f.num.natAbs * 2 ^ 149) f.den).bits bias).toNat

end Verif.TensorStats
