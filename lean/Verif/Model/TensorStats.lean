import Mathlib.Algebra.Order.Ring.Rat

/-!
# Tensor statistics (`src/util/tensor_stats.hpp`)

Values are exact rational numbers (the code holds floats in doubles, which is exact); infinite and NaN elements are
skipped by the code (lines 284-286) and do not occur here.  Counts are natural numbers (doubles in the code, exact below
`2^53`).  A bag is one of the five arrays of 256 entries; the five are handled alike, so one with an arbitrary
function from values to entries stands for each (`floatToQuarter` with a fixed bias, C03-C05).  The choice of the
recommended bias and offset from these values is modelled in `Recommend`.
-/

namespace Verif.TensorStats

/-- One entry of a bag: the value that stands for it and the number of elements. -/
structure Entry where
  val : ℚ
  count : Nat
  deriving DecidableEq, Repr

/-- `array<array<double, 2>, 256>`; the entries of other indices are never touched. -/
abbrev Bag := Nat → Entry

/-- The zero-initialised bag, src/util/tensor_stats.hpp:255. -/
def emptyBag : Bag := fun _ => ⟨0, 0⟩

/-- `addToBag`, src/util/tensor_stats.hpp:265-276. -/
def addToBag (bucket : ℚ → Nat) (bag : Bag) (f : ℚ) : Bag := fun i =>
  if i = bucket f then
    let old := (bag i).val
    { val := if (f > 0 ∧ f > old) ∨ (f < 0 ∧ f < old) ∨ f = 0 then f else old, count := (bag i).count + 1 }
  else bag i

/-- The part of a row or column that one thread collects, src/util/tensor_stats.hpp:299-302 and 356-359; also the
single-threaded collection, lines 62-68. -/
def collect (bucket : ℚ → Nat) (fs : List ℚ) : Bag := fs.foldl (addToBag bucket) emptyBag

/-- The merge of one entry, src/util/tensor_stats.hpp:305-312 (the same in every copy of the loop, 313-348 and
361-408). -/
def mergeEntry (shared part : Entry) : Entry :=
  { val := if part.val = 0 ∨ (part.val < 0 ∧ part.val < shared.val) ∨ (part.val > 0 ∧ part.val > shared.val)
      then part.val else shared.val
    count := shared.count + part.count }

/-- The merge of a thread's bag into the shared one, under a lock. -/
def merge (shared part : Bag) : Bag := fun i => mergeEntry (shared i) (part i)

/-- The result for one order in which the threads take the lock. -/
def mergeAll (parts : List Bag) : Bag := parts.foldl merge emptyBag

/-! ## Quantiles -/

/-- The inner loop of `calculateQuarters`, src/util/tensor_stats.hpp:515-523; `fuel` bounds the values still missing. -/
def quarterPush (size : Nat) (v : ℚ) (current : Nat) : Nat → Nat → List ℚ → List ℚ × Nat
  | 0, next, acc => (acc, next)
  | fuel + 1, next, acc =>
    if current ≥ next then
      let acc := acc ++ [v]
      if acc.length = 4 then (acc, next) else quarterPush size v current fuel (next + size) acc
    else (acc, next)

/-- The outer loop of `calculateQuarters`, src/util/tensor_stats.hpp:511-527. -/
def quarterLoop (size : Nat) : List (ℚ × Nat) → Nat → Nat → List ℚ → List ℚ
  | [], _, _, acc => acc
  | e :: rest, current, next, acc =>
    let current := current + e.2
    let r := quarterPush size e.1 current 4 next acc
    if r.1.length = 4 then r.1 else quarterLoop size rest current r.2 r.1

/-- `calculateQuarters`, src/util/tensor_stats.hpp:504-530, for the sorted non-empty entries; `none` is the undefined
`front` of an empty vector. -/
def quarters (elementCount : Nat) (bag : List (ℚ × Nat)) : Option (List ℚ) :=
  match bag with
  | [] => none
  | e :: rest =>
    let size := elementCount / 4
    some (quarterLoop size (e :: rest) 0 size [e.1] ++ [((e :: rest).getLast (by simp)).1])

/-- The loop of `calculateEightyPercent`, src/util/tensor_stats.hpp:486-498. -/
def eightyLoop (ten fifty ninety : Nat) : List (ℚ × Nat) → Nat → List ℚ → List ℚ
  | [], _, acc => acc
  | e :: rest, current, acc =>
    let current := current + e.2
    if acc.length = 3 ∧ current ≥ ninety then acc ++ [e.1]
    else
      let acc := if acc.length = 2 ∧ current ≥ fifty then acc ++ [e.1]
        else if acc.length = 1 ∧ current > ten then acc ++ [e.1] else acc
      eightyLoop ten fifty ninety rest current acc

/-- `calculateEightyPercent`, src/util/tensor_stats.hpp:470-502.  `elementCount * 0.5` and `* 0.9` are computed in
doubles and never smaller than the other operand of `min` (up to rounding, which is not modelled), so they are floors
of exact products here.  An empty bag leaves the values as they are, which is `none` here. -/
def eighty (elementCount : Nat) (bag : List (ℚ × Nat)) : Option (List ℚ) :=
  match bag with
  | [] => none
  | e :: rest =>
    if elementCount = 0 then none
    else
      let ten := elementCount / 10
      let fifty := min (elementCount / 2) (5 * ten)
      let ninety := min (elementCount * 9 / 10) (9 * ten)
      let acc := eightyLoop ten fifty ninety (e :: rest) 0 [e.1]
      some (acc ++ List.replicate (5 - acc.length) ((e :: rest).getLast (by simp)).1)

end Verif.TensorStats
