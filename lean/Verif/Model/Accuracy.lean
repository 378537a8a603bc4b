import Verif.Model.Encoders
import Verif.Model.Views

/-!
# Accuracy (`src/ml/neural_network.hpp`, 288-346)

`compute_binary_accuracy` and `compute_categorical_accuracy`. The records are those that `nextRecord` delivers after `restart`, in order. Predicting and decoding
are parameters that may throw. The two counters are `float`s that are incremented by one: they are exact up to 2^24, and there they stay, because 2^24 + 1 is
halfway between two `float`s and rounds back. Their quotient is exact here, and `none` for 0/0; the limit, an `int`, is compared without rounding it to `float`.
-/

namespace Verif.Accuracy
open Verif.Encoders (Out)

variable {T S F : Type}

/-- `total++` for a `float`, neural_network.hpp:309-313, 338-342. -/
def inc (x : Nat) : Nat := if x < 2 ^ 24 then x + 1 else x

/-- The loop over the records, neural_network.hpp:292-315 and 323-344, with `accuracy` and `total` so far; `judge` is the body up to `matched_all`. -/
def loop {R : Type} (judge : R → Out Bool) (limit : Int) : List R → Nat → Nat → Out (Nat × Nat)
  | [], accuracy, total => .ok (accuracy, total)
  | r :: rs, accuracy, total =>
    if limit < 0 ∨ (total : Int) < limit then
      match judge r with
      | .throws => .throws
      | .undefined => .undefined
      | .ok matched => loop judge limit rs (if matched then inc accuracy else accuracy) (inc total)
    else .ok (accuracy, total)

/-- `accuracy / total`, neural_network.hpp:316 and 345. -/
def ratio {R : Type} (judge : R → Out Bool) (limit : Int) (records : List R) : Out (Option ℚ) :=
  (loop judge limit records 0 0).map fun (a, t) => if t = 0 then none else some ((a : ℚ) / t)

/-- A record: what is given, and what is expected (training_pair.hpp). -/
structure Record (T : Type) where
  given : List T
  expected : List T

/-- neural_network.hpp:328-337: compares what the decoders make of the prediction and of the expected tensors, up to the first difference. Fewer tensors than
decoders are undefined behaviour. -/
def sameDecoded [DecidableEq S] : List (T → Out S) → List T → List T → Out Bool
  | [], _, _ => .ok true
  | d :: ds, p :: ps, a :: as =>
    match d p with
    | .throws => .throws
    | .undefined => .undefined
    | .ok x =>
      match d a with
      | .throws => .throws
      | .undefined => .undefined
      | .ok y => if x ≠ y then .ok false else sameDecoded ds ps as
  | _ :: _, _, _ => .undefined

/-- `compute_categorical_accuracy`, neural_network.hpp:319-346. -/
def categorical [DecidableEq S] (predict : List T → Out (List T)) (decoders : List (T → Out S)) (limit : Int) (records : List (Record T)) : Out (Option ℚ) :=
  ratio (fun r => match predict r.given with
    | .throws => .throws
    | .undefined => .undefined
    | .ok ps => sameDecoded decoders ps r.expected) limit records

/-- neural_network.hpp:302-307: compares the rounded values at the first `n` offsets of two tensors, from offset `j` on, up to the first difference. (Two
whole numbers are `roughlyEqual`, quarter_float.hpp:174-177, only if they are equal.) An offset behind the last element is an exception, as it is for a
`FullTensor`. -/
def sameRounded (rnd : F → Int) (p a : Tensor F) : Nat → Nat → Out Bool
  | 0, _ => .ok true
  | n + 1, j =>
    if p.size ≤ j ∨ a.size ≤ j then .throws
    else if rnd (Views.offsetGet p j) ≠ rnd (Views.offsetGet a j) then .ok false
    else sameRounded rnd p a n (j + 1)

/-- neural_network.hpp:299-308: all columns; `n` is `prediction.size()`. -/
def sameColumns (rnd : F → Int) (n : Nat) : Nat → List (Tensor F) → List (Tensor F) → Out Bool
  | 0, _, _ => .ok true
  | i + 1, p :: ps, a :: as =>
    match sameRounded rnd p a n 0 with
    | .throws => .throws
    | .undefined => .undefined
    | .ok b => (sameColumns rnd n i ps as).map (b && ·)
  | _ + 1, _, _ => .undefined

/-- `compute_binary_accuracy`, neural_network.hpp:288-317; `columns` is the number of expected shapes of the dataset, `rnd` is `std::round`. -/
def binary (rnd : F → Int) (predict : List (Tensor F) → Out (List (Tensor F))) (columns : Nat) (limit : Int) (records : List (Record (Tensor F))) : Out (Option ℚ) :=
  ratio (fun r => match predict r.given with
    | .throws => .throws
    | .undefined => .undefined
    | .ok ps => sameColumns rnd ps.length columns ps r.expected) limit records

end Verif.Accuracy
