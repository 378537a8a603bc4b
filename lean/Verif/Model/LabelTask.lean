import Mathlib.Algebra.Order.Ring.Rat

/-!
# The search of `create_label_task` (`src/util/task_utils.hpp`)

Training one combination of complexity and learning-rate factor is an oracle indexed by the number of the attempt and
by whether the complete data was used: `none` if it throws, else the accuracy and the final test loss.  Complexities, factors, losses and accuracies are
exact rational numbers, without NaN; the loss of a failed attempt is infinity in the code and `none` here.
`std::sort` is not stable, so its result is any sorted permutation.  Files, messages and the networks themselves are
left out: what is saved (line 644) is the network of the last attempt, which is identified by its number.
-/

namespace Verif.LabelTask

/-- A combination to try: `pair<double, float>`, src/util/task_utils.hpp:489. -/
structure Pair where
  complexity : ℚ
  rate : ℚ
  deriving DecidableEq, Repr

/-- `TrainingResult` (src/ml/neural_network.hpp:19-56), as far as the search looks at it. -/
structure Res where
  accuracy : ℚ
  loss : Option ℚ
  complexity : ℚ
  rate : ℚ
  deriving DecidableEq, Repr

/-- What the environment contributes: the outcome of every attempt and the choice of `std::sort`. -/
structure World where
  outcome : Bool → Nat → Option (ℚ × ℚ)
  sort : List Res → List Res

/-- `attempt_training_with_logging`, src/util/task_utils.hpp:340-388: an exception gives the default result, whose
complexity and factor are zero. -/
def attemptTraining (w : World) (complete : Bool) (attempt : Nat) (p : Pair) : Res :=
  match w.outcome complete attempt with
  | some (acc, loss) => { accuracy := acc, loss := some loss, complexity := p.complexity, rate := p.rate }
  | none => { accuracy := 0, loss := none, complexity := 0, rate := 0 }

/-- `a.final_test_loss < b.final_test_loss`. -/
def lossLess : Option ℚ → Option ℚ → Bool
  | some a, some b => decide (a < b)
  | some _, none => true
  | none, _ => false

/-- The comparison of the sort, src/util/task_utils.hpp:575-577. -/
def before (a b : Res) : Bool :=
  decide (a.accuracy > b.accuracy) || (decide (a.accuracy = b.accuracy) && lossLess a.loss b.loss)

/-- The contract of `std::sort`. -/
def IsSorted (l out : List Res) : Prop := out.Perm l ∧ out.Pairwise fun a b => before b a = false

/-- The loop over the combinations, src/util/task_utils.hpp:537-570: stops at the first attempt that reaches the
target on the complete data.  Result: the results so far, the number of the last attempt, and whether it was found. -/
def tryPairs (w : World) (target : ℚ) (usingSource : Bool) : List Pair → Nat → List Res → List Res × Nat × Bool
  | [], attempt, results => (results, attempt, false)
  | p :: rest, attempt, results =>
    let attempt := attempt + 1
    let r := attemptTraining w usingSource attempt p
    let results := results ++ [r]
    if usingSource && decide (r.accuracy ≥ target) then (results, attempt, true)
    else tryPairs w target usingSource rest attempt results

/-- The eight combinations tried around the last one, src/util/task_utils.hpp:618-627. -/
def neighbours (p : Pair) : List Pair :=
  [⟨p.complexity, p.rate⟩, ⟨p.complexity / (11 / 10), p.rate⟩, ⟨p.complexity * 2, p.rate⟩, ⟨p.complexity / 2, p.rate⟩,
   ⟨p.complexity / (11 / 10), p.rate - 1 / 2⟩, ⟨p.complexity, p.rate - 1 / 2⟩, ⟨p.complexity, p.rate - 5 / 2⟩,
   ⟨p.complexity, p.rate / 2⟩]

/-- What happens after a round without success. -/
inductive Next where
  | ub
  | giveUp
  | go (pairs : List Pair)

/-- The choice of the combinations for the next round, src/util/task_utils.hpp:585-635, given the sorted results;
undefined behaviour is `front` of an empty vector. -/
def nextPairs (usingSource : Bool) (retries : Nat) (sorted : List Res) (pairs : List Pair) : Next :=
  if sorted.length > 1 then
    let top := if usingSource then 1 else max (sorted.length / 4) 2
    let kept := sorted.take top
    .go (pairs.filter fun p => kept.any fun r => decide (r.complexity = p.complexity) && decide (r.rate = p.rate))
  else if usingSource then
    if retries < 3 then
      match pairs with
      | [] => .ub
      | p :: _ => .go (neighbours p)
    else .giveUp
  else .go pairs

/-- How the search ends: undefined behaviour, or the network of an attempt is saved. -/
inductive Outcome where
  | ub
  | saved (attempt : Nat)
  deriving DecidableEq, Repr

/-- The main loop, src/util/task_utils.hpp:512-644, with `fuel` rounds; `none` if it needs more.  `records` is
`dataSource->recordCount()`, `size` is `next_search_size`.  `retries` (513) belongs to the body of the loop, so it is 0
in every round; the increment at line 616 is lost. -/
def searchLoop (w : World) (target : ℚ) (records : Nat) : Nat → List Pair → Nat → Nat → Option Outcome
  | 0, _, _, _ => none
  | fuel + 1, pairs, size, attempt =>
    let retries := 0
    let usingSource := decide (size + 1 ≥ records)
    match tryPairs w target usingSource pairs attempt [] with
    | (_, attempt, true) => some (.saved attempt)
    | (results, attempt, false) =>
      match nextPairs usingSource retries (w.sort results) pairs with
      | .ub => some .ub
      | .giveUp => some (.saved attempt)
      | .go pairs =>
        let size := if pairs.length > 2 ∧ size < records then size * 2 else records
        searchLoop w target records fuel pairs size attempt

/-- `target_accuracy`, src/util/task_utils.hpp:482. -/
def targetAccuracy : ℚ := 9 / 10

/-- The search, src/util/task_utils.hpp:509-644, for a shuffled list of combinations. -/
def search (w : World) (records fuel : Nat) (pairs : List Pair) : Option Outcome :=
  searchLoop w targetAccuracy records fuel pairs 640 0

/-- The learning-rate factors from `r` in steps of `step`, src/util/task_utils.hpp:495-499. -/
def ratesFrom (step maxRate : ℚ) : Nat → ℚ → List ℚ
  | 0, _ => []
  | fuel + 1, r => if r ≤ maxRate then r :: ratesFrom step maxRate fuel (r + step) else []

/-- The combinations before they are shuffled, src/util/task_utils.hpp:493-501. -/
def combosFrom (rates : List ℚ) (maxComplexity : ℚ) : Nat → ℚ → List Pair
  | 0, _ => []
  | fuel + 1, c =>
    if c ≤ maxComplexity then rates.map (fun r => ⟨c, r⟩) ++ combosFrom rates maxComplexity fuel (c * (5 / 4)) else []

/-- All combinations for a goal, src/util/task_utils.hpp:459, 489-503. -/
def combos (speed : Bool) : List Pair :=
  if speed then combosFrom (ratesFrom 2 8 100 4) 8 100 1 else combosFrom (ratesFrom 1 15 100 0) 12 100 1

end Verif.LabelTask
