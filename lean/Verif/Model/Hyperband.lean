import Mathlib.Order.Defs.LinearOrder

/-!
# Hyperparameter search (`src/ml/hyperband/*.hpp`)

Training a configuration is an oracle: the metric that comes out of it, `none` for NaN, is arbitrary for every
round and every place in the list of configurations.  Metrics are elements of a linear order.  The parallel
evaluation (`hyperband.hpp:32-36`) ends with each result entering the evaluator under a lock
(`configuration_evaluator.hpp:51-58`), so a round is any order of the results; likewise any list allowed by the
contract of `std::partial_sort` may come out of an elimination.  Messages, the folder of the stored models and
exceptions thrown by training are not modelled.
-/

namespace Verif.Hyperband

/-- `Hyperparameters`, src/ml/hyperband/hyperband_space.hpp:16-31, as far as the search looks at them: the
parameters themselves are of an arbitrary type. -/
structure Config (C F : Type) where
  params : C
  metric : Option F
  minimize : Bool
  deriving DecidableEq

variable {C F : Type} [LinearOrder F]

/-- `a < b` for floats where `none` is NaN: every comparison with NaN is false. -/
def less : Option F → Option F → Bool
  | some a, some b => decide (a < b)
  | _, _ => false

/-- The best configuration so far: `best_configuration_` and `best_evaluation_metric_`,
src/ml/hyperband/configuration_evaluator.hpp:99-100. -/
abbrev Best (C F : Type) := Option (C × Option F)

/-- `updateBestConfiguration`, src/ml/hyperband/configuration_evaluator.hpp:250-262. -/
def updateBest (minimize : Bool) (best : Best C F) (c : Config C F) : Best C F :=
  match best with
  | none => some (c.params, c.metric)
  | some b =>
    if (minimize && less c.metric b.2) || (!minimize && less b.2 c.metric) then some (c.params, c.metric) else some b

/-- The test for stopping early, src/ml/hyperband/hyperband.hpp:38-43.  Before any evaluation the best metric is
minus infinity (configuration_evaluator.hpp:28). -/
def goodEnough (minimize : Bool) (target : F) : Best C F → Bool
  | none => minimize
  | some b => (minimize && less b.2 (some target)) || (!minimize && less (some target) b.2)

/-- The comparison passed to `partial_sort`, src/ml/hyperband/hyperband.hpp:76-80: true if `a` is worse. -/
def comesFirst (a b : Config C F) : Bool :=
  (a.minimize && less b.metric a.metric) || (!a.minimize && less a.metric b.metric)

/-- The contract of `std::partial_sort` for a strict weak ordering `comesFirst`: a permutation whose first `k`
elements are in order and are not preceded by any of the others. -/
def IsPartialSort (k : Nat) (l out : List (Config C F)) : Prop :=
  out.Perm l ∧ ∀ i j a b, i < j → i < k → out[i]? = some a → out[j]? = some b → comesFirst b a = false

/-- `evaluateConfiguration` for one round, src/ml/hyperband/configuration_evaluator.hpp:48-60 and 250-252: every
configuration gets the metric of its training. -/
def evaluated (minimize : Bool) (metric : Nat → Option F) (configs : List (Config C F)) : List (Config C F) :=
  configs.mapIdx fun i c => { c with metric := metric i, minimize := minimize }

/-- What the environment contributes: the metrics, the order in which threads deliver them, and the choice
`partial_sort` makes among the results its contract allows. -/
structure World (C F : Type) where
  metric : Nat → Nat → Option F
  order : Nat → List (Config C F) → List (Config C F)
  sort : Nat → Nat → List (Config C F) → List (Config C F)

/-- The outcome of the search: undefined behaviour, or the best configuration together with the resources and
the number of configurations of every round and everything that was evaluated. -/
inductive Result (C F : Type) where
  | ub
  | done (best : Best C F) (rounds : List (Int × Nat)) (seen : List (Config C F))

/-- `allocated_resources`, src/ml/hyperband/hyperband.hpp:29; `none` if the conversion of the power to `int`
overflows or the division is by zero.  The power is computed in doubles, which is exact below `2^53`. -/
def resources (maxResources reductionFactor : Int) (round : Nat) : Option Int :=
  let p := reductionFactor ^ round
  if p ≥ 2 ^ 31 ∨ p < -2 ^ 31 then none
  else if p = 0 then none
  else some (max 2 (Int.tdiv maxResources p))

/-- The loop of `run`, src/ml/hyperband/hyperband.hpp:28-49, with `fuel` rounds; `none` if it needs more.
`eliminateConfigurations` (73-83) divides as a signed number, the new count (46) as an unsigned one.  A NaN
makes the comparison of `partial_sort` no strict weak ordering, which is undefined. -/
def runLoop (w : World C F) (minimize : Bool) (target : F) (maxResources reductionFactor : Int) :
    Nat → Nat → Nat → List (Config C F) → Best C F → List (Int × Nat) → List (Config C F) → Option (Result C F)
  | fuel, num, round, configs, best, rounds, seen =>
    if num ≤ 1 then some (.done best rounds seen)
    else
      match fuel with
      | 0 => none
      | fuel + 1 =>
        match resources maxResources reductionFactor round with
        | none => some .ub
        | some res =>
          let results := evaluated minimize (w.metric round) configs
          let best := (w.order round results).foldl (updateBest minimize) best
          let rounds := rounds ++ [(res, num)]
          let seen := seen ++ results
          if goodEnough minimize target best then some (.done best rounds seen)
          else if reductionFactor ≤ 0 then some .ub
          else if results.any (fun c => c.metric.isNone) then some .ub
          else
            let k := num / reductionFactor.toNat
            if configs.length < k then some .ub
            else
              let kept := (w.sort round k results).take k
              runLoop w minimize target maxResources reductionFactor fuel k (round + 1) kept best rounds seen

/-- The number of configurations to start with, src/ml/hyperband/hyperband.hpp:23-25; `-1` is the largest value
of `size_t`. -/
def initialCount (space requested : Nat) : Nat :=
  if requested = 2 ^ 64 - 1 ∨ requested > space then min space (max 10 (space / 10000)) else requested

/-- `run`, src/ml/hyperband/hyperband.hpp:21-52, up to loading the best model; `configs` are the configurations
that `generateInitialConfigurations` (61-71) drew. -/
def run (w : World C F) (minimize : Bool) (target : F) (maxResources reductionFactor : Int)
    (fuel : Nat) (configs : List (Config C F)) : Option (Result C F) :=
  runLoop w minimize target maxResources reductionFactor fuel configs.length 0 configs none [] []

/-- The model `run` returns, src/ml/hyperband/hyperband.hpp:50-57 with `getBestModel`
(configuration_evaluator.hpp:80-84): loading a model without a name throws, which `run` turns into null. -/
def returned : Result C F → Option C
  | .ub => none
  | .done best _ _ => best.map (·.1)

/-! ## The space of configurations -/

/-- The loop that removes batch sizes, src/ml/hyperband/hyperband_space.hpp:75-80: after an erasure the index is
stepped back. `fuel` bounds the iterations; each one moves on or shortens the list. -/
def removeLoop (maxBatch : Int) : Nat → Nat → List Int → List Int
  | 0, _, l => l
  | fuel + 1, i, l =>
    match l[i]? with
    | none => l
    | some b => if b > maxBatch ∧ b > 1 then removeLoop maxBatch fuel i (l.eraseIdx i) else removeLoop maxBatch fuel (i + 1) l

/-- `batch_size_space` after the constructor, src/ml/hyperband/hyperband_space.hpp:73-80. -/
def batchSizes (maxBatch : Int) : List Int := removeLoop maxBatch 8 0 [32, 64, 128, 1, 256, 512, 1024]

/-- `getNumConfigurations`, src/ml/hyperband/hyperband_space.hpp:100-105, with the sizes of the lists set in the
constructor (67-85). -/
def numConfigurations (maxBatch : Int) : Nat :=
  11 * 11 * 8 * 14 * 7 * 14 * (batchSizes maxBatch).length * 2 * 2 * 2 * 2

/-! ## Drawing configurations -/

/-- The loop of `generateRandomConfiguration`, src/ml/hyperband/hyperband_random_search.hpp:24-32; `draws` are the
configurations that come out of the generator one after the other (a stream), `attempts` is `maxAttempts`.
Result: the configuration and the draws that are left. -/
def redraw {D : Type} [DecidableEq D] (used : List D) : Nat → D → (Nat → D) → Nat → D × Nat
  | 0, c, _, n => (c, n)
  | attempts + 1, c, draws, n =>
    if c ∈ used then redraw used attempts (draws n) draws (n + 1) else (c, n)

/-- `generateRandomConfiguration`, src/ml/hyperband/hyperband_random_search.hpp:19-35.  `n` counts the draws made so
far. -/
def generate {D : Type} [DecidableEq D] (used : List D) (draws : Nat → D) (n : Nat) : D × Nat :=
  redraw used 1000 (draws n) draws (n + 1)

/-- `generateInitialConfigurations`, src/ml/hyperband/hyperband.hpp:61-71. -/
def generateAll {D : Type} [DecidableEq D] (draws : Nat → D) : Nat → List D → Nat → List D
  | 0, used, _ => used
  | k + 1, used, n =>
    let (c, n') := generate used draws n
    generateAll draws k (used ++ [c]) n'

/-! ## The budget of one configuration -/

/-- The part of an exit strategy a budget sets: patience, time and epochs. -/
structure Budget where
  patience : Nat
  maxTime : Int
  maxEpochs : Int
  deriving DecidableEq, Repr

/-- A network as far as its exit strategy goes: the constructor installs the default one
(src/ml/neural_network.hpp:158, 171-179). -/
structure Network where
  budget : Budget

/-- `trainModel`, src/ml/hyperband/configuration_evaluator.hpp:213-233: builds an exit strategy from the allotted
resources and then trains; the strategy is not handed to the network.  The result is the budget that training
used. -/
def trainModel (net : Network) (allocated : Int) (maxEpochs maxTime : Int) : Budget :=
  let patience : Nat := if allocated < 1 then 20 else allocated.toNat
  let _exitStrategy : Budget := { patience := patience, maxTime := maxTime, maxEpochs := maxEpochs }
  net.budget

end Verif.Hyperband
