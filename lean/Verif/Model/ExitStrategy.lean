import Mathlib.Algebra.Order.Field.Basic

/-!
The default exit strategy, `/repo/src/ml/exit_strategy.hpp`.

A `float` is modelled by `Num F`: a number of an arbitrary ordered field `F` with exact arithmetic, an infinity, or "not a
number". Rounding and overflow are not modelled; the infinities are needed because the lowest loss starts as INFINITY, and
"not a number" because `(loss - lowestLoss) / lowestLoss` is one while no finite loss was seen. Zero has no sign (a negative
zero as lowest loss would flip the sign of the infinite degradation).
-/
namespace Verif.ExitStrategy

/-- The values of a `float`. `inf true` is negative infinity. -/
inductive Num (F : Type) where
  | fin (x : F)
  | inf (negative : Bool)
  | nan
  deriving DecidableEq, Repr

namespace Num
variable {F : Type} [Field F] [LinearOrder F]

/-- `a <= b` -/
def le : Num F → Num F → Bool
  | .nan, _ => false
  | _, .nan => false
  | .inf true, _ => true
  | _, .inf false => true
  | .fin x, .fin y => decide (x ≤ y)
  | .inf false, _ => false
  | _, .inf true => false

/-- `a < b` -/
def lt : Num F → Num F → Bool
  | .nan, _ => false
  | _, .nan => false
  | .fin x, .fin y => decide (x < y)
  | .inf true, .inf true => false
  | .inf true, _ => true
  | _, .inf true => false
  | .inf false, _ => false
  | _, .inf false => true

def neg : Num F → Num F
  | .fin x => .fin (-x)
  | .inf n => .inf !n
  | .nan => .nan

/-- `a + b` -/
def add : Num F → Num F → Num F
  | .nan, _ => .nan
  | _, .nan => .nan
  | .fin x, .fin y => .fin (x + y)
  | .inf a, .inf b => if a = b then .inf a else .nan
  | .inf a, _ => .inf a
  | _, .inf b => .inf b

/-- `a - b` -/
def sub (a b : Num F) : Num F := add a (neg b)

/-- `a / b`, with an unsigned zero -/
def div : Num F → Num F → Num F
  | .nan, _ => .nan
  | _, .nan => .nan
  | .inf _, .inf _ => .nan
  | .fin _, .inf _ => .fin 0
  | .inf a, .fin y => .inf (a != decide (y < 0))
  | .fin x, .fin y =>
    if y = 0 then (if x = 0 then .nan else .inf (decide (x < 0))) else .fin (x / y)

/-- `std::min(a, b)`: `b` if it is smaller, otherwise `a` -/
def min (a b : Num F) : Num F := if lt b a then b else a

end Num

/-- exit_strategy.hpp:35-60, the constructor's arguments. `size_t` is a natural number; `int64_t` an integer. -/
structure Limits (F : Type) where
  patience : Nat
  maxElapsedTime : Int
  maxEpochs : Nat
  zeroPrecisionTolerance : Num F
  improvementTolerance : Num F
  minEpochs : Nat
  maxDegradationTolerance : Num F

/-- exit_strategy.hpp:127-128, the two members that change. -/
structure State (F : Type) where
  lowestLoss : Num F
  lowestLossEpoch : Nat
  deriving DecidableEq

/-- exit_strategy.hpp:58-59 -/
def initial {F : Type} : State F := ⟨.inf false, 0⟩

variable {F : Type} [Field F] [LinearOrder F]

/-- exit_strategy.hpp:70 and 92 -/
def degradation (s : State F) (loss : Num F) : Num F := (loss.sub s.lowestLoss).div s.lowestLoss

/-- exit_strategy.hpp:63-68: the update of the lowest loss. `none`: the "IMPOSSIBLE" exception. -/
def record (l : Limits F) (s : State F) (epoch : Nat) (loss : Num F) : Option (State F) :=
  if (loss.add l.improvementTolerance).le s.lowestLoss then some ⟨loss.min s.lowestLoss, epoch⟩
  else if s.lowestLossEpoch > epoch then none
  else some s

/-- exit_strategy.hpp:62-79 `isDone`: the answer and the new state. The subtraction at line 71 cannot wrap after `record`. -/
def isDone (l : Limits F) (s : State F) (epoch : Nat) (loss : Num F) (elapsed : Int) : Option (Bool × State F) :=
  match record l s epoch loss with
  | none => none
  | some s =>
    some (decide (epoch ≥ l.minEpochs) &&
      (decide (epoch ≥ l.maxEpochs) ||
        l.maxDegradationTolerance.le (degradation s loss) ||
        decide (elapsed ≥ l.maxElapsedTime) ||
        decide (epoch - s.lowestLossEpoch ≥ l.patience) ||
        loss.le l.zeroPrecisionTolerance), s)

/-- The texts of `whyDone`, without the numbers printed in them. -/
inductive Reason where
  | shouldNotBeDone
  | maximumEpochs
  | degradation
  | elapsedTime
  | patience
  | zeroLoss
  | unknown
  deriving DecidableEq, Repr

/-- exit_strategy.hpp:81-119 `whyDone`. The subtraction at line 104 is on `size_t`; it is modelled by natural subtraction, which
agrees whenever `lowestLossEpoch ≤ epoch` (as after `isDone` for the same epoch). -/
def whyDone (l : Limits F) (s : State F) (epoch : Nat) (loss : Num F) (elapsed : Int) : Reason :=
  if epoch < l.minEpochs then .shouldNotBeDone
  else if epoch ≥ l.maxEpochs then .maximumEpochs
  else if l.maxDegradationTolerance.le (degradation s loss) then .degradation
  else if elapsed ≥ l.maxElapsedTime then .elapsedTime
  else if epoch - s.lowestLossEpoch ≥ l.patience then .patience
  else if loss.le l.zeroPrecisionTolerance then .zeroLoss
  else .unknown

/-- The state after `isDone` was called for the epochs `epoch`, `epoch + 1`, ... with the given losses, as the loop at
neural_network.hpp:443-559 does. `none`: an exception. -/
def history (l : Limits F) : State F → Nat → List (Num F) → Option (State F)
  | s, _, [] => some s
  | s, epoch, loss :: rest =>
    match record l s epoch loss with
    | none => none
    | some s => history l s (epoch + 1) rest

end Verif.ExitStrategy
