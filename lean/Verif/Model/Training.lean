import Verif.Model.ExitStrategy

/-!
The training loop, `/repo/src/ml/neural_network.hpp` lines 372-624.

The network is a parameter (`Net`): what the layers compute is modelled elsewhere. Progress output and the fields of the result that
are not listed in `Result` are left out. `int batchSize` is an integer, compared with a `size_t` as C++ does.
-/
namespace Verif.Training
open Verif.ExitStrategy (Num Limits State)
variable {N R K F : Type} [Field F] [LinearOrder F]

/-- What `train` uses of a network with state `N` (weights, pending errors, optimizer) on records `R`. -/
structure Net (N R K F : Type) where
  /-- line 455: `optimizer->update_time_step()` -/
  beginEpoch : N → N
  /-- lines 464-484: predict one record for training and send the loss derivatives back; also the losses of the outputs -/
  learn : N → R → N × List (Num F)
  /-- lines 491-493: `apply` for every output node -/
  update : N → N
  /-- lines 598-608: the losses of the outputs for one record, without training -/
  losses : N → R → List (Num F)
  /-- what `saveKnowledge` writes -/
  snapshot : N → K
  /-- what `loadKnowledge` makes of the state -/
  restore : N → K → N

/-- The ways a training can end. `undefined` is a division by zero; `unfinished` means that the fuel of the loop ran out. -/
inductive Out (α : Type) where
  | ok (a : α)
  | throws
  | undefined
  | unfinished
  deriving DecidableEq

/-- The sum `x + a + b + ...` in order -/
def total (x : Num F) (l : List (Num F)) : Num F := l.foldl Num.add x

/-- lines 469, 481 and 485, also 601-610: the losses of the outputs added up from zero and divided by their number -/
def recordLoss (l : List (Num F)) : Num F := (total (.fin 0) l).div (.fin (l.length : F))

def isNan : Num F → Bool
  | .nan => true
  | _ => false

/-- lines 462-507, the loop over the records of an epoch. `current` is `current_record`, `offset` is `batchOffset`. The division
at line 490 is an integer division (its `ceil` has no effect). -/
def epochLoop (net : Net N R K F) (batchSize : Nat) : N → Nat → Nat → Num F → Num F → List R → Out (N × Num F)
  | n, _, _, _, epochLoss, [] => .ok (n, epochLoss)
  | n, current, offset, batchLoss, epochLoss, r :: rest =>
    let (n, losses) := net.learn n r
    if losses.any isNan then .throws
    else
      let batchLoss := batchLoss.add (recordLoss losses)
      if offset + 1 ≥ batchSize ∨ rest.isEmpty then
        if batchSize = 0 then .undefined
        else
          let currentBatch := (current + 1) / batchSize
          let mean := batchLoss.div (.fin ((offset + 1 : Nat) : F))
          epochLoop net batchSize (net.update n) (current + 1) 0 (.fin 0)
            (epochLoss.add ((mean.sub epochLoss).div (.fin (currentBatch : F)))) rest
      else epochLoop net batchSize n (current + 1) (offset + 1) batchLoss epochLoss rest

/-- lines 451-507: one epoch -/
def epoch (net : Net N R K F) (batchSize : Nat) (n : N) (records : List R) : Out (N × Num F) :=
  epochLoop net batchSize (net.beginEpoch n) 0 0 (.fin 0) (.fin 0) records

/-- lines 594-617, the running mean of `test`; the `double` arithmetic is exact here as well. -/
def testLoop (net : Net N R K F) (n : N) : Nat → Num F → List R → Num F
  | _, average, [] => average
  | current, average, r :: rest =>
    testLoop net n (current + 1)
      (average.add (((recordLoss (net.losses n r)).sub average).div (.fin ((current + 1 : Nat) : F)))) rest

/-- lines 588-624 `test` -/
def test (net : Net N R K F) (n : N) (records : List R) : Num F := testLoop net n 0 (.fin 0) records

/-- lines 513-517: the loss an epoch is judged by -/
def judge (net : Net N R K F) (tests : List R) (n : N) (trainLoss : Num F) : Num F :=
  if tests.length > 0 then test net n tests else trainLoss

/-- What is modelled of `TrainingResult`, and the states of the network and of its exit strategy afterwards. -/
structure Result (N F : Type) where
  net : N
  exit : State F
  finalTestLoss : Num F
  epochs : Nat
  deriving DecidableEq

/-- util/timers.hpp:35-40 `ElapsedTimer::getMilliseconds`: the time since the timer was last read or made; reading restarts it. -/
def getMilliseconds (start now : Int) : Int × Int := (now - start, now)

/-- What a training is given: the record order of every epoch (the shuffler), the test records, the limits of the exit strategy, the
retention policy, and the time at the end of every epoch. -/
structure Setting (R F : Type) where
  order : Nat → List R
  tests : List R
  limits : Limits F
  keepBest : Bool
  clock : Nat → Int

/-- lines 445-585, the loop over the epochs. `fuel` bounds the number of epochs; `timer` is the start of `epochTimer`. A checkpoint
that was never written cannot be loaded, which is an exception. -/
def trainLoop (net : Net N R K F) (batchSize : Nat) (g : Setting R F) :
    Nat → Nat → N → State F → Int → Num F → Option K → Num F → Nat → Out (Result N F)
  | 0, _, _, _, _, _, _, _, _ => .unfinished
  | fuel + 1, e, n, s, timer, lowest, checkpoint, finalLoss, finalEpoch =>
    match epoch net batchSize n (g.order e) with
    | .throws => .throws
    | .undefined => .undefined
    | .unfinished => .unfinished
    | .ok (n, trainLoss) =>
      let testLoss := judge net g.tests n trainLoss
      let better := testLoss.lt lowest
      let lowest' := if better then testLoss else lowest
      let reported := better && lowest'.lt finalLoss
      let finalLoss := if reported then lowest' else finalLoss
      let finalEpoch := if reported then e else finalEpoch
      let checkpoint := if better && g.keepBest then some (net.snapshot n) else checkpoint
      let (elapsed, timer) := getMilliseconds timer (g.clock e)
      match ExitStrategy.isDone g.limits s (e + 1) testLoss elapsed with
      | none => .throws
      | some (false, s) => trainLoop net batchSize g fuel (e + 1) n s timer lowest' checkpoint finalLoss finalEpoch
      | some (true, s) =>
        if g.keepBest then
          match checkpoint with
          | none => .throws
          | some k => .ok ⟨net.restore n k, s, finalLoss, finalEpoch⟩
        else .ok ⟨n, s, finalLoss, finalEpoch⟩

/-- lines 424-427 and 443: the checks of the batch size. A negative `int` compares as a huge `size_t`. Training without output
(`silent`) skips the division at line 443. The test dataset is assumed to have the shapes of the training dataset (lines
403-423). The exit strategy starts in state `s`: the object belongs to the network, not to the call. -/
def train (net : Net N R K F) (batchSize : Int) (records : Nat) (silent : Bool) (g : Setting R F) (fuel : Nat) (n : N)
    (s : State F) : Out (Result N F) :=
  if batchSize < 0 ∨ batchSize > records then .throws
  else if batchSize = 0 ∧ silent = false then .undefined
  else trainLoop net batchSize.toNat g fuel 0 n s 0 (.inf false) none (.inf false) 0

end Verif.Training
