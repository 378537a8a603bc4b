import Verif.Model.Training

/-! What an epoch of training is, said without the loop of the implementation. -/
namespace Verif.Training
open Verif.ExitStrategy (Num)
variable {N R K F : Type}

/-- `chunks` divides `records` into batches: nothing is lost or reordered, no batch is empty or too large, and all but the last have
exactly the requested size. -/
structure IsBatches (batchSize : Nat) (records : List R) (chunks : List (List R)) : Prop where
  all : chunks.flatten = records
  nonempty : ∀ c ∈ chunks, c ≠ []
  small : ∀ c ∈ chunks, c.length ≤ batchSize
  full : ∀ c ∈ chunks.dropLast, c.length = batchSize

/-- Feed some records, one after the other; the losses of their outputs. -/
def feed (net : Net N R K F) : N → List R → N × List (List (Num F))
  | n, [] => (n, [])
  | n, r :: rest => ((feed net (net.learn n r).1 rest).1, (net.learn n r).2 :: (feed net (net.learn n r).1 rest).2)

/-- Feed some batches, with one weight update after each. -/
def feedBatches (net : Net N R K F) : N → List (List R) → N × List (List (List (Num F)))
  | n, [] => (n, [])
  | n, c :: rest =>
    ((feedBatches net (net.update (feed net n c).1) rest).1,
      (feed net n c).2 :: (feedBatches net (net.update (feed net n c).1) rest).2)

/-- The arithmetic mean -/
def mean [Field F] (l : List F) : F := l.sum / (l.length : F)

end Verif.Training
