import Mathlib.Data.Rat.Floor
import Mathlib.Algebra.Order.Floor.Semiring

/-!
Model of the training datasets, /repo/src/training_data/training_dataset.hpp 20-287 (`TrainingDataSet::setShuffler`, `BinaryDataSet`, `InMemoryTrainingDataSet`).
-/
namespace Verif.DataSet

/-- What a dataset object holds: the rows it may read (`InMemoryTrainingDataSet::pairs`, or all rows of the file for `BinaryDataSet`), the first row and the number of
rows of its part of the file, the shuffler (if set) and the read position; training_dataset.hpp 40-45, 172-178, 281-286. -/
structure DataSet (R : Type) where
  rows : List R
  first : Nat
  count : Nat
  shuffler : Option (List Nat)
  offset : Nat

/-- Results of `nextRecord`: a record, the end (`nullptr`), or an exception / out-of-range access. -/
inductive Next (R : Type) where
  | record (r : R)
  | theEnd
  | error
deriving DecidableEq

/-- `restart`, training_dataset.hpp 128-130, 211-213. -/
def restart {R : Type} (d : DataSet R) : DataSet R := { d with offset := 0 }

/-- `setShuffler`, training_dataset.hpp 40-45; `none` is the exception. -/
def setShuffler {R : Type} (d : DataSet R) (s : Option (List Nat)) : Option (DataSet R) :=
  match s with
  | none => some { d with shuffler := none }
  | some p => if p.length = d.count then some { d with shuffler := some p } else none

/-- The record number chosen on training_dataset.hpp 136 and 245; `none` is an out-of-range access to the shuffler. -/
def pick {R : Type} (d : DataSet R) : Option Nat :=
  match d.shuffler with
  | none => some d.offset
  | some p => p[d.offset]?

/-- `nextRecord`, training_dataset.hpp 132-144 and 241-251. The second shuffler consulted on line 139 does not influence the result. -/
def next {R : Type} (d : DataSet R) : Next R × DataSet R :=
  if d.count ≤ d.offset then (.theEnd, d)
  else
    match pick d with
    | none => (.error, d)
    | some k =>
      match d.rows[k + d.first]? with
      | none => (.error, d)
      | some r => (.record r, { d with offset := d.offset + 1 })

/-- `n` calls of `nextRecord`. -/
def nexts {R : Type} : Nat → DataSet R → List (Next R) × DataSet R
  | 0, d => ([], d)
  | n + 1, d => let (x, d') := next d; let (xs, d'') := nexts n d'; (x :: xs, d'')

/-- `InMemoryTrainingDataSet` with the given pairs, training_dataset.hpp 180-287. -/
def inMemory {R : Type} (pairs : List R) : DataSet R := ⟨pairs, 0, pairs.length, none, 0⟩

/-- Single precision rounding as far as the split computation uses it: `rnd` is the rounding function on exact values (the theorems assume what every IEEE rounding
satisfies). `rowCount() * split` on training_dataset.hpp 86, 104 converts the row count to float, multiplies in float and truncates. -/
def positiveCount (rnd : ℚ → ℚ) (n : Nat) (s : ℚ) : Nat := ⌊rnd (rnd n * s)⌋₊

/-- `rowCount() * (1.0f + split)`, training_dataset.hpp 89, 107. -/
def negativeOffset (rnd : ℚ → ℚ) (n : Nat) (s : ℚ) : Nat := ⌊rnd (rnd n * rnd (1 + s))⌋₊

/-- The `BinaryDataSet` constructors, training_dataset.hpp 73-111; the unsigned subtraction on lines 90, 108 wraps modulo 2^64. -/
def openSplit {R : Type} (rnd : ℚ → ℚ) (rows : List R) (split : ℚ) : DataSet R :=
  if 0 < split then ⟨rows, 0, positiveCount rnd rows.length split, none, 0⟩
  else
    let off := negativeOffset rnd rows.length split
    ⟨rows, off, (rows.length + 2 ^ 64 - off % 2 ^ 64) % 2 ^ 64, none, 0⟩

/-- Conversion of an unsigned integer to single precision, round to nearest, ties to even (24 significant bits). -/
def natToFloat (n : Nat) : Nat :=
  let e := Nat.log2 n - 23
  let u := 2 ^ e
  let q := n / u
  let r := n % u
  if 2 * r < u then q * u else if u < 2 * r then (q + 1) * u else (if q % 2 = 0 then q * u else (q + 1) * u)

end Verif.DataSet
