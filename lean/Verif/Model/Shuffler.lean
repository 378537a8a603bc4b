/-!
Model of /repo/src/util/shuffler.hpp 20-49 (`Shuffler`) and of the two users of `std::shuffle` in /repo/src/util/data_util.hpp 196-240
(`sampleData`, `splitData`).
-/
namespace Verif.Shuffler

/-- Exchanging two elements (`std::iter_swap`); `std::shuffle` only exchanges elements inside the range, so indices outside change nothing. -/
def swap {α : Type} (l : List α) (i j : Nat) : List α :=
  match l[i]?, l[j]? with
  | some a, some b => (l.set i b).set j a
  | _, _ => l

/-- `std::shuffle`: a sequence of exchanges determined by the random generator; the generator's choices are arbitrary. -/
def shuffle {α : Type} (choices : List (Nat × Nat)) (l : List α) : List α := choices.foldl (fun l c => swap l c.1 c.2) l

/-- The constructor, shuffler.hpp 22-26. -/
def new (size : Nat) : List Nat := List.range size

/-- A shuffler after any number of calls of `shuffle` / `shuffle_predictably`, shuffler.hpp 32-41; each call makes its own choices. -/
def after (size : Nat) (calls : List (List (Nat × Nat))) : List Nat := calls.foldl (fun l c => shuffle c l) (new size)

/-- `getShuffledIndex`, shuffler.hpp 28-30; `none` is an out-of-range access. -/
def index (s : List Nat) (i : Nat) : Option Nat := s[i]?

/-- `splitData`, data_util.hpp 216-240: `validation` is the truncated product of size and ratio; outputs are appended to what the caller passed in. Result `none`: the
unsigned subtraction on line 222 wraps (ratio above one). -/
def splitData {α : Type} (choices : List (Nat × Nat)) (validation : Nat) (data train valid : List α) : Option (List α × List α) :=
  if data.length < validation then none
  else
    let indices := shuffle choices (List.range data.length)
    let trainSize := data.length - validation
    some (train ++ (indices.take trainSize).filterMap (data[·]?), valid ++ (indices.drop trainSize).filterMap (data[·]?))

/-- `sampleData`, data_util.hpp 196-214. -/
def sampleData {α : Type} (choices : List (Nat × Nat)) (validation : Nat) (data : List α) : Option (List α) :=
  if data.length < validation then none
  else
    let indices := shuffle choices (List.range data.length)
    some ((indices.drop (data.length - validation)).filterMap (data[·]?))

end Verif.Shuffler
