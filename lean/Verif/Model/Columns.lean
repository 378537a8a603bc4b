import Verif.Model.Parser

/-!
Model of the column handling of `create dataset`: /repo/src/util/dataset_utils.hpp 22-44 (overlap check) and 89-123 (text
to csv), /repo/src/training_data/training_dataset.hpp 334-362 (re-arranging), and
/repo/src/lang/statements/create_dataset_statement.hpp 125-154 (new positions).

Cells are lists of an arbitrary type where their content does not matter. Files are lists of records; reading and writing
delimited files is modelled in `Verif.Model.Csv`.
-/
namespace Verif.Columns
open Verif.Parser

/-- What `std::sort` with `compare_startIndex` (dataset_utils.hpp 23-25, 42) may deliver: a permutation in ascending order
of the start index. The order of groups with equal start is not specified, so this is a relation. -/
def SortedFrom (groups sorted : List ColGroup) : Prop :=
  sorted.Perm groups ∧ sorted.Pairwise fun a b => a.start ≤ b.start

/-- `has_overlap`, dataset_utils.hpp 27-39. `size_t` arithmetic wraps at `2 ^ 64`. -/
def hasOverlap : List ColGroup → Bool
  | prev :: curr :: rest =>
    if curr.start < (prev.start + prev.count + (2 ^ 64 - 1)) % 2 ^ 64 then true else hasOverlap (curr :: rest)
  | _ => false

/-- The columns of one group, training_dataset.hpp 347-350, 352-354. `none`: an index beyond the record (undefined
behaviour). -/
def slice {C : Type} (record : List C) (g : ColGroup) : Option (List C) :=
  (List.range g.count).mapM fun i => record[g.start + i]?

/-- One record of `update_column_positions`, training_dataset.hpp 344-356. -/
def newRecord {C : Type} (given expected : List ColGroup) (record : List C) : Option (List C) := do
  let a ← given.mapM (slice record)
  let b ← expected.mapM (slice record)
  return a.flatten ++ b.flatten

/-- create_dataset_statement.hpp 125-135: the groups whose use is `expected`, and the others. -/
def expectedGroups (groups : List ColGroup) : List ColGroup := groups.filter fun g => g.use = "expected".toList
def givenGroups (groups : List ColGroup) : List ColGroup := groups.filter fun g => ¬ g.use = "expected".toList

/-- create_dataset_statement.hpp 143-148 (and the same loop in 149-154): copies with the start index moved. -/
def placeFrom : Nat → List ColGroup → List ColGroup
  | _, [] => []
  | i, g :: gs => { g with start := i } :: placeFrom (i + g.count) gs

/-- create_dataset_statement.hpp 140-154: `updatedColumnGroups`. -/
def updated (given expected : List ColGroup) : List ColGroup :=
  placeFrom 0 given ++ placeFrom ((given.map (·.count)).sum) expected

/-- The pieces successive calls of `getline` with delimiter `' '` deliver (dataset_utils.hpp 104): the text cut at every
blank; a last piece without any character is not delivered. -/
def pieces (cur : List Char) : List Char → List (List Char)
  | [] => if cur = [] then [] else [cur]
  | c :: t => if c = ' ' then cur :: pieces [] t else pieces (cur ++ [c]) t

/-- The sentence end test, dataset_utils.hpp 105-106. -/
def sentenceEnd (token : List Char) : Bool :=
  1 < token.length && (token[token.length - 1]? = some '.' || token[token.length - 2]? = some '.')

/-- The loop of `convert_txt_to_csv`, dataset_utils.hpp 102-118, with the cells written so far in the result; `limit` and
`near` are positive, so the mixed comparisons are those of natural numbers. -/
def cellLoop (limit near : Nat) : List Char → List (List Char) → List (List Char)
  | cell, [] => if cell = [] then [] else [cell]
  | cell, token :: rest =>
    if cell.length + token.length + 1 ≤ limit then
      let cell := cell ++ ' ' :: token
      if near < cell.length ∧ sentenceEnd token then cell :: cellLoop limit near token rest
      else cellLoop limit near cell rest
    else cell :: cellLoop limit near token rest

/-- `convert_txt_to_csv`, dataset_utils.hpp 89-123: the cells, one per record. -/
def textCells (limit : Nat) (text : List Char) : List (List Char) := cellLoop limit (limit * 4 / 5) [] (pieces [] text)

end Verif.Columns
