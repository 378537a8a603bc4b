import Mathlib.Order.Defs.LinearOrder
import Mathlib.Data.List.Sort

/-!
Model of the external sort, /repo/src/util/text_file_sorter.hpp 19-157 (`FileSorter`).
Lines are any linearly ordered type `L` (C++: `std::string` with lexicographic byte order) with a test for the empty line. Chunk files are the lists of lines written to
them: writing and re-reading lines through a file is `Verif.Lines.getLines_putLines`. File system failures (chunk files that cannot be
written) are not modelled.
-/
namespace Verif.FileSorter

variable {L : Type} [LinearOrder L]

/-- `sort_chunk`, text_file_sorter.hpp 90-92 (`std::sort`; any sorted permutation is the same list because `≤` is a linear order). -/
def sortChunk (lines : List L) : List L := lines.insertionSort (· ≤ ·)

/-- One iteration of the reading loop, text_file_sorter.hpp 47-66: the pending `lines` and the chunks written so far. `chunkSize` is the `int` argument converted to
`size_t` by the comparison on line 52. -/
def readStep (isEmpty : L → Bool) (chunkSize : Nat) (st : List L × List (List L)) (line : L) : List L × List (List L) :=
  let lines := if isEmpty line then st.1 else st.1 ++ [line]
  if chunkSize ≤ lines.length then ([], st.2 ++ [sortChunk lines]) else (lines, st.2)

/-- The chunk files, text_file_sorter.hpp 45-79. -/
def chunks (isEmpty : L → Bool) (chunkSize : Nat) (input : List L) : List (List L) :=
  let st := input.foldl (readStep isEmpty chunkSize) ([], [])
  if st.1 = [] then st.2 else st.2 ++ [sortChunk st.1]

/-- `min_heap.top(); pop()`, then reading the next line of the same chunk and pushing it back if there is one, text_file_sorter.hpp 139-150. The heap is
the multiset of open chunks, each given by its buffered line followed by its unread lines. Which of several minimal lines is on top is unspecified. -/
inductive Pop : List (List L) → L → List (List L) → Prop
  | last (a b : List (List L)) (x : L) : (∀ c ∈ a ++ b, ∀ y ∈ c.head?, x ≤ y) → Pop (a ++ [x] :: b) x (a ++ b)
  | more (a b : List (List L)) (x z : L) (rest : List L) : (∀ c ∈ a ++ b, ∀ y ∈ c.head?, x ≤ y) →
      Pop (a ++ (x :: z :: rest) :: b) x (a ++ (z :: rest) :: b)

/-- The condition on text_file_sorter.hpp 142; `prev = none` means `first_record`. -/
def writes (isEmpty : L → Bool) (dedupe : Bool) (prev : Option L) (line : L) : Bool :=
  prev.isNone || (!(dedupe && prev = some line) && !isEmpty line)

/-- The merge loop, text_file_sorter.hpp 137-151: `Merge h prev out` means some execution of the loop from heap `h` writes `out`. -/
inductive Merge (isEmpty : L → Bool) (dedupe : Bool) : List (List L) → Option L → List L → Prop
  | done (prev) : Merge isEmpty dedupe [] prev []
  | emit {h x h' prev out} : Pop h x h' → writes isEmpty dedupe prev x = true → Merge isEmpty dedupe h' (some x) out →
      Merge isEmpty dedupe h prev (x :: out)
  | skip {h x h' prev out} : Pop h x h' → writes isEmpty dedupe prev x = false → Merge isEmpty dedupe h' prev out →
      Merge isEmpty dedupe h prev out

/-- `sort`, text_file_sorter.hpp 28-87: `Sorts input output` relates the lines of the input file to the lines of the result file. Chunks without lines deliver no
first line and are not put on the heap (lines 109-114). With a header, the first line (or an empty line if the file is empty) is copied. -/
def Sorts (isEmpty : L → Bool) (emptyLine : L) (hasHeader : Bool) (chunkSize : Nat) (dedupe : Bool) (input output : List L) : Prop :=
  ∃ body, Merge isEmpty dedupe ((chunks isEmpty chunkSize (if hasHeader then input.drop 1 else input)).filter (· ≠ [])) none body ∧
    output = (if hasHeader then [input.head?.getD emptyLine] else []) ++ body

end Verif.FileSorter
