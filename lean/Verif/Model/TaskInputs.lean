import Verif.Model.Parser
import Verif.Model.Encoders

/-!
# Executing a task with named inputs (`src/util/task_utils.hpp`, 66-152; `src/lang/statements/execute_task_statement.hpp`)

The inputs are the map that the parser builds (`Parser.assign`). A column is its name and its encoder (`build_given_encoders`,
encoder_decoder_builder.hpp:53-62, makes one for every given column, in order; `get_given_names` gives the same names in the same order). Messages other than
the two lists of names, loading the network, and printing the result are left out.
-/

namespace Verif.TaskInputs
open Verif.Lexer (asLower)
open Verif.Encoders (Out)

/-- A given column: its name and what `HappyMLVariantEncoder::encode` makes of a value. -/
structure Column (V T : Type) where
  name : List Char
  encode : V → Out T

variable {V T : Type}

/-- `unordered_map::find`. -/
def find (inputs : List (List Char × V)) (k : List Char) : Option V := (inputs.find? fun e => e.1 = k).map Prod.snd

/-- `build_given`, task_utils.hpp:66-86: stops at the first name that is missing (74) and at the first value that cannot be encoded (82). `undefined`: an encoder reads past
the end of the values. -/
def buildGiven (inputs : List (List Char × V)) : List (Column V T) → Out (List T)
  | [] => .ok []
  | c :: cs =>
    match find inputs (asLower c.name) with
    | none => .ok []
    | some v =>
      match c.encode v with
      | .throws => .ok []
      | .undefined => .undefined
      | .ok t => (buildGiven inputs cs).map (t :: ·)

/-- How `execute_task_with_inputs` goes on: with a prediction for these tensors, or it fails and reports the names that were not provided and those that are not
columns. -/
inductive Outcome (T : Type) where
  | predict (given : List T)
  | fail (missing invalid : List (List Char))
  | undefined

/-- task_utils.hpp:113-124: the names of the columns that are not among the inputs. -/
def missing (cols : List (Column V T)) (inputs : List (List Char × V)) : List (List Char) :=
  (cols.filter fun c => (find inputs (asLower c.name)).isNone).map Column.name

/-- task_utils.hpp:128-146: the names of inputs that are not columns, in the order of the map. -/
def invalid (cols : List (Column V T)) (inputs : List (List Char × V)) : List (List Char) :=
  (inputs.filter fun e => decide (asLower e.1 ∉ cols.map fun c => asLower c.name)).map Prod.fst

/-- `execute_task_with_inputs`, task_utils.hpp:110-152, for an existing task. -/
def execute (cols : List (Column V T)) (inputs : List (List Char × V)) : Outcome T :=
  match buildGiven inputs cols with
  | .undefined => .undefined
  | .throws => .undefined
  | .ok given => if given.length ≠ cols.length then .fail (missing cols inputs) (invalid cols inputs) else .predict given

/-- The map for the names and values of a statement, in the order in which they are written, parser.hpp:312-385. -/
def inputMap (written : List (List Char × V)) : List (List Char × V) :=
  written.foldl (fun m e => Parser.assign (asLower e.1) e.2 m) []

end Verif.TaskInputs
