import Verif.Model.Parser

/-!
Model of running scripts: /repo/src/lang/statements/code_block_statement.hpp, exit_statement.hpp, the result type of
/repo/src/lang/execution_context.hpp 62-86, and /repo/src/lang/interpreter.hpp.

The state `S` stands for everything a statement may read or change (files, models, the console). What the statements
other than `exit` do to it is a parameter `World`; that they never request an exit is read off their `return` lines
(create_dataset_statement.hpp 40-205, create_task_statement.hpp 34-52, execute_task_statement.hpp 40-60,
help_statement.hpp 88, print_statement.hpp 29). Messages of results are not modelled.
-/
namespace Verif.Interpreter
open Verif.Parser
variable {S F : Type}

/-- What the statements do: the flag `success` of the result, or `none` when an exception is thrown, and the new state. -/
abbrev World (S F : Type) := Stmt F → S → Option Bool × S

/-- The outcome of running: `ExecutionResult` (execution_context.hpp 62-86) or an exception. -/
inductive Ran (S : Type) where
  | done (exit success : Bool) (s : S)
  | threw (s : S)
deriving DecidableEq, Repr

/-- `execute` of one statement. `ExitStatement::execute`, exit_statement.hpp 15-18: the printed line is left out. -/
def exec (w : World S F) (c : Stmt F) (s : S) : Ran S :=
  match c with
  | .exit => .done true true s
  | _ => match w c s with
    | (some ok, s) => .done false ok s
    | (none, s) => .threw s

/-- The loop of `CodeBlock::execute`, code_block_statement.hpp 23-30, with `lastResult` as `exit`, `success`. -/
def loop (w : World S F) (exit success : Bool) : List (Stmt F) → S → Ran S
  | [], s => .done exit success s
  | c :: cs, s => match exec w c s with
    | .threw s => .threw s
    | .done e ok s => if ok then loop w e ok cs s else .done e ok s

/-- `CodeBlock::execute`, code_block_statement.hpp 20-32. -/
def runBlock (w : World S F) (cs : List (Stmt F)) (s : S) : Ran S := loop w false true cs s

/-- The outcome of `interpretCommands`: the returned flag `done`, an exception, or no return at all. -/
inductive Answer (S : Type) where
  | returned (done : Bool) (s : S)
  | threw (s : S)
  | diverges
deriving DecidableEq, Repr

/-- `interpretCommands`, interpreter.hpp 24-47. Error messages are not modelled. -/
def interpretCommands (w : World S F) (stof : List Char → Option F) (text : List Char) (s : S) : Answer S :=
  match parseScript stof text with
  | .errorMessage => .returned false s
  | .exception => .threw s
  | .diverges => .diverges
  | .program cs => match runBlock w cs s with
    | .threw s => .threw s
    | .done e _ s => .returned e s

/-- `std::isspace` in the C locale. -/
def isSpace (c : Char) : Bool := c = ' ' || (9 ≤ c.toNat && c.toNat ≤ 13)

/-- `trimEnd`, /repo/src/training_data/data_encoder.hpp 39-45. -/
def trimEnd (t : List Char) : List Char := (t.reverse.dropWhile isSpace).reverse

/-- How an interactive session ends: end of input, an exit with the lines that were not read any more, an exception, no
return, or undefined behaviour (`back` of an empty string). -/
inductive Session (S : Type) where
  | ended (s : S)
  | exited (s : S) (unread : List (List Char))
  | threw (s : S)
  | diverges
  | undefined (s : S)
deriving DecidableEq, Repr

/-- The loop of `interactiveInterpret`, interpreter.hpp 76-93: `lines` are what `getline` delivers, `full` is
`fullLine`. -/
def session (w : World S F) (stof : List Char → Option F) (full : List Char) : List (List Char) → S → Session S
  | [], s => .ended s
  | l :: ls, s =>
    let t := trimEnd l
    match t.getLast? with
    | none => .undefined s
    | some c =>
      if c = '\\' then session w stof (full ++ (t.dropLast ++ ['\n'])) ls s
      else match interpretCommands w stof (full ++ t) s with
        | .threw s => .threw s
        | .diverges => .diverges
        | .returned true s => .exited s ls
        | .returned false s => session w stof [] ls s

/-- `interactiveInterpret`, interpreter.hpp 69-94. -/
def interactive (w : World S F) (stof : List Char → Option F) (lines : List (List Char)) (s : S) : Session S :=
  session w stof [] lines s

end Verif.Interpreter
