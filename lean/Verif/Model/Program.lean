import Verif.Model.Interpreter

/-!
The program: /repo/src/main.cpp, and `interpretFile` of /repo/src/lang/interpreter.hpp 48-67. What is printed is not modelled; all exceptions are those that `main` catches.
-/
namespace Verif.Program
open Verif.Parser Verif.Interpreter
variable {S F : Type}

/-- How the program ends: with an exit code, not at all, or with undefined behaviour. -/
inductive Ended (S : Type) where
  | code (n : Nat) (s : S)
  | diverges
  | undefined (s : S)
  deriving DecidableEq, Repr

/-- `interpretFile`, interpreter.hpp:48-67: a file that cannot be opened has no text (51-54; streams do not throw unless they are told to). `files` are the files, which
statements may change. -/
def interpretFile (w : World S F) (stof : List Char → Option F) (files : S → List Char → Option (List Char)) (path : List Char) (s : S) : Answer S :=
  interpretCommands w stof ((files s path).getD []) s

/-- The loop over the arguments, main.cpp:20-26, with the exception handler of 28-31. -/
def scripts (w : World S F) (stof : List Char → Option F) (files : S → List Char → Option (List Char)) : List (List Char) → S → Ended S
  | [], s => .code 0 s
  | path :: paths, s => match interpretFile w stof files path s with
    | .threw s => .code 1 s
    | .diverges => .diverges
    | .returned true s => .code 0 s
    | .returned false s => scripts w stof files paths s

/-- `main`, main.cpp:12-33; `lines` is what is typed. -/
def program (w : World S F) (stof : List Char → Option F) (files : S → List Char → Option (List Char)) (arguments lines : List (List Char)) (s : S) : Ended S :=
  if arguments = [] then
    match interactive w stof lines s with
    | .ended s => .code 0 s
    | .exited s _ => .code 0 s
    | .threw s => .code 1 s
    | .diverges => .diverges
    | .undefined s => .undefined s
  else scripts w stof files arguments s

end Verif.Program
