import Verif.Model.TaskFiles

/-!
The name of a model: what the builder accepts (/repo/src/ml/happyml_dsl.hpp 40-60, 77-89), where the names come from, and the folder that a model is saved in.
-/
namespace Verif.ModelName
open Verif.TextCodec (Str)
open Verif.ModelFiles Verif.Interrupted Verif.Dsl

/-- How a test of a name ends; `undefined` is undefined behaviour. -/
inductive Verdict
  | accepted
  | refused
  | undefined
  deriving DecidableEq, Repr

/-- `std::isalnum` of the "C" locale for an ASCII character. -/
def isAlnum (c : UInt8) : Bool := 48 ≤ c && c ≤ 57 || 65 ≤ c && c ≤ 90 || 97 ≤ c && c ≤ 122

/-- `std::all_of` with the test of happyml_dsl.hpp:44-45 and 79-80, from the left, up to the first character that fails. Characters are signed: 255 is `EOF`, which is not
alphanumeric; the other negative ones must not be handed to `isalnum`. -/
def checkName : Str → Verdict
  | [] => .accepted
  | c :: s => if 128 ≤ c ∧ c ≠ 255 then .undefined else if c ≠ 255 ∧ isAlnum c = true ∨ c = 95 then checkName s else .refused

/-- What a builder knows about the place of its model, happyml_dsl.hpp:43 and 58. -/
structure Builder where
  name : Str
  repo : Path
  deriving DecidableEq

/-- The constructor, happyml_dsl.hpp:40-60 (also of `neuralNetworkBuilder`, 786-790). -/
def construct (name : Str) (repo : Path) : Verdict × Builder := (checkName name, ⟨name, repo⟩)

/-- `setModelName` (happyml_dsl.hpp:77-84) and `setModelRepo` (86-89). -/
inductive Call
  | name (n : Str)
  | repo (p : Path)
  deriving DecidableEq

/-- One call; the name is assigned before it is tested, happyml_dsl.hpp:78-79. -/
def call (b : Builder) : Call → Verdict × Builder
  | .name n => (checkName n, { b with name := n })
  | .repo p => (.accepted, { b with repo := p })

/-- Calls until the first that is not accepted. -/
def calls : Builder → List Call → Verdict × Builder
  | b, [] => (.accepted, b)
  | b, c :: cs => if (call b c).1 = .accepted then calls (call b c).2 cs else call b c

/-- `saveWithOverwrite` of the network that a builder has built, neural_network.hpp:203-206 (the path is the repository, a slash and the name; `build` passes both,
happyml_dsl.hpp:94-95). -/
def save (k : Disk Raw) (b : Builder) (ms ms' : Nat) (config : Str) (files : List (Str × Raw)) : Option (Disk Raw) :=
  saveAs k (TaskFiles.resolve b.repo b.name) true ms ms' config files

/-- A digit with base 16. -/
def hexDigit (d : Nat) : UInt8 := if d < 10 then UInt8.ofNat (48 + d) else UInt8.ofNat (87 + d)

/-- A number that is printed with `std::hex`. -/
def hex (n : Nat) : Str := if n < 16 then [hexDigit n] else hex (n / 16) ++ [hexDigit (n % 16)]

/-- `temp_folder_name`, hyperband_space.hpp:51-61, the name of a model during a search (configuration_evaluator.hpp:112); `hash` is the hash of the configuration. -/
def tempName (hash ms : Nat) : Str := hex hash ++ text "_" ++ hex ms

/-- The search of `create_label_task`: every attempt begins with a builder that gets the name of the task, task_utils.hpp:242-244 and 346-347; its exception ends the call
(653-656). -/
def named (name : Str) (search : TaskFiles.Search) : TaskFiles.Search := fun d t goal => if checkName name = .accepted then search d t goal else ([], none)

end Verif.ModelName
