import Verif.Model.Program
import Verif.Props.C47_C84_Interpreter

/-!
# C152: the program runs its scripts in order, and its exit code

Recorded disagreements: the exit code is 0 although a script cannot be opened (`C152_missing_violated`), cannot be parsed (`C152_syntax_violated`) or has a statement that
fails (`C152_failed_violated`); the scripts after it are run all the same.
-/
namespace Verif.Program
open Verif.Parser Verif.Interpreter
variable {S F : Type}

/-! ### Specification -/

/-- The script can be read and parsed in this state, and these are its statements. -/
def Says (stof : List Char → Option F) (files : S → List Char → Option (List Char)) (path : List Char) (s : S) (cs : List (Stmt F)) : Prop :=
  ∃ text, files s path = some text ∧ parseScript stof text = .program cs

/-- All scripts have run, one after the other, and all their statements succeeded; there was no `exit`. -/
inductive Completed (w : World S F) (stof : List Char → Option F) (files : S → List Char → Option (List Char)) : S → List (List Char) → S → Prop where
  | nil (s : S) : Completed w stof files s [] s
  | cons (s s1 s2 : S) (path : List Char) (cs : List (Stmt F)) (paths : List (List Char)) : Says stof files path s cs → Succeed w s cs s1 →
      Completed w stof files s1 paths s2 → Completed w stof files s (path :: paths) s2

/-! ### Helpers -/

theorem file_says {stof : List Char → Option F} {files : S → List Char → Option (List Char)} (w : World S F) {path : List Char} {s : S} {cs : List (Stmt F)}
    (h : Says stof files path s cs) : interpretFile w stof files path s = match runBlock w cs s with | .threw s => .threw s | .done e _ s => .returned e s := by
  obtain ⟨text, h1, h2⟩ := h
  unfold interpretFile interpretCommands
  rw [h1, Option.getD_some, h2]
  rfl

theorem scripts_completed {stof : List Char → Option F} {files : S → List Char → Option (List Char)} {w : World S F} {s s' : S} {paths : List (List Char)}
    (h : Completed w stof files s paths s') (more : List (List Char)) : scripts w stof files (paths ++ more) s = scripts w stof files more s' := by
  induction h with
  | nil => rfl
  | cons s s1 s2 path cs paths h1 h2 _ ih =>
    have := runBlock_succeed w h2 []
    rw [List.append_nil] at this
    rw [List.cons_append, scripts, file_says w h1, this]
    exact ih

theorem program_cons (w : World S F) (stof : List Char → Option F) (files : S → List Char → Option (List Char)) (before : List (List Char)) (path : List Char)
    (after lines : List (List Char)) (s : S) : program w stof files (before ++ path :: after) lines s = scripts w stof files (before ++ path :: after) s := by
  unfold program
  rw [if_neg (by simp)]

/-! ### C152 -/

/-- If all statements of all scripts succeed, the exit code is 0, and all were executed in order, once. -/
theorem C152_completed (w : World S F) (stof : List Char → Option F) (files : S → List Char → Option (List Char)) (arguments : List (List Char)) (ha : arguments ≠ [])
    (lines : List (List Char)) (s s' : S) (h : Completed w stof files s arguments s') : program w stof files arguments lines s = .code 0 s' := by
  have := scripts_completed h []
  rw [List.append_nil] at this
  unfold program
  rw [if_neg ha, this]
  rfl

/-- An `exit` at the end of a script ends the program with code 0; the scripts after it are not run. -/
theorem C152_exit (w : World S F) (stof : List Char → Option F) (files : S → List Char → Option (List Char)) (before : List (List Char)) (path : List Char)
    (after lines : List (List Char)) (s s1 s2 : S) (cs : List (Stmt F)) (h : Completed w stof files s before s1) (hp : Says stof files path s1 (cs ++ [.exit])) (hs : Succeed w s1 cs s2) :
    program w stof files (before ++ path :: after) lines s = .code 0 s2 := by
  rw [program_cons, scripts_completed h, scripts, file_says w hp, runBlock_succeed w hs]
  rfl

/-- An exception of a statement ends the program with code 1, nothing is executed after it. -/
theorem C152_exception (w : World S F) (stof : List Char → Option F) (files : S → List Char → Option (List Char)) (before : List (List Char)) (path : List Char)
    (after lines : List (List Char)) (s s1 s2 s3 : S) (cs more : List (Stmt F)) (c : Stmt F) (h : Completed w stof files s before s1)
    (hp : Says stof files path s1 (cs ++ c :: more)) (hs : Succeed w s1 cs s2) (hc : c ≠ .exit) (hw : w c s2 = (none, s3)) :
    program w stof files (before ++ path :: after) lines s = .code 1 s3 := by
  rw [program_cons, scripts_completed h, scripts, file_says w hp, runBlock_succeed w hs]
  simp [runBlock, loop, exec_world w c hc, hw]

/-- The exit code is 0 or 1. -/
theorem C152_code (w : World S F) (stof : List Char → Option F) (files : S → List Char → Option (List Char)) (arguments lines : List (List Char)) (s s' : S) (n : Nat)
    (h : program w stof files arguments lines s = .code n s') : n = 0 ∨ n = 1 := by
  have key : ∀ (paths : List (List Char)) (s : S), scripts w stof files paths s = .code n s' → n = 0 ∨ n = 1 := by
    intro paths
    induction paths with
    | nil => intro s h; cases h; exact Or.inl rfl
    | cons p ps ih =>
      intro s h
      rw [scripts] at h
      split at h
      · cases h; exact Or.inr rfl
      · cases h
      · cases h; exact Or.inl rfl
      · exact ih _ h
  unfold program at h
  split at h
  · split at h
    · cases h; exact Or.inl rfl
    · cases h; exact Or.inl rfl
    · cases h; exact Or.inr rfl
    · cases h
    · cases h
  · exact key _ _ h

/-- A script that cannot be opened is skipped: the program goes on, and ends with code 0 if it was the only one. -/
theorem C152_missing_violated (w : World S F) (stof : List Char → Option F) (files : S → List Char → Option (List Char)) (path : List Char) (lines : List (List Char)) (s : S)
    (h : files s path = none) : program w stof files [path] lines s = .code 0 s ∧ ∀ after, scripts w stof files (path :: after) s = scripts w stof files after s := by
  have hp : parseScript stof [] = .program [] := by
    have hl : Lexer.lexScript [] = .success [] := by decide +kernel
    unfold parseScript
    rw [hl]
    rfl
  have hi : interpretFile w stof files path s = .returned false s := by
    unfold interpretFile interpretCommands
    rw [h, Option.getD_none, hp]
    rfl
  refine ⟨?_, fun after => ?_⟩
  · rw [← List.nil_append [path], program_cons, List.nil_append, scripts, hi]
    rfl
  · rw [scripts, hi]

/-- A script that cannot be parsed is skipped. -/
theorem C152_syntax_violated (w : World S F) (stof : List Char → Option F) (files : S → List Char → Option (List Char)) (path text : List Char) (lines : List (List Char)) (s : S)
    (h : files s path = some text) (hp : parseScript stof text = .errorMessage) :
    program w stof files [path] lines s = .code 0 s ∧ ∀ after, scripts w stof files (path :: after) s = scripts w stof files after s := by
  have hi : interpretFile w stof files path s = .returned false s := by
    unfold interpretFile interpretCommands
    rw [h, Option.getD_some, hp]
  refine ⟨?_, fun after => ?_⟩
  · rw [← List.nil_append [path], program_cons, List.nil_append, scripts, hi]
    rfl
  · rw [scripts, hi]

/-- A statement that fails ends its script, but the scripts after it are run, and the exit code is 0. -/
theorem C152_failed_violated (w : World S F) (stof : List Char → Option F) (files : S → List Char → Option (List Char)) (path : List Char) (lines : List (List Char)) (s s1 s2 : S)
    (cs more : List (Stmt F)) (c : Stmt F) (hp : Says stof files path s (cs ++ c :: more)) (hs : Succeed w s cs s1) (hc : c ≠ .exit) (hw : w c s1 = (some false, s2)) :
    program w stof files [path] lines s = .code 0 s2 ∧ ∀ after, scripts w stof files (path :: after) s = scripts w stof files after s2 := by
  have hi : interpretFile w stof files path s = .returned false s2 := by
    rw [file_says w hp, runBlock_succeed w hs]
    simp [runBlock, loop, exec_world w c hc, hw]
  refine ⟨?_, fun after => ?_⟩
  · rw [← List.nil_append [path], program_cons, List.nil_append, scripts, hi]
    rfl
  · rw [scripts, hi]

/-! ### Examples -/

/-- Three scripts: `a`, `b` and `e`. -/
def sampleFiles : List (Stmt Nat) → List Char → Option (List Char) := fun _ p =>
  if p = ['a'] then some "help create help".toList else if p = ['b'] then some "print raw x help create".toList else if p = ['e'] then some "help create exit".toList
  else if p = ['x'] then some "create nothing".toList else none

example : program logWorld stofNat sampleFiles [['a'], ['e'], ['b']] [] [] = .code 0 [.help (some "create".toList), .help none, .help (some "create".toList)] := by decide +kernel

/-- `print` fails here: `help create` is not executed, the next script is. -/
example : program logWorld stofNat sampleFiles [['b'], ['m'], ['x'], ['a']] [] [] = .code 0 [.print ['x'] true none, .help (some "create".toList), .help none] := by
  decide +kernel

example : Completed logWorld stofNat sampleFiles [] [['a']] [.help (some "create".toList), .help none] :=
  .cons _ _ _ _ [.help (some "create".toList), .help none] _ ⟨_, rfl, by decide +kernel⟩ (.cons _ _ _ _ _ (by simp) rfl (.cons _ _ _ _ _ (by simp) rfl (.nil _))) (.nil _)

example : program (fun _ s => ((none : Option Bool), s)) stofNat sampleFiles [['a'], ['e']] [] [] = .code 1 [] := by decide +kernel

end Verif.Program
