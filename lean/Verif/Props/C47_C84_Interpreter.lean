import Verif.Model.Interpreter
import Verif.Props.C46_C83_Grammar

/-!
C47: a script stops at the first failing statement or at exit.
C84: an interactive session interprets each command once, in order, until one requests an exit.
-/
namespace Verif.Interpreter
open Verif.Parser
variable {S F : Type}

/-- All statements succeed one after the other, none of them is `exit`, and the state goes from `s` to `s'`. -/
inductive Succeed (w : World S F) : S → List (Stmt F) → S → Prop where
  | nil (s : S) : Succeed w s [] s
  | cons (s s1 s2 : S) (c : Stmt F) (cs : List (Stmt F)) : c ≠ .exit → w c s = (some true, s1) → Succeed w s1 cs s2 →
      Succeed w s (c :: cs) s2

theorem exec_world (w : World S F) (c : Stmt F) (hc : c ≠ .exit) (s : S) :
    exec w c s = match w c s with
      | (some ok, s) => .done false ok s
      | (none, s) => .threw s := by
  cases c <;> first | rfl | exact absurd rfl hc

theorem loop_succeed (w : World S F) {s s' : S} {cs : List (Stmt F)} (h : Succeed w s cs s') :
    ∀ (e ok : Bool) (more : List (Stmt F)), cs ≠ [] → loop w e ok (cs ++ more) s = loop w false true more s' := by
  induction h with
  | nil => intro e ok more h; exact absurd rfl h
  | cons s s1 s2 c cs hc hw hrest ih =>
    intro e ok more _
    simp only [List.cons_append, loop, exec_world w c hc, hw, if_true]
    cases cs with
    | nil => cases hrest; rfl
    | cons d ds => exact ih false true more (by simp)

theorem runBlock_succeed (w : World S F) {s s' : S} {cs : List (Stmt F)} (h : Succeed w s cs s') (more : List (Stmt F)) :
    runBlock w (cs ++ more) s = runBlock w more s' := by
  cases cs with
  | nil => cases h; rfl
  | cons c cs => exact loop_succeed w h false true more (by simp)

/-- C47. The statements run in order up to the first that fails or throws, or to an `exit` at the end, and the outcome is
that of this statement; when all succeed the script succeeds. The four cases are all there are, unless `exit` is followed
by another statement. Missing: an `exit` that is not the last statement, see `C47_violated`. -/
theorem C47_partial (w : World S F) (cs : List (Stmt F)) (s : S) :
    (∃ s', Succeed w s cs s' ∧ runBlock w cs s = .done false true s') ∨
    (∃ before c after s1 s2, cs = before ++ c :: after ∧ Succeed w s before s1 ∧ c ≠ .exit ∧
      w c s1 = (some false, s2) ∧ runBlock w cs s = .done false false s2) ∨
    (∃ before c after s1 s2, cs = before ++ c :: after ∧ Succeed w s before s1 ∧ c ≠ .exit ∧
      w c s1 = (none, s2) ∧ runBlock w cs s = .threw s2) ∨
    (∃ before s1, cs = before ++ [.exit] ∧ Succeed w s before s1 ∧ runBlock w cs s = .done true true s1) ∨
    (∃ before c after s1, cs = before ++ .exit :: c :: after ∧ Succeed w s before s1) := by
  have split : ∀ (cs : List (Stmt F)) (s : S), (∃ s', Succeed w s cs s') ∨
      ∃ before c after s1, cs = before ++ c :: after ∧ Succeed w s before s1 ∧
        (c = .exit ∨ (w c s1).1 ≠ some true) := by
    intro cs
    induction cs with
    | nil => intro s; exact Or.inl ⟨s, .nil s⟩
    | cons c cs ih =>
      intro s
      by_cases hc : c = .exit
      · exact Or.inr ⟨[], c, cs, s, rfl, .nil s, Or.inl hc⟩
      · by_cases hw : (w c s).1 = some true
        · have hw' : w c s = (some true, (w c s).2) := by rw [← hw]
          rcases ih (w c s).2 with ⟨s', h⟩ | ⟨before, d, after, s1, rfl, h, hd⟩
          · exact Or.inl ⟨s', .cons _ _ _ _ _ hc hw' h⟩
          · exact Or.inr ⟨c :: before, d, after, s1, rfl, .cons _ _ _ _ _ hc hw' h, hd⟩
        · exact Or.inr ⟨[], c, cs, s, rfl, .nil s, Or.inr hw⟩
  rcases split cs s with ⟨s', h⟩ | ⟨before, c, after, s1, rfl, h, hc⟩
  · refine Or.inl ⟨s', h, ?_⟩
    have := runBlock_succeed w h []
    rwa [List.append_nil] at this
  · by_cases he : c = .exit
    · subst he
      cases after with
      | nil =>
        refine Or.inr (Or.inr (Or.inr (Or.inl ⟨before, s1, rfl, h, ?_⟩)))
        rw [runBlock_succeed w h]; rfl
      | cons d after => exact Or.inr (Or.inr (Or.inr (Or.inr ⟨before, d, after, s1, rfl, h⟩)))
    · have hw := hc.resolve_left he
      rcases hx : w c s1 with ⟨_ | _ | _, s2⟩
      · refine Or.inr (Or.inr (Or.inl ⟨before, c, after, s1, s2, rfl, h, he, hx, ?_⟩))
        rw [runBlock_succeed w h]
        simp [runBlock, loop, exec_world w c he, hx]
      · refine Or.inr (Or.inl ⟨before, c, after, s1, s2, rfl, h, he, hx, ?_⟩)
        rw [runBlock_succeed w h]
        simp [runBlock, loop, exec_world w c he, hx]
      · rw [hx] at hw; exact absurd rfl hw

/-- A world that logs the statements it ran; `print` fails. -/
def logWorld : World (List (Stmt Nat)) Nat
  | .print n r l, s => (some false, s ++ [.print n r l])
  | c, s => (some true, s ++ [c])

/-- Each case occurs; the last is a failing statement between others. -/
example : runBlock logWorld [.help none, .print [] true none, .help none] [] =
    .done false false [.help none, .print [] true none] := by decide +kernel
example : runBlock logWorld [.help none, .exit] [] = .done true true [.help none] := by decide +kernel

/-- C47 is violated: an `exit` that is followed by another statement has no effect. The statements after it run, and the
script does not report the exit. -/
theorem C47_violated :
    (∀ (w : World S F) (before after : List (Stmt F)) (c : Stmt F) (s : S),
      runBlock w (before ++ .exit :: c :: after) s = runBlock w (before ++ c :: after) s) ∧
    interpretCommands logWorld stofNat "exit help create".toList [] = .returned false [.help (some "create".toList)] := by
  constructor
  · intro w before after c s
    have key : ∀ (before : List (Stmt F)) (e ok : Bool) (s : S),
        loop w e ok (before ++ .exit :: c :: after) s = loop w e ok (before ++ c :: after) s := by
      intro before
      induction before with
      | nil => intro e ok s; simp [loop, exec]
      | cons d ds ih =>
        intro e ok s
        simp only [List.cons_append, loop]
        cases exec w d s with
        | threw s => rfl
        | done e ok s => simp only [ih]
    exact key before false true s
  · decide +kernel

/-- How the user writes a command on one or more lines: trailing blanks do not count, a line that ends in a backslash
goes on in the next one. `Command lines text`: the lines make up the text. -/
inductive Command : List (List Char) → List Char → Prop where
  | last (l blanks : List Char) (c : Char) : c ≠ '\\' → isSpace c = false → (∀ b ∈ blanks, isSpace b = true) →
      Command [l ++ [c] ++ blanks] (l ++ [c])
  | more (l blanks : List Char) (ls : List (List Char)) (text : List Char) : (∀ b ∈ blanks, isSpace b = true) →
      Command ls text → Command ((l ++ ['\\'] ++ blanks) :: ls) (l ++ ['\n'] ++ text)

theorem trimEnd_of (l blanks : List Char) (c : Char) (hc : isSpace c = false) (hb : ∀ b ∈ blanks, isSpace b = true) :
    trimEnd (l ++ [c] ++ blanks) = l ++ [c] := by
  unfold trimEnd
  rw [List.reverse_append, List.dropWhile_append_of_pos (by simpa using hb)]
  simp [hc]

/-- One round of the session: the command's text is interpreted once, and the session goes on with the following lines
unless an exit was requested. -/
theorem C84_command_partial (w : World S F) (stof : List Char → Option F) {ls : List (List Char)} {text : List Char}
    (h : Command ls text) (rest : List (List Char)) (s : S) :
    interactive w stof (ls ++ rest) s = match interpretCommands w stof text s with
      | .threw s => .threw s
      | .diverges => .diverges
      | .returned true s => .exited s rest
      | .returned false s => interactive w stof rest s := by
  have key : ∀ full, session w stof full (ls ++ rest) s = match interpretCommands w stof (full ++ text) s with
      | .threw s => .threw s
      | .diverges => .diverges
      | .returned true s => .exited s rest
      | .returned false s => session w stof [] rest s := by
    induction h with
    | last l blanks c h1 h2 h3 =>
      intro full
      simp only [List.cons_append, List.nil_append, session]
      rw [trimEnd_of l blanks c h2 h3]
      simp only [List.getLast?_append, List.getLast?_singleton, Option.some_or, if_neg h1]
      rfl
    | more l blanks ls text h1 _ ih =>
      intro full
      simp only [List.cons_append, session]
      rw [trimEnd_of l blanks '\\' (by decide) h1]
      simp only [List.getLast?_append, List.getLast?_singleton, Option.some_or, if_true,
        List.dropLast_concat]
      rw [ih]
      simp
  have := key []
  simpa [interactive] using this

/-- The session runs the commands one after the other: as long as none requests an exit or throws, it arrives at the
state reached by interpreting each command once in order. -/
inductive Interpreted (w : World S F) (stof : List Char → Option F) : S → List (List Char) → S → Prop where
  | nil (s : S) : Interpreted w stof s [] s
  | cons (s s1 s2 : S) (t : List Char) (ts : List (List Char)) : interpretCommands w stof t s = .returned false s1 →
      Interpreted w stof s1 ts s2 → Interpreted w stof s (t :: ts) s2

theorem C84_session_partial (w : World S F) (stof : List Char → Option F) (cmds : List (List (List Char) × List Char))
    (hc : ∀ p ∈ cmds, Command p.1 p.2) (s s' : S) (h : Interpreted w stof s (cmds.map Prod.snd) s')
    (rest : List (List Char)) :
    interactive w stof (cmds.flatMap Prod.fst ++ rest) s = interactive w stof rest s' := by
  induction cmds generalizing s with
  | nil => cases h; rfl
  | cons p cmds ih =>
    simp only [List.map_cons] at h
    cases h with
    | cons _ s1 _ _ _ h1 h2 =>
      simp only [List.flatMap_cons, List.append_assoc]
      rw [C84_command_partial w stof (hc p (by simp)), h1]
      exact ih (fun p hp => hc p (by simp [hp])) s1 h2

/-- A command that cannot be parsed changes nothing, and the session goes on. -/
theorem C84_error (w : World S F) (stof : List Char → Option F) {ls : List (List Char)} {text : List Char} (h : Command ls text)
    (he : parseScript stof text = .errorMessage) (rest : List (List Char)) (s : S) : interactive w stof (ls ++ rest) s = interactive w stof rest s := by
  rw [C84_command_partial w stof h]
  unfold interpretCommands
  rw [he]

/-- A command that cannot be parsed, then one that can. -/
example : interactive logWorld stofNat ["create nothing".toList, "help create".toList] [] = .ended [.help (some "create".toList)] := by decide +kernel

/-- A command on two lines. -/
example : Command ["help \\ ".toList, "create".toList] "help \ncreate".toList :=
  .more "help ".toList [' '] _ _ (by decide) (.last "creat".toList [] 'e' (by decide) (by decide) (by simp))
example : interactive logWorld stofNat ["help \\ ".toList, "create".toList, "exit".toList, "exit".toList] [] =
    .exited [.help (some "create".toList)] ["exit".toList] := by decide +kernel

/-- C84 is violated by empty and blank lines: the session takes the last character of an empty string. -/
theorem C84_violated (w : World S F) (stof : List Char → Option F) (l : List Char) (hl : ∀ c ∈ l, isSpace c = true)
    (rest : List (List Char)) (s : S) : interactive w stof (l :: rest) s = .undefined s := by
  have : trimEnd l = [] := by
    unfold trimEnd
    rw [List.reverse_eq_nil_iff, List.dropWhile_eq_nil_iff]
    simpa using hl
  simp [interactive, session, this]

end Verif.Interpreter
