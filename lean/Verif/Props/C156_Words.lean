import Verif.Props.C155_Script

/-!
C156: a value or a column that is a single word needs no quotes in a script.

A word is taken as it is written (`C156_word_partial`), unless it is one of the 38 keywords in upper or lower case: a value or a column such as `text`, `label`,
`speed` or `Future` is an error unless it is quoted (`C156_value_violated`, `C156_column_violated`; quoted values by `C46_partial`), and the value `number` even throws
an exception that nobody catches (`C156_number_violated`).
-/
namespace Verif.Words
open Verif.Parser Verif.LexerSpec Verif.ScriptSpec

variable {F : Type}

/-- The script that asks a task about one column. -/
def question (task key value : List Char) : List Char :=
  "execute task ".toList ++ task ++ " using input ( ".toList ++ key ++ " : ".toList ++ value ++ " ) ".toList

/-- A keyword in any mixture of upper and lower case. -/
def IsKeyword (w : List Char) : Prop := String.ofList (w.map Char.toLower) ∈ reserved

instance (w : List Char) : Decidable (IsKeyword w) := by unfold IsKeyword; infer_instance

def tokens (task key value : List Char) : List Tok :=
  [lower "execute", lower "task", ⟨"_word", task⟩, lower "using", lower "input", openParen, ⟨identifierLabel key, key⟩, colon, ⟨identifierLabel value, value⟩, closeParen]

theorem parse_tokens (stof : List Char → Option F) (task key value : List Char) (ht : IsIdentifier task) (htw : ¬ IsKeyword task) (hk : IsIdentifier key)
    (hv : IsIdentifier value) : parseScript stof (question task key value) = parseTokens stof (tokens task key value) := by
  have htw' : identifierLabel task = "_word" := by unfold identifierLabel; exact if_neg htw
  have e : question task key value = source (tokens task key value) := by
    have h1 : "execute task ".toList = "execute".toList ++ ' ' :: "task".toList ++ [' '] := by decide
    have h2 : " using input ( ".toList = ' ' :: "using".toList ++ ' ' :: "input".toList ++ ' ' :: "(".toList ++ [' '] := by decide
    have h3 : " : ".toList = ' ' :: ":".toList ++ [' '] := by decide
    have h4 : " ) ".toList = ' ' :: ")".toList ++ [' '] := by decide
    unfold question tokens
    rw [h1, h2, h3, h4]
    simp only [source, lower, openParen, closeParen, colon, List.flatMap_cons, List.flatMap_nil, List.append_nil,
      List.append_assoc, List.cons_append, List.nil_append]
  have hl : ∀ s ∈ ["task", "using", "execute", "input"], Written (lower s) := by
    intro s hs
    have e : lower s = ⟨identifierLabel s.toList, s.toList⟩ := by
      simp only [List.mem_cons, List.not_mem_nil, or_false] at hs
      rcases hs with rfl | rfl | rfl | rfl <;> decide +kernel
    rw [e]
    refine .identifier _ ?_
    simp only [List.mem_cons, List.not_mem_nil, or_false] at hs
    rcases hs with rfl | rfl | rfl | rfl <;> exact ⟨_, _, rfl, by decide, by decide⟩
  obtain ⟨found, h1, h2⟩ := Lexer.lex_source (tokens task key value) (by
    unfold tokens
    simp only [List.forall_mem_cons]
    exact ⟨hl _ (by decide), hl _ (by decide), htw' ▸ .identifier task ht, hl _ (by decide), hl _ (by decide),
      .symbol '(' _ (by decide), .identifier key hk, .symbol ':' _ (by decide), .identifier value hv, .symbol ')' _ (by decide), by simp⟩)
  unfold parseScript
  rw [e, h1]
  simp only
  rw [h2]

theorem label_word (w : List Char) (h : ¬ IsKeyword w) : identifierLabel w = "_word" := by unfold identifierLabel; exact if_neg h

theorem label_keyword (w : List Char) (h : IsKeyword w) :
    identifierLabel w ≠ "_word" ∧ identifierLabel w ≠ "_string" ∧ (w.map Char.toLower ≠ "number".toList → identifierLabel w ≠ "_number") ∧
      identifierLabel w ≠ "_open_bracket" ∧ identifierLabel w ≠ "_close_parenthesis" := by
  have e : identifierLabel w = "_" ++ String.ofList (w.map Char.toLower) := by unfold identifierLabel; exact if_pos h
  have : ∀ s ∈ reserved, "_" ++ s ≠ "_word" ∧ "_" ++ s ≠ "_string" ∧ (s ≠ "number" → "_" ++ s ≠ "_number") ∧ "_" ++ s ≠ "_open_bracket" ∧
      "_" ++ s ≠ "_close_parenthesis" := by
    decide +kernel
  rw [e]
  obtain ⟨h1, h2, h3, h4, h5⟩ := this _ h
  refine ⟨h1, h2, fun hn => h3 fun hc => hn ?_, h4, h5⟩
  rw [← hc, String.toList_ofList]

/-- C156, restricted to words that are no keywords: the word is the value, and the column is found in any mixture of upper and lower case. Missing: keywords, see
`C156_value_violated` and `C156_column_violated`. -/
theorem C156_word_partial (stof : List Char → Option F) (task key value : List Char) (ht : IsIdentifier task) (htw : ¬ IsKeyword task) (hk : IsIdentifier key)
    (hkw : ¬ IsKeyword key) (hv : IsIdentifier value) (hvw : ¬ IsKeyword value) :
    parseScript stof (question task key value) = .program [.execute task [] [] [(key.map Char.toLower, [.text value])]] := by
  rw [parse_tokens stof task key value ht htw hk hv]
  unfold tokens
  rw [label_word key hkw, label_word value hvw]
  simp [parseTokens, parseBlock, parseStatement, parseExecute, parseUsing, parseInput, inputLoop, tokenValue, lower, openParen, closeParen, colon, R.catchRuntime, R.bind,
    assign, Lexer.asLower]

/-- C156 is violated: a keyword other than `number` is not accepted as a value. -/
theorem C156_value_violated (stof : List Char → Option F) (task key value : List Char) (ht : IsIdentifier task) (htw : ¬ IsKeyword task) (hk : IsIdentifier key)
    (hkw : ¬ IsKeyword key) (hv : IsIdentifier value) (hvw : IsKeyword value) (hn : value.map Char.toLower ≠ "number".toList) :
    parseScript stof (question task key value) = .errorMessage := by
  rw [parse_tokens stof task key value ht htw hk hv]
  obtain ⟨h1, h2, h3, h4, h5⟩ := label_keyword value hvw
  have h3 := h3 hn
  unfold tokens
  rw [label_word key hkw]
  simp [parseTokens, parseBlock, parseStatement, parseExecute, parseUsing, parseInput, inputLoop, lower, openParen, closeParen, colon, R.catchRuntime, R.bind,
    h1, h2, h3, h4]

/-- C156 is violated: the keyword `number` has the label of numbers, so that the parser tries to convert it. `stof` throws `invalid_argument`, which the parser does not
catch: instead of an error message there is an exception, which ends the program (`C152_exception`). -/
theorem C156_number_violated (stof : List Char → Option F) (task key value : List Char) (ht : IsIdentifier task) (htw : ¬ IsKeyword task) (hk : IsIdentifier key)
    (hkw : ¬ IsKeyword key) (hv : IsIdentifier value) (hn : value.map Char.toLower = "number".toList) (hs : stof value = none) :
    parseScript stof (question task key value) = .exception := by
  rw [parse_tokens stof task key value ht htw hk hv]
  have h1 : identifierLabel value = "_number" := by unfold identifierLabel; rw [hn]; decide +kernel
  unfold tokens
  rw [label_word key hkw, h1]
  simp [parseTokens, parseBlock, parseStatement, parseExecute, parseUsing, parseInput, inputLoop, tokenValue, lower, openParen, closeParen, colon, R.catchRuntime, R.bind,
    hs]

/-- C156 is violated: a keyword is not accepted as a column. -/
theorem C156_column_violated (stof : List Char → Option F) (task key value : List Char) (ht : IsIdentifier task) (htw : ¬ IsKeyword task) (hk : IsIdentifier key)
    (hkw : IsKeyword key) (hv : IsIdentifier value) : parseScript stof (question task key value) = .errorMessage := by
  rw [parse_tokens stof task key value ht htw hk hv]
  obtain ⟨h1, h2, h3, h4, h5⟩ := label_keyword key hkw
  unfold tokens
  simp [parseTokens, parseBlock, parseStatement, parseExecute, parseUsing, parseInput, inputLoop, lower, openParen, closeParen, colon, R.catchRuntime, R.bind,
    h1, h2, h5]

/-- `red` is a word like any other, `Speed` and `label` are keywords. -/
example : IsIdentifier "red".toList ∧ ¬ IsKeyword "red".toList ∧ IsKeyword "Speed".toList ∧ IsKeyword "label".toList ∧
    question "t".toList "color".toList "red".toList = "execute task t using input ( color : red ) ".toList :=
  ⟨⟨_, _, rfl, by decide, by decide⟩, by decide +kernel, by decide +kernel, by decide +kernel, by decide +kernel⟩

/-- `number` and `Number` cannot be converted. -/
example : VariantText.stofText "number".toList = none ∧ VariantText.stofText "Number".toList = none ∧ "Number".toList.map Char.toLower = "number".toList ∧
    IsIdentifier "Number".toList :=
  ⟨by decide +kernel, by decide +kernel, by decide +kernel, ⟨_, _, rfl, by decide, by decide⟩⟩

end Verif.Words
