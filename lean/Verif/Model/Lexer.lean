import Mathlib.Data.List.Basic

/-!
Model of the script lexer: /repo/src/lang/lexer/lexer_patterns.hpp, /repo/src/lang/lexer/lexer.hpp and the
pattern table of /repo/src/lang/happyml_script_init.hpp 16-88.

Text is a list of characters. The C++ text is bytes; a character below 256 stands for a byte, and the C
classification functions are those of the "C" locale (`isalpha`, `isalnum`, `tolower` act on ASCII only; the code
passes plain `char`, so bytes from 128 on are formally outside the domain of these functions, and are taken here as
"not a letter").

The code passes `text` and `offset`; the model passes the rest of the text from `offset` on. The two agree while
`offset <= text.length()`, which `Verif.Lexer.matches_le` shows for the patterns of the table.
`scanLimit` is always `text.length()` (lexer_patterns.hpp 149), so it is left out.
-/
namespace Verif.Lexer

/-- Result of a pattern matcher: no match (`nullptr`), a match of some length, or an infinite loop. -/
inductive Res where
  | fail
  | ok (n : Nat)
  | diverges
deriving DecidableEq, Repr

/-- A `PatternMatcher`, lexer_patterns.hpp 42-53, as a function of the rest of the text. -/
abbrev Matcher := List Char → Res

/-- `AnyPatternMatchers::match`, lexer_patterns.hpp 61-69: the first alternative that matches. -/
def anyOf : List Matcher → Matcher
  | [], _ => .fail
  | m :: ms, r => match m r with
    | .fail => anyOf ms r
    | x => x

/-- `AllPatternMatchers::match`, lexer_patterns.hpp 81-92: one after the other, lengths added. -/
def allOf : List Matcher → Matcher
  | [], _ => .ok 0
  | m :: ms, r => match m r with
    | .ok n => match allOf ms (r.drop n) with
      | .ok k => .ok (n + k)
      | x => x
    | x => x

/-- The loop of `FrequencyPatternMatcher::match` for `zeroOrMore`, lexer_patterns.hpp 107-117, for at most `fuel`
calls of the inner matcher. -/
def manyLoop (m : Matcher) : Nat → Matcher
  | 0, _ => .diverges
  | fuel + 1, r => match m r with
    | .fail => .ok 0
    | .diverges => .diverges
    | .ok n => match manyLoop m fuel (r.drop n) with
      | .ok k => .ok (n + k)
      | x => x

/-- `FrequencyPatternMatcher(m, zeroOrMore)`, lexer_patterns.hpp 106-130. If every match has positive length the
loop makes at most one call per remaining character plus the failing one; a match of length zero repeats itself
forever, which is the outcome `diverges`. -/
def many (m : Matcher) : Matcher := fun r => manyLoop m (r.length + 1) r

/-- `FrequencyPatternMatcher(m, zeroOrOne)`, lexer_patterns.hpp 106-130. -/
def optional (m : Matcher) : Matcher := fun r => match m r with
  | .fail => .ok 0
  | x => x

/-- The one-character matchers, lexer_patterns.hpp 176-226. -/
def charClass (p : Char → Bool) : Matcher
  | [] => .fail
  | c :: _ => if p c then .ok 1 else .fail

/-- `asLower`, lexer_patterns.hpp 16-21. -/
def asLower (s : List Char) : List Char := s.map Char.toLower

/-- `NotTextPatternMatcher(s)` (case sensitive, its only use), lexer_patterns.hpp 243-254. -/
def notText (s : List Char) : Matcher := fun r =>
  if r = [] then .fail else if r.take s.length = s then .fail else .ok s.length

/-- `TextSequencePatternMatcher(s, caseInsensitive)`, lexer_patterns.hpp 264-284. -/
def textSeq (s : List Char) (caseInsensitive : Bool) : Matcher := fun r =>
  let s' := if caseInsensitive then asLower s else s
  if s'.length ≤ r.length then
    let sub := r.take s'.length
    if (!caseInsensitive && sub = s') || (caseInsensitive && asLower sub = s') then .ok s'.length else .fail
  else .fail

/-- A `Pattern`, lexer_patterns.hpp 137-174. -/
structure Pattern where
  label : String
  skip : Bool
  matcher : Matcher

/-- `createToken`, lexer_patterns.hpp 292-296. -/
def createToken (label : String) (keyword : String) : Pattern := ⟨label, false, textSeq keyword.toList true⟩
/-- `createKeywordToken`, lexer_patterns.hpp 298-300. -/
def createKeywordToken (keyword : String) : Pattern := createToken ("_" ++ keyword) keyword
/-- `createSkippedToken`, lexer_patterns.hpp 302-306. -/
def createSkippedToken (label : String) (text : String) : Pattern := ⟨label, true, textSeq text.toList true⟩

/-- `createCommentPattern`, lexer_patterns.hpp 308-317. -/
def commentPattern : Pattern := ⟨"_comment", true, allOf [textSeq ['#'] true, many (notText ['\n'])]⟩

/-- `createStringPatternMatcher`, lexer_patterns.hpp 319-330. -/
def stringMatcher (q : Char) : Matcher :=
  allOf [textSeq [q] true, many (anyOf [textSeq ['\\', q] false, notText [q]]), textSeq [q] true]

/-- `createStringPattern`, lexer_patterns.hpp 332-339. -/
def stringPattern : Pattern := ⟨"_string", false, anyOf [stringMatcher '"', stringMatcher '\'']⟩

/-- `createWordPattern`, lexer_patterns.hpp 341-350. -/
def wordPattern : Pattern :=
  ⟨"_word", false, allOf [charClass Char.isAlpha, many (charClass fun c => c.isAlphanum || c = '_')]⟩

/-- `createNumberPattern`, lexer_patterns.hpp 352-361. -/
def numberPattern : Pattern :=
  ⟨"_number", false,
    allOf [many (charClass Char.isDigit), optional (textSeq ['.'] false), many (charClass Char.isDigit)]⟩

/-- The keywords, happyml_script_init.hpp 22-59, in order. -/
def keywords : List String :=
  ["copy", "create", "delete", "describe", "execute", "exit", "help", "list", "move", "print", "refine", "set",
   "accuracy", "dataset", "datasets", "future", "image", "input", "label", "memory", "number", "speed", "task",
   "tasks", "text", "at", "expected", "given", "goal", "header", "limit", "pretty", "raw", "starting", "test",
   "to", "using", "with"]

/-- `initializeHappymlLexer`, happyml_script_init.hpp 16-88: the pattern table. -/
def table : List Pattern :=
  keywords.map createKeywordToken ++
  [commentPattern, stringPattern, numberPattern, wordPattern,
   createToken "_open_parenthesis" "(", createToken "_close_parenthesis" ")",
   createToken "_open_bracket" "[", createToken "_close_bracket" "]",
   createToken "_equal" "=", createToken "_colon" ":", createToken "_slash" "/", createToken "_dot" ".",
   createToken "_percent" "%", createToken "_backslash" "\\", createToken "_double_quote" "\"",
   createToken "_single_quote" "'", createToken "_comma" ",", createToken "_underscore" "_",
   createSkippedToken "_newline" "\n", createSkippedToken "_tab" "\t", createSkippedToken "_return" "\r",
   createSkippedToken "_space" " "]

/-- A `Token`, token.hpp 18-83; `length` is the length of `value` (lexer_patterns.hpp 151-156), the source name and
the unused line index are left out. -/
structure Token where
  label : String
  value : List Char
  offset : Nat
deriving DecidableEq, Repr

/-- `Lexer::findLongestMatch`, lexer.hpp 82-91, from the current best match on; `none` is divergence. `Pattern::match`
(lexer_patterns.hpp 146-160) is called with a non-empty rest only. -/
def findLongest : List Pattern → List Char → Option (Pattern × Nat) → Option (Option (Pattern × Nat))
  | [], _, best => some best
  | p :: ps, r, best =>
    match p.matcher r with
    | .diverges => none
    | .fail => findLongest ps r best
    | .ok n => match best with
      | none => findLongest ps r (some (p, n))
      | some (_, m) => if m < n then findLongest ps r (some (p, n)) else findLongest ps r best

/-- `LexerResult`, or divergence. The error message names the offset. -/
inductive LexResult where
  | success (tokens : List Token)
  | syntaxError (offset : Nat)
  | diverges
deriving DecidableEq, Repr

/-- The loop of `Lexer::lex`, lexer.hpp 51-76. -/
def lexLoop (ps : List Pattern) (offset : Nat) (r : List Char) (found : List Token) : LexResult :=
  if h : r = [] then .success found
  else match findLongest ps r none with
    | none => .diverges
    | some none => .syntaxError offset
    | some (some (p, n)) =>
      if hn : n = 0 then .syntaxError offset
      else lexLoop ps (offset + n) (r.drop n)
        (if p.skip then found else found ++ [⟨p.label, r.take n, offset⟩])
termination_by r.length
decreasing_by
  have := List.length_pos_of_ne_nil h
  simp only [List.length_drop]
  omega

/-- `Lexer::lex`, lexer.hpp 47-77. -/
def lex (ps : List Pattern) (text : List Char) : LexResult := lexLoop ps 0 text []

/-- Lexing a script with the table of the scripting language. -/
def lexScript (text : List Char) : LexResult := lex table text

end Verif.Lexer
