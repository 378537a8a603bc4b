import Mathlib.Data.List.Basic

/-!
What the tokens of the scripting language look like, written without reference to the lexer's matcher combinators:
for each kind of token the length of the longest token of that kind at the start of a text, if there is one.
-/
namespace Verif.LexerSpec

/-- A fixed text, letters in either case. -/
def fixedLen (s : String) (r : List Char) : Option Nat :=
  if (r.take s.length).map Char.toLower = s.toList then some s.length else none

/-- A comment: from `#` to the end of the line. -/
def commentLen : List Char → Option Nat
  | '#' :: t => some (1 + (t.takeWhile (· != '\n')).length)
  | _ => none

/-- The number of characters up to and including the first `q` that is not written `\q`. -/
def closeLen (q : Char) : List Char → Option Nat
  | [] => none
  | [c] => if c = q then some 1 else none
  | c :: d :: t =>
    if c = '\\' ∧ d = q then (closeLen q t).map (2 + ·)
    else if c = q then some 1
    else (closeLen q (d :: t)).map (1 + ·)

/-- A string in double or single quotes. -/
def stringLen : List Char → Option Nat
  | '"' :: t => (closeLen '"' t).map (1 + ·)
  | '\'' :: t => (closeLen '\'' t).map (1 + ·)
  | _ => none

/-- Digits, at most one dot, digits (all optional, so the length may be zero). -/
def numberLen (r : List Char) : Option Nat :=
  let a := r.takeWhile Char.isDigit
  match r.dropWhile Char.isDigit with
  | '.' :: t => some (a.length + 1 + (t.takeWhile Char.isDigit).length)
  | _ => some a.length

/-- Characters allowed inside a word. -/
def wordChar (c : Char) : Bool := c.isAlphanum || c = '_'

/-- A letter followed by letters, digits and underscores. -/
def wordLen : List Char → Option Nat
  | c :: t => if c.isAlpha then some (1 + (t.takeWhile wordChar).length) else none
  | [] => none

/-- The reserved words of the language. -/
def reserved : List String :=
  ["copy", "create", "delete", "describe", "execute", "exit", "help", "list", "move", "print", "refine", "set",
   "accuracy", "dataset", "datasets", "future", "image", "input", "label", "memory", "number", "speed", "task",
   "tasks", "text", "at", "expected", "given", "goal", "header", "limit", "pretty", "raw", "starting", "test",
   "to", "using", "with"]

/-- One kind of token: label, whether it is dropped, and the length function. -/
structure Kind where
  label : String
  skip : Bool
  len : List Char → Option Nat

/-- The kinds of token in order of precedence. -/
def kinds : List Kind :=
  reserved.map (fun k => ⟨"_" ++ k, false, fixedLen k⟩) ++
  [⟨"_comment", true, commentLen⟩, ⟨"_string", false, stringLen⟩, ⟨"_number", false, numberLen⟩,
   ⟨"_word", false, wordLen⟩,
   ⟨"_open_parenthesis", false, fixedLen "("⟩, ⟨"_close_parenthesis", false, fixedLen ")"⟩,
   ⟨"_open_bracket", false, fixedLen "["⟩, ⟨"_close_bracket", false, fixedLen "]"⟩,
   ⟨"_equal", false, fixedLen "="⟩, ⟨"_colon", false, fixedLen ":"⟩, ⟨"_slash", false, fixedLen "/"⟩,
   ⟨"_dot", false, fixedLen "."⟩, ⟨"_percent", false, fixedLen "%"⟩, ⟨"_backslash", false, fixedLen "\\"⟩,
   ⟨"_double_quote", false, fixedLen "\""⟩, ⟨"_single_quote", false, fixedLen "'"⟩, ⟨"_comma", false, fixedLen ","⟩,
   ⟨"_underscore", false, fixedLen "_"⟩,
   ⟨"_newline", true, fixedLen "\n"⟩, ⟨"_tab", true, fixedLen "\t"⟩, ⟨"_return", true, fixedLen "\r"⟩,
   ⟨"_space", true, fixedLen " "⟩]

/-- At the text `r` the kind `k` has a token of length `n`, no kind has a longer one, and no earlier kind has one of
the same length. -/
def Best (ks : List Kind) (r : List Char) (k : Kind) (n : Nat) : Prop :=
  ∃ before after, ks = before ++ k :: after ∧ k.len r = some n ∧
    (∀ k' ∈ before, ∀ m, k'.len r = some m → m < n) ∧
    (∀ k' ∈ after, ∀ m, k'.len r = some m → m ≤ n)

/-- A piece of the source text with the kind it was recognised as and its position. -/
structure Piece where
  kind : Kind
  value : List Char
  offset : Nat

/-- The text from position `off` on is cut into the pieces, each piece not empty and the best at its position; `rest`
is what is left. -/
inductive Tiles (ks : List Kind) : Nat → List Char → List Piece → List Char → Prop where
  | done (off : Nat) (rest : List Char) : Tiles ks off rest [] rest
  | piece (off : Nat) (k : Kind) (v more rest : List Char) (ps : List Piece) :
      v ≠ [] → Best ks (v ++ more) k v.length → Tiles ks (off + v.length) more ps rest →
      Tiles ks off (v ++ more) (⟨k, v, off⟩ :: ps) rest

/-- An identifier: a letter followed by letters, digits and underscores. -/
def IsIdentifier (w : List Char) : Prop := ∃ c t, w = c :: t ∧ c.isAlpha = true ∧ ∀ d ∈ t, wordChar d = true

/-- The text does not go on with a character that could belong to the identifier. -/
def EndsHere (rest : List Char) : Prop := ∀ d t, rest = d :: t → wordChar d = false

/-- The label the identifier must get. -/
def identifierLabel (w : List Char) : String :=
  let s := String.ofList (w.map Char.toLower)
  if s ∈ reserved then "_" ++ s else "_word"

end Verif.LexerSpec
