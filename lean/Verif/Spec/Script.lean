import Verif.Spec.Lexer
import Verif.Model.Parser

/-!
How scripts are written: the text of the tokens, and the documented forms of the statements (comments in
/repo/src/lang/parser/parser.hpp 174-177, 233-237, 409-417 and the usage message in 60). Only the data types of the
parser's result are used from the model, none of its functions except the conversion `stof` that is a parameter.
-/
namespace Verif.ScriptSpec
open LexerSpec Verif.Parser

/-- Writing `text` between quotes `q`: every `q` inside gets a backslash in front. -/
def escape (q : Char) (text : List Char) : List Char := text.flatMap fun c => if c = q then ['\\', q] else [c]
def quote (q : Char) (text : List Char) : List Char := q :: escape q text ++ [q]

/-- A text that can be written between quotes. -/
def Quotable (text : List Char) : Prop := text.getLast? ≠ some '\\'

/-- A number as written in a script: digits, with a dot somewhere or without. -/
def IsNumber (v : List Char) : Prop :=
  (v ≠ [] ∧ ∀ c ∈ v, c.isDigit = true) ∨
  (∃ a b, v = a ++ '.' :: b ∧ (∀ c ∈ a, c.isDigit = true) ∧ ∀ c ∈ b, c.isDigit = true)

/-- The punctuation characters that are tokens whatever follows them. -/
def symbols : List (Char × String) :=
  [('(', "_open_parenthesis"), (')', "_close_parenthesis"), ('[', "_open_bracket"), (']', "_close_bracket"),
   ('=', "_equal"), (':', "_colon"), ('/', "_slash"), ('%', "_percent"), ('\\', "_backslash"), (',', "_comma"),
   ('_', "_underscore")]

/-- Tokens as they can be written in a script. -/
inductive Written : Tok → Prop where
  | identifier (w : List Char) : IsIdentifier w → Written ⟨identifierLabel w, w⟩
  | number (v : List Char) : IsNumber v → Written ⟨"_number", v⟩
  | string (q : Char) (text : List Char) : q = '"' ∨ q = '\'' → Quotable text → Written ⟨"_string", quote q text⟩
  | symbol (c : Char) (label : String) : (c, label) ∈ symbols → Written ⟨label, [c]⟩

/-- A script text: the tokens with a blank after each. -/
def source (ts : List Tok) : List Char := ts.flatMap fun t => t.value ++ [' ']

/-- A keyword token, in upper or lower case. -/
def Keyword (s : String) (t : Tok) : Prop := t.label = "_" ++ s ∧ t.value.map Char.toLower = s.toList

/-- A keyword token in lower case. -/
def lower (s : String) : Tok := ⟨"_" ++ s, s.toList⟩

def openParen : Tok := ⟨"_open_parenthesis", "(".toList⟩
def closeParen : Tok := ⟨"_close_parenthesis", ")".toList⟩
def openBracket : Tok := ⟨"_open_bracket", "[".toList⟩
def closeBracket : Tok := ⟨"_close_bracket", "]".toList⟩
def comma : Tok := ⟨"_comma", ",".toList⟩
def colon : Tok := ⟨"_colon", ":".toList⟩
def slash : Tok := ⟨"_slash", "/".toList⟩

/-- The value of decimal digits. -/
def decimal : List Char → Nat
  | [] => 0
  | c :: ds => (c.toNat - 48) * 10 ^ ds.length + decimal ds

/-- A whole number that fits an `int`. -/
def Whole (t : Tok) (n : Nat) : Prop :=
  t.label = "_number" ∧ t.value ≠ [] ∧ (∀ c ∈ t.value, c.isDigit = true) ∧ n = decimal t.value ∧ n < 2 ^ 31

/-- A name: a word that is not reserved. -/
def Name (t : Tok) : Prop := t.label = "_word"

variable {F : Type} (stof : List Char → Option F)

/-- `[(<columns>)]`, `[(<rows>, <columns>)]`, `[(<rows>, <columns>, <channels>)]`. -/
inductive Dims : List Tok → Nat × Nat × Nat → Prop where
  | none : Dims [] (1, 1, 1)
  | one (t : Tok) (n : Nat) : Whole t n → Dims [openParen, t, closeParen] (1, n, 1)
  | two (t u : Tok) (n m : Nat) : Whole t n → Whole u m → Dims [openParen, t, comma, u, closeParen] (n, m, 1)
  | three (t u v : Tok) (n m k : Nat) : Whole t n → Whole u m → Whole v k →
      Dims [openParen, t, comma, u, comma, v, closeParen] (n, m, k)

/-- What follows `create dataset <name>`: the `with` clauses, of which `n` column groups precede. -/
inductive Withs : Nat → List Tok → Bool → List ColGroup → Prop where
  | done (n : Nat) : Withs n [] false []
  | header (n : Nat) (w : Tok) (ts : List Tok) (h : Bool) (gs : List ColGroup) :
      Keyword "with" w → Withs n ts h gs → Withs n (w :: lower "header" :: ts) true gs
  | group (n : Nat) (w use type name at_ start : Tok) (dims ts : List Tok) (r c k s : Nat) (h : Bool) (gs : List ColGroup) :
      Keyword "with" w → use = lower "given" ∨ use = lower "expected" → Dims dims (r, c, k) → Keyword "at" at_ →
      Whole start s → r * c * k < 2 ^ 64 → Withs (n + 1) ts h gs →
      Withs n (w :: use :: type :: name :: dims ++ at_ :: start :: ts) h
        (⟨n + 1, use.value, type.value, name.value, r, c, k, s, r * c * k⟩ :: gs)

/-- What follows `create task <type> <name>`: goal and test data set, the last mention counting. -/
inductive TaskWiths : List Tok → List Char → List Char → List Char → List Char → Prop where
  | done (goal test : List Char) : TaskWiths [] goal test goal test
  | goal (w v : Tok) (ts : List Tok) (g t g' t' : List Char) : Keyword "with" w → TaskWiths ts v.value t g' t' →
      TaskWiths (w :: lower "goal" :: v :: ts) g t g' t'
  | test (w v : Tok) (ts : List Tok) (g t g' t' : List Char) : Keyword "with" w → TaskWiths ts g v.value g' t' →
      TaskWiths (w :: lower "test" :: v :: ts) g t g' t'

/-- One value: a number, a quoted text or a bare word. -/
inductive OneValue : Tok → Value F → Prop where
  | number (t : Tok) (x : F) : t.label = "_number" → stof t.value = some x → OneValue t (.num x)
  | string (q : Char) (text : List Char) : q ≠ '\\' → OneValue ⟨"_string", quote q text⟩ (.text text)
  | word (t : Tok) : t.label = "_word" → OneValue t (.text t.value)

/-- Values separated by commas. -/
inductive Values : List Tok → List (Value F) → Prop where
  | one (t : Tok) (v : Value F) : OneValue stof t v → Values [t] [v]
  | more (t : Tok) (v : Value F) (ts : List Tok) (vs : List (Value F)) : OneValue stof t v → Values ts vs →
      Values (t :: comma :: ts) (v :: vs)

/-- The right side of an input: one value, or a list in brackets. -/
inductive InputValue : List Tok → List (Value F) → Prop where
  | single (t : Tok) (v : Value F) : OneValue stof t v → InputValue [t] [v]
  | list (ts : List Tok) (vs : List (Value F)) : Values stof ts vs → InputValue (openBracket :: ts ++ [closeBracket]) vs

/-- The key of an input, word or quoted; upper case counts as lower case. -/
inductive InputKey : Tok → List Char → Prop where
  | word (t : Tok) : t.label = "_word" → InputKey t (t.value.map Char.toLower)
  | string (q : Char) (text : List Char) : q ≠ '\\' → InputKey ⟨"_string", quote q text⟩ (text.map Char.toLower)

/-- `<key>: <value>, <key>: <value>, ...` with different keys. -/
inductive Inputs : List Tok → List (List Char × List (Value F)) → Prop where
  | one (k : Tok) (key : List Char) (vts : List Tok) (vs : List (Value F)) :
      InputKey k key → InputValue stof vts vs → Inputs (k :: colon :: vts) [(key, vs)]
  | more (k : Tok) (key : List Char) (vts : List Tok) (vs : List (Value F)) (ts : List Tok)
      (m : List (List Char × List (Value F))) :
      InputKey k key → InputValue stof vts vs → Inputs ts m → key ∉ m.map Prod.fst →
      Inputs (k :: colon :: vts ++ comma :: ts) ((key, vs) :: m)

/-- The same, where a key may appear more than once. -/
inductive Pairs : List Tok → List (List Char × List (Value F)) → Prop where
  | one (k : Tok) (key : List Char) (vts : List Tok) (vs : List (Value F)) :
      InputKey k key → InputValue stof vts vs → Pairs (k :: colon :: vts) [(key, vs)]
  | more (k : Tok) (key : List Char) (vts : List Tok) (vs : List (Value F)) (ts : List Tok)
      (m : List (List Char × List (Value F))) :
      InputKey k key → InputValue stof vts vs → Pairs ts m → Pairs (k :: colon :: vts ++ comma :: ts) ((key, vs) :: m)

/-- The `[with label <label>]` of `execute`. -/
inductive WithLabel : List Tok → List Char → Prop where
  | none : WithLabel [] []
  | label (w l v : Tok) : Keyword "with" w → Keyword "label" l → Name v → WithLabel [w, l, v] v.value

/-- The tokens a location is made of, after `<scheme>://`. -/
def LocationPart (t : Tok) : Prop :=
  t.label ∈ ["_word", "_slash", "_backslash", "_dot", "_colon", "_number", "_underscore"]

/-- The documented statements. -/
inductive Writes : List Tok → Stmt F → Prop where
  | help (h t : Tok) : Keyword "help" h → Writes [h, t] (.help (some t.value))
  | exit (e : Tok) : Keyword "exit" e → Writes [e] .exit
  | print (p n : Tok) (raw : Bool) : Keyword "print" p →
      Writes [p, lower (if raw then "raw" else "pretty"), n] (.print n.value raw none)
  | printLimit (p n l t : Tok) (raw : Bool) (k : Nat) : Keyword "print" p → Keyword "limit" l → Whole t k →
      Writes [p, lower (if raw then "raw" else "pretty"), n, l, t] (.print n.value raw (some k))
  | createTask (c k type name u d : Tok) (ws : List Tok) (goal test : List Char) :
      Keyword "create" c → Keyword "task" k → TaskWiths ws "accuracy".toList [] goal test → Keyword "using" u →
      Writes (c :: k :: type :: name :: ws ++ [u, d]) (.createTask type.value name.value goal d.value test)
  | createDataset (c d name u scheme : Tok) (ws path : List Tok) (header : Bool) (gs : List ColGroup) :
      Keyword "create" c → Keyword "dataset" d → Name name → Withs 0 ws header gs → Keyword "using" u →
      path ≠ [] → (∀ t ∈ path, LocationPart t) →
      Writes (c :: d :: name :: ws ++ u :: scheme :: colon :: slash :: slash :: path)
        (.createDataset name.value (scheme.value ++ "://".toList ++ path.flatMap (·.value)) header gs)
  | executeDataset (e k name u d ds : Tok) (ls : List Tok) (label : List Char) :
      Keyword "execute" e → Keyword "task" k → Name name → WithLabel ls label → Keyword "using" u →
      Keyword "dataset" d → Name ds → Writes (e :: k :: name :: ls ++ [u, d, ds]) (.execute name.value label ds.value [])
  | executeInput (e k name u i : Tok) (ls ins : List Tok) (label : List Char) (m : List (List Char × List (Value F))) :
      Keyword "execute" e → Keyword "task" k → Name name → WithLabel ls label → Keyword "using" u →
      Keyword "input" i → Inputs stof ins m →
      Writes (e :: k :: name :: ls ++ u :: i :: openParen :: ins ++ [closeParen]) (.execute name.value label [] m)

end Verif.ScriptSpec
