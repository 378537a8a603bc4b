import Verif.Model.Lexer

/-!
Model of the script parser, /repo/src/lang/parser/parser.hpp, over the token stream of
/repo/src/lang/lexer/token.hpp 85-140.

The stream is the list of tokens not yet consumed: `hasNext()` is "not empty", `next()`/`peek()`/`consume()` on a
stream that is too short throw `std::out_of_range`. Tokens keep label and value; offset and source name only go into
error messages, which are not modelled. `stream->previous()`, used for messages, is never null: every statement has
consumed its first token.
-/
namespace Verif.Parser
open Lexer

/-- The part of a token the parser's decisions depend on. -/
structure Tok where
  label : String
  value : List Char
deriving DecidableEq, Repr

/-- A `HappyMLVariant` as produced by the parser (parser.hpp 348-354, 366-372): number or text. -/
inductive Value (F : Type) where
  | num (x : F)
  | text (s : List Char)
deriving DecidableEq, Repr

/-- `ColumnGroup`, training_dataset.hpp 289-332, the fields set by the parser. -/
structure ColGroup where
  id : Nat
  use : List Char
  dataType : List Char
  label : List Char
  rows : Nat
  cols : Nat
  channels : Nat
  start : Nat
  count : Nat
deriving DecidableEq, Repr

/-- The statement objects created by the parser. For `help` the missing argument is `none` (the constructor default
"default", help_statement.hpp 18); for `print` a missing limit is `none` (the default -1, print_statement.hpp 21). -/
inductive Stmt (F : Type) where
  | help (topic : Option (List Char))
  | print (name : List Char) (raw : Bool) (limit : Option Nat)
  | createTask (type name goal dataset test : List Char)
  | createDataset (name location : List Char) (header : Bool) (groups : List ColGroup)
  | execute (name label dataset : List Char) (inputs : List (List Char × List (Value F)))
  | exit
deriving DecidableEq, Repr

/-- How a parsing function ends: with a value and the rest of the stream, by returning a failed `ParseResult`, by
throwing `runtime_error`, by throwing a `logic_error` (`out_of_range`, `invalid_argument`), or not at all. -/
inductive R (α : Type) where
  | ok (a : α) (rest : List Tok)
  | error
  | runtimeError
  | logicError
  | diverges
deriving DecidableEq, Repr

/-- Continue after a successful step. -/
def R.bind {α β : Type} (x : R α) (f : α → List Tok → R β) : R β :=
  match x with
  | .ok a rest => f a rest
  | .error => .error
  | .runtimeError => .runtimeError
  | .logicError => .logicError
  | .diverges => .diverges

/-- `try { ... } catch (runtime_error &e) { return generateError(...); }`, parser.hpp 225-227, 288-290, 488-490. -/
def R.catchRuntime {α : Type} : R α → R α
  | .runtimeError => .error
  | x => x

/-- `stream->next()`, token.hpp 112-116. -/
def next : List Tok → R Tok
  | [] => .logicError
  | t :: ts => .ok t ts

/-- The value of a digit string. -/
def digitsVal (ds : List Char) : Nat := ds.foldl (fun n c => 10 * n + (c.toNat - 48)) 0

/-- `stoi` on a token's text; `none` when it throws. Tokens never start with a sign or white space (no pattern of the
lexer but the skipped ones does), so only the leading digits matter; `int` has 32 bits. -/
def stoi (v : List Char) : Option Nat :=
  let ds := v.takeWhile Char.isDigit
  if ds = [] then none else if digitsVal ds < 2 ^ 31 then some (digitsVal ds) else none

/-- `parseNextNumber`, parser.hpp 77-85: every failure becomes a `runtime_error`. -/
def nextNumber : List Tok → R Nat
  | [] => .runtimeError
  | t :: ts => match stoi t.value with
    | some n => .ok n ts
    | none => .runtimeError

variable {F : Type}

/-- `parseHelpStatement`, parser.hpp 50-56. -/
def parseHelp : List Tok → R (Stmt F)
  | [] => .ok (.help none) []
  | t :: ts => .ok (.help (some t.value)) ts

/-- `parsePrintStatement`, parser.hpp 58-75 (no `try` around it). -/
def parsePrint : List Tok → R (Stmt F)
  | [] => .error
  | t :: ts =>
    if t.value ≠ "raw".toList ∧ t.value ≠ "pretty".toList then .error
    else
      let raw := decide (t.value = "raw".toList)
      (next ts).bind fun name ts =>
      match ts with
      | [] => .ok (.print name.value raw none) []
      | l :: ts' =>
        if l.label ≠ "_limit" then .ok (.print name.value raw none) (l :: ts')
        else (nextNumber ts').bind fun n rest => .ok (.print name.value raw (some n)) rest

/-- The dimensions in parentheses after the opening one, parser.hpp 103-129: rows, columns, channels. -/
def parseDims (ts : List Tok) : R (Nat × Nat × Nat) :=
  (nextNumber ts).bind fun a ts =>
  match ts with
  | [] => .error
  | t :: ts =>
    if t.label = "_close_parenthesis" then .ok (1, a, 1) ts
    else if t.label ≠ "_comma" ∨ ts = [] then .error
    else (nextNumber ts).bind fun b ts =>
      (next ts).bind fun t ts =>
      if t.label = "_close_parenthesis" then .ok (a, b, 1) ts
      else if t.label ≠ "_comma" ∨ ts = [] then .error
      else (nextNumber ts).bind fun c ts =>
        (next ts).bind fun t ts =>
        if t.label ≠ "_close_parenthesis" ∨ ts = [] then .error else .ok (a, b, c) ts

/-- The end of `parseColumnGroup` from the token that should be `at` on, parser.hpp 137-142. `size_t` products wrap. -/
def parseAt (id : Nat) (use dataType label : List Char) (d : Nat × Nat × Nat) (at_ : Tok) (ts : List Tok) : R ColGroup :=
  if at_.label ≠ "_at" ∨ ts = [] then .error
  else (nextNumber ts).bind fun start rest =>
    .ok ⟨id, use, dataType, label, d.1, d.2.1, d.2.2, start, (d.1 * d.2.1 * d.2.2) % 2 ^ 64⟩ rest

/-- `parseColumnGroup`, parser.hpp 91-143, with the fields `id_` and `use_` set by the caller. -/
def parseColumnGroup (id : Nat) (use : List Char) : List Tok → R ColGroup
  | [] => .error
  | [_] => .error
  | type :: name :: ts =>
    (next ts).bind fun t ts =>
    if t.label = "_open_parenthesis" ∧ ts ≠ [] then
      (parseDims ts).bind fun d ts =>
      (next ts).bind fun t ts => parseAt id use type.value name.value d t ts
    else parseAt id use type.value name.value (1, 1, 1) t ts

/-- The tokens that may continue a location, parser.hpp 158-160. -/
def inLocation (t : Tok) : Bool :=
  t.value = "raw".toList ||
    ["_word", "_slash", "_backslash", "_dot", "_colon", "_number", "_underscore"].contains t.label

/-- `parseLocation`, parser.hpp 145-169. -/
def parseLocation : List Tok → R (List Char)
  | [] => .logicError
  | scheme :: ts =>
    if ts.length < 3 then .runtimeError
    else
      let ts := ts.drop 3
      if ts = [] then .logicError
      else .ok (scheme.value ++ "://".toList ++ (ts.takeWhile inLocation).flatMap (·.value)) (ts.dropWhile inLocation)

/-- The `with` loop of `parseCreateTask`, parser.hpp 189-210: returns goal and test data set. -/
def taskWith (goal test : List Char) : List Tok → R (List Char × List Char)
  | [] => .logicError
  | t :: ts =>
    if t.label = "_with" then
      match ts with
      | [] => .error
      | [_] => .error
      | p :: v :: ts =>
        if p.value = "test".toList then taskWith goal v.value ts
        else if p.value = "goal".toList then taskWith v.value test ts
        else .error
    else .ok (goal, test) (t :: ts)

/-- `parseCreateTask`, parser.hpp 171-228. -/
def parseCreateTask (ts : List Tok) : R (Stmt F) :=
  R.catchRuntime <|
  match ts with
  | [] => .error
  | [_] => .error
  | [_, _] => .error
  | type :: name :: ts =>
    (taskWith "accuracy".toList [] ts).bind fun gt ts =>
    match ts with
    | [] => .error
    | u :: ts =>
      if u.label ≠ "_using" then .error
      else match ts with
        | [] => .error
        | d :: ts => .ok (.createTask type.value name.value gt.1 d.value gt.2) ts

/-- The `with` loop of `parseCreateDataset`, parser.hpp 251-276, for at most `fuel` rounds. -/
def datasetWith : Nat → Bool → List ColGroup → List Tok → R (Bool × List ColGroup)
  | 0, _, _, _ => .diverges
  | _ + 1, header, groups, [] => .ok (header, groups) []
  | fuel + 1, header, groups, t :: ts =>
    if t.label = "_with" then
      match ts with
      | [] => .error
      | w :: ts =>
        if w.value = "header".toList then datasetWith fuel true groups ts
        else if w.value = "expected".toList ∨ w.value = "given".toList then
          (parseColumnGroup (groups.length + 1) w.value ts).bind fun g ts =>
            datasetWith fuel header (groups ++ [g]) ts
        else .error
    else .ok (header, groups) (t :: ts)

/-- `parseCreateDataset`, parser.hpp 230-291. -/
def parseCreateDataset (ts : List Tok) : R (Stmt F) :=
  R.catchRuntime <|
  match ts with
  | [] => .error
  | name :: ts =>
    if name.label ≠ "_word" then .error
    else if ts.length < 2 then .error
    else (datasetWith (ts.length + 1) false [] ts).bind fun hg ts =>
      match ts with
      | [] => .error
      | u :: ts =>
        if u.label ≠ "_using" then .error
        else (parseLocation ts).bind fun loc rest => .ok (.createDataset name.value loc hg.1 hg.2) rest

/-- `parseCreateStatement`, parser.hpp 293-306. -/
def parseCreate : List Tok → R (Stmt F)
  | [] => .error
  | t :: ts =>
    if t.label = "_dataset" then parseCreateDataset ts
    else if t.label = "_task" then parseCreateTask ts
    else .error

/-- The loop of `unescapeString`, parser.hpp 397-403: after a backslash in front of the quote has been erased, the
quote is at the current index and the loop goes on behind it. -/
def unescapeLoop (q : Char) : List Char → List Char
  | [] => []
  | [c] => [c]
  | c :: d :: t => if c = '\\' ∧ d = q then d :: unescapeLoop q t else c :: unescapeLoop q (d :: t)

/-- `unescapeString`, parser.hpp 392-405. String tokens have at least two characters. -/
def unescapeString : List Char → List Char
  | [] => []
  | q :: body => unescapeLoop q body.dropLast

/-- The value of one token, parser.hpp 346-354 and 364-372; `stof` returns `none` when the C++ `stof` throws
(`invalid_argument` or `out_of_range`, both `logic_error`s). -/
def tokenValue (stof : List Char → Option F) (t : Tok) : Option (Value F) :=
  if t.label = "_number" then (stof t.value).map .num
  else if t.label = "_string" then some (.text (unescapeString t.value))
  else some (.text t.value)

/-- The list in brackets, parser.hpp 339-359, after the opening bracket. -/
def parseList (stof : List Char → Option F) (acc : List (Value F)) : List Tok → R (List (Value F))
  | [] => .runtimeError
  | t :: ts =>
    if t.label = "_close_bracket" then .ok acc ts
    else if t.label = "_comma" then parseList stof acc ts
    else match tokenValue stof t with
      | none => .logicError
      | some v => parseList stof (acc ++ [v]) ts

/-- `inputs[key] = next_value` on the map, parser.hpp 376. The map is a list of pairs; a key keeps its place. -/
def assign {A B : Type} [DecidableEq A] (k : A) (v : B) : List (A × B) → List (A × B)
  | [] => [(k, v)]
  | p :: m => if p.1 = k then (k, v) :: m else p :: assign k v m

/-- The loop of `parseInput`, parser.hpp 320-385, for at most `fuel` rounds. -/
def inputLoop (stof : List Char → Option F) :
    Nat → List (List Char × List (Value F)) → List Tok → R (List (List Char × List (Value F)))
  | 0, _, _ => .diverges
  | _ + 1, _, [] => .runtimeError
  | fuel + 1, m, k :: ts =>
    if k.label = "_close_parenthesis" then .ok m ts
    else if k.label ≠ "_word" ∧ k.label ≠ "_string" then .runtimeError
    else
      let key := if k.label = "_string" then unescapeString k.value else k.value
      match ts with
      | [] => .runtimeError
      | c :: ts =>
        if c.label ≠ "_colon" then .runtimeError
        else match ts with
          | [] => .runtimeError
          | v :: ts =>
            if v.label ≠ "_string" ∧ v.label ≠ "_word" ∧ v.label ≠ "_number" ∧ v.label ≠ "_open_bracket" then .runtimeError
            else
              let value : R (List (Value F)) :=
                if v.label = "_open_bracket" then parseList stof [] ts
                else match tokenValue stof v with
                  | none => .logicError
                  | some x => .ok [x] ts
              value.bind fun vals ts =>
                let m := assign (asLower key) vals m
                match ts with
                | [] => inputLoop stof fuel m []
                | t :: ts => if t.label = "_comma" then inputLoop stof fuel m ts else inputLoop stof fuel m (t :: ts)

/-- `parseInput`, parser.hpp 308-390. -/
def parseInput (stof : List Char → Option F) : List Tok → R (List (List Char × List (Value F)))
  | [] => .runtimeError
  | t :: ts => if t.label ≠ "_open_parenthesis" then .runtimeError else inputLoop stof (ts.length + 1) [] ts

/-- `parseExecuteStatement` from `using` on, parser.hpp 451-486. -/
def parseUsing (stof : List Char → Option F) (name label : List Char) : List Tok → R (Stmt F)
  | [] => .error
  | u :: ts =>
    if u.label ≠ "_using" then .error
    else match ts with
      | [] => .error
      | n :: ts =>
        if n.label = "_dataset" then
          match ts with
          | [] => .error
          | d :: ts => if d.label ≠ "_word" then .error else .ok (.execute name label d.value []) ts
        else if n.label = "_input" then
          if ts = [] then .error
          else (parseInput stof ts).bind fun m rest => .ok (.execute name label [] m) rest
        else .error

/-- `parseExecuteStatement`, parser.hpp 407-491. -/
def parseExecute (stof : List Char → Option F) (ts : List Tok) : R (Stmt F) :=
  R.catchRuntime <|
  match ts with
  | [] => .error
  | t :: ts =>
    if t.label ≠ "_task" then .error
    else match ts with
      | [] => .error
      | name :: ts =>
        if name.label ≠ "_word" then .error
        else match ts with
          | [] => .error
          | w :: ts =>
            if w.label = "_with" then
              match ts with
              | [] => .error
              | l :: ts =>
                if l.label ≠ "_label" then .error
                else match ts with
                  | [] => .error
                  | v :: ts => if v.label ≠ "_word" then .error else parseUsing stof name.value v.value ts
            else parseUsing stof name.value [] (w :: ts)

/-- One statement whose first token `t` has been taken, parser.hpp 498-529; `none` for a token that is skipped. -/
def parseStatement (stof : List Char → Option F) (t : Tok) (ts : List Tok) : R (Option (Stmt F)) :=
  if t.label = "_newline" then .ok none ts
  else if t.label = "_help" then (parseHelp ts).bind fun s r => .ok (some s) r
  else if t.label = "_print" then (parsePrint ts).bind fun s r => .ok (some s) r
  else if t.label = "_create" then (parseCreate ts).bind fun s r => .ok (some s) r
  else if t.label = "_execute" then (parseExecute stof ts).bind fun s r => .ok (some s) r
  else if t.label = "_exit" then .ok (some .exit) ts
  else .error

/-- `parseCodeBlock`, parser.hpp 493-531, for at most `fuel` statements. -/
def parseBlock (stof : List Char → Option F) : Nat → List (Stmt F) → List Tok → R (List (Stmt F))
  | 0, _, _ => .diverges
  | _ + 1, acc, [] => .ok acc []
  | fuel + 1, acc, t :: ts =>
    (parseStatement stof t ts).bind fun s rest => parseBlock stof fuel (acc ++ s.toList) rest

/-- What a caller of the parser sees: a program, an error message, or an exception. -/
inductive Outcome (F : Type) where
  | program (stmts : List (Stmt F))
  | errorMessage
  | exception
  | diverges
deriving DecidableEq, Repr

/-- `parseCodeBlock` on a whole token stream. -/
def parseTokens (stof : List Char → Option F) (ts : List Tok) : Outcome F :=
  match parseBlock stof (ts.length + 1) [] ts with
  | .ok stmts _ => .program stmts
  | .error => .errorMessage
  | .runtimeError => .exception
  | .logicError => .exception
  | .diverges => .diverges

/-- `Parser::parse`, parser.hpp 30-39. -/
def parseScript (stof : List Char → Option F) (text : List Char) : Outcome F :=
  match lexScript text with
  | .success tokens => parseTokens stof (tokens.map fun t => ⟨t.label, t.value⟩)
  | .syntaxError _ => .errorMessage
  | .diverges => .diverges

end Verif.Parser
