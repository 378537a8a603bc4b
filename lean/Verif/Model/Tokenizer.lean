import Verif.Model.Lines

/-!
Model of the text tokenizer in /repo/src/util/data_util.hpp 57-194.
Characters are bytes (`BitVec 8`); the C character classes are those of the "C" locale.
-/
namespace Verif.Tokenizer

abbrev Byte := BitVec 8

/-- `isspace` in the C locale. -/
def isSpace (c : Byte) : Bool := c = 32 || (9 ≤ c.toNat && c.toNat ≤ 13)
/-- `isprint` in the C locale. -/
def isPrint (c : Byte) : Bool := 32 ≤ c.toNat && c.toNat ≤ 126
/-- `isdigit` in the C locale. -/
def isDigit (c : Byte) : Bool := 48 ≤ c.toNat && c.toNat ≤ 57
/-- `isalnum` in the C locale. -/
def isAlnum (c : Byte) : Bool :=
  isDigit c || (65 ≤ c.toNat && c.toNat ≤ 90) || (97 ≤ c.toNat && c.toNat ≤ 122)

/-- The variables `last_char`, `token`, `tokens` threaded through `append_character`. -/
structure State where
  last : Byte
  token : List Byte
  tokens : List (List Byte)
deriving DecidableEq, Repr

/-- `if (!token.empty()) { tokens.push_back(token); token.clear(); }`, data_util.hpp 104-107, 113-116, 137-139, 162-164. -/
def flush (s : State) : State := if s.token = [] then s else { s with token := [], tokens := s.tokens ++ [s.token] }

/-- `append_character`, data_util.hpp 99-126 (and the call-back variant 57-89, which has the same body). -/
def append (s : State) (c : Byte) : State :=
  if c = 13 then s
  else if isSpace c then
    if c ≠ s.last then { flush s with token := [c], last := c } else { s with last := c }
  else if isPrint c && !isAlnum c && (c ≠ 46 || !isDigit s.last) then
    { last := c, token := [], tokens := (flush s).tokens ++ [[c]] }
  else if !isPrint c then { s with token := s.token ++ [254], last := c }
  else { s with token := s.token ++ [c], last := c }

/-- The initial variables, data_util.hpp 129-131. -/
def init : State := ⟨0, [], []⟩

/-- `string_to_tokens`, data_util.hpp 128-142. -/
def tokens (text : List Byte) : List (List Byte) := (flush (text.foldl append init)).tokens

/-- The read loop of `load_file_to_tokens`, data_util.hpp 150-160: `file.read` of `size` bytes succeeds while at least `size` bytes are left; the final short read's
bytes are processed after the loop. An unreadable file is the empty content. -/
def readLoop (size : Nat) (h : 0 < size) (content : List Byte) (s : State) : State :=
  if size ≤ content.length then readLoop size h (content.drop size) ((content.take size).foldl append s)
  else content.foldl append s
termination_by content.length
decreasing_by simp; omega

/-- `load_file_to_tokens`, data_util.hpp 144-168 (the buffer is 32 KiB there). -/
def fileTokens (size : Nat) (h : 0 < size) (content : List Byte) : List (List Byte) :=
  (flush (readLoop size h content init)).tokens

/-- `load_file_to_lines`, data_util.hpp 170-194; `c < 32 || c > 126` on a signed char. -/
def fileLines (content : List Byte) : List (List Byte) :=
  (Lines.getLines 10 content).map (fun l => l.map (fun c => if c.toInt < 32 ∨ 126 < c.toInt then 254 else c) ++ [10])

end Verif.Tokenizer
