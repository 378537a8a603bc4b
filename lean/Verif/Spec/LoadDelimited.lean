import Verif.Model.LoadDelimited

/-!
What a record of a delimited text file says. Only the data types of the model are used, none of its functions.
-/
namespace Verif.LoadDelimited
open Verif.TextCodec (Str)
variable {F : Type}

/-- The columns of a record that are the input. -/
def givenWords (s : Setup) (record : List Str) : List Str := if s.expectedFirst then record.drop s.expectedColumns else record.take s.givenColumns

/-- The columns of a record that are the expected output. -/
def expectedWords (s : Setup) (record : List Str) : List Str := if s.expectedFirst then record.take s.expectedColumns else record.drop s.givenColumns

/-- The text of a word, with or without whitespace around it. -/
def meant (trim : Bool) (w : Str) : Str := if trim then Csv.strip w else w

/-- The number of a word; nothing is zero. -/
def numberOf [Zero F] (lib : Library F) (trim : Bool) (w : Str) : Option F := if meant trim w = [] then some 0 else lib.num (meant trim w)

/-- A tensor says what the words say: numbers by channel, row and column; labels as a one in the column of the label. -/
def Says [Field F] (lib : Library F) (trim : Bool) (e : Encoder) (words : List Str) (s : Shape) (t : Tensor F) : Prop :=
  t.rows = s.rows ∧ t.cols = s.cols ∧ t.chans = s.chans ∧ match e with
  | .scalar => ∀ r c k, r < s.rows → c < s.cols → k < s.chans → ∃ w, words[(k * s.rows + r) * s.cols + c]? = some w ∧ numberOf lib trim w = some (t.get r c k)
  | .pixel => ∀ r c k, r < s.rows → c < s.cols → k < s.chans →
      ∃ w x, words[(k * s.rows + r) * s.cols + c]? = some w ∧ numberOf lib trim w = some x ∧ t.get r c k = lib.pixel (x / 255)
  | .category labels => words.length = s.rows ∧ ∀ r, r < s.rows → ∃ w j, words[r]? = some w ∧ j < s.cols ∧ labels[j]? = some (meant trim w) ∧
      ∀ c, c < s.cols → t.get r c 0 = if c = j then 1 else 0

/-- The words can be encoded: enough of them, and all numbers, or labels that are known. -/
def Readable [Field F] (lib : Library F) (trim : Bool) (e : Encoder) (words : List Str) (s : Shape) : Prop :=
  0 < s.rows ∧ match e with
  | .category labels => s.chans = 1 ∧ words.length = s.rows ∧ labels.Nodup ∧ s.cols = labels.length ∧ ∀ w ∈ words, meant trim w ∈ labels
  | _ => 0 < s.chans ∧ s.chans * (s.rows * s.cols) ≤ words.length ∧ ∀ w ∈ words, ∃ x, numberOf lib trim w = some x

/-- A record with enough columns, both parts of which can be encoded. -/
def Complete [Field F] (lib : Library F) (s : Setup) (record : List Str) : Prop :=
  (if s.expectedFirst then s.expectedColumns else s.givenColumns) ≤ record.length ∧ Readable lib s.trim s.givenEncoder (givenWords s record) s.givenShape ∧
    Readable lib s.trim s.expectedEncoder (expectedWords s record) s.expectedShape

/-- A pair of tensors says what the record says. -/
def SaysRecord [Field F] (lib : Library F) (s : Setup) (record : List Str) (p : Pair F) : Prop :=
  Says lib s.trim s.givenEncoder (givenWords s record) s.givenShape p.given ∧ Says lib s.trim s.expectedEncoder (expectedWords s record) s.expectedShape p.expected

end Verif.LoadDelimited
