/-!
# What a printed table looks like

Independent of the printing code: a table is a header line and, for every record, as many lines as its
highest cell.  Cells are right-aligned in their column and separated by `|`.
-/

namespace Verif.PrettyPrintSpec

/-- `t` is `c` right-aligned in a column of width `w`: never shortened. -/
def RightAligned (w : Nat) (c t : List Char) : Prop :=
  t.length = max w c.length ∧ ∃ k, t = List.replicate k ' ' ++ c

/-- `t` shows the cells `cs` in columns of widths `ws`. -/
def IsLine (ws : List Nat) (cs : List (List Char)) (t : List Char) : Prop :=
  ∃ parts : List (List Char), parts.length = cs.length ∧ ws.length = cs.length ∧
    (∀ (i w : Nat) (c p : List Char), ws[i]? = some w → cs[i]? = some c → parts[i]? = some p → RightAligned w c p) ∧
    t = List.intercalate ['|'] parts

/-- Line `h` of a record whose cells are lists of lines; cells that are too short are blank there. -/
def lineCells (record : List (List (List Char))) (h : Nat) : List (List Char) :=
  record.map fun cell => (cell[h]?).getD []

/-- The height of a record is that of its highest cell. -/
def IsHeight (record : List (List (List Char))) (n : Nat) : Prop :=
  (∀ cell ∈ record, cell.length ≤ n) ∧ (n = 0 ∨ ∃ cell ∈ record, cell.length = n)

/-- `lines` show one record. -/
def ShowsRecord (ws : List Nat) (record : List (List (List Char))) (lines : List (List Char)) : Prop :=
  IsHeight record lines.length ∧ ∀ (h : Nat) t, lines[h]? = some t → IsLine ws (lineCells record h) t

/-- `text` is the table of the given records under the given names, every line ended by a line break.
The columns are at least as wide as the names and as the cells of the first record. -/
def IsTable (names : List (List Char)) (records : List (List (List (List Char)))) (text : List Char) : Prop :=
  ∃ (ws : List Nat) (head : List Char) (blocks : List (List (List Char))),
    IsLine ws names head ∧ blocks.length = records.length ∧
    (∀ (i : Nat) record block, records[i]? = some record → blocks[i]? = some block → ShowsRecord ws record block) ∧
    (∀ (i w : Nat) (name : List Char), ws[i]? = some w → names[i]? = some name → name.length ≤ w) ∧
    (∀ first, records[0]? = some first → ∀ (i w : Nat) (cell : List (List Char)), ws[i]? = some w → first[i]? = some cell →
      ∀ l ∈ cell, l.length ≤ w) ∧
    text = (head :: blocks.flatten).flatMap (· ++ ['\n'])

end Verif.PrettyPrintSpec
