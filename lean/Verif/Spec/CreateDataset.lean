import Verif.Model.CreateDataset
import Verif.Props.C15_Csv
import Verif.Props.C36_C40_Statistics
import Verif.Props.C48_C50_Columns
import Verif.Props.C119_C120_Execute

/-!
# What creating a dataset is expected to do
-/

namespace Verif.CreateDataset
open Verif.Encoders (Out Meta)
open Verif.TextCodec (Str NL)
open Verif.Parser (ColGroup)
open Verif.Csv (strip)

variable {F : Type} [Field F] [LinearOrder F]

/-- The words of a record in the columns of a group. -/
def wordsIn (g : ColGroup) (record : List Str) : List Str := Columns.columnsOf record g.start g.count

def IsLabel (g : ColGroup) : Prop := g.dataType = "label".toList
def IsNumber (g : ColGroup) : Prop := g.dataType = "number".toList
def IsImage (g : ColGroup) : Prop := g.dataType = "image".toList

/-- The number that a word stands for; empty words count as zero. -/
def number (env : Env F) (w : Str) : Option F := if strip w = [] then some 0 else env.num (strip w)

/-- Two words that mean the same in the columns of a group. -/
def SameWord (env : Env F) (g : ColGroup) (v w : Str) : Prop :=
  (IsLabel g → strip v = strip w) ∧ (IsNumber g → number env v = number env w) ∧
    (IsImage g → (number env v).map (fun x => env.pixel (x / 255)) = (number env w).map fun x => env.pixel (x / 255))

/-- Two records that mean the same in the columns of some groups. -/
def SameIn (env : Env F) (gs : List ColGroup) (r s : List Str) : Prop := ∀ g ∈ gs, List.Forall₂ (SameWord env g) (wordsIn g r) (wordsIn g s)

/-- The constants that numbers are scaled with. -/
def Scale (env : Env F) (values : List F) (c : Statistics.Column F) : Prop :=
  c.isNormalized = true ∧ (c.min ∈ values ∧ ∀ v ∈ values, c.min ≤ v) ∧ (c.max ∈ values ∧ ∀ v ∈ values, v ≤ c.max) ∧
    (c.isStandardized = true ↔ 1 < c.sd) ∧ c.mean * (values.length : F) = values.sum ∧
    c.sd = env.sqrt ((values.map fun v => (v - c.mean) * (v - c.mean)).sum / (values.length : F))

/-- A column of the dataset for a group of columns of the file: its kind, shape, labels and scale. The labels are those of all records; the scale is that of the
records that are `kept`. -/
def Describes (env : Env F) (records kept : List (List Str)) (g : ColGroup) (m : Meta F) : Prop :=
  m.rows = g.rows ∧
  (IsLabel g → m.purpose = 'L' ∧ m.cols = m.labels.length ∧ m.chans = 1 ∧ m.labels.Nodup ∧
    ∀ l, l ∈ m.labels ↔ ∃ r ∈ records, ∃ w ∈ wordsIn g r, strip w = l) ∧
  (IsNumber g → m.purpose = 'N' ∧ m.cols = g.cols ∧ m.chans = g.channels ∧ m.labels = [] ∧
    Scale env (kept.flatMap fun r => (wordsIn g r).filterMap (number env)) m.column) ∧
  (IsImage g → m.purpose = 'I' ∧ m.cols = g.cols ∧ m.chans = g.channels ∧ m.labels = []) ∧
  (¬ IsNumber g → m.column.isNormalized = false ∧ m.column.isStandardized = false)

/-- Columns that can be encoded: numbers and images with as many columns as elements, and labels in one column. -/
def Supported (g : ColGroup) : Prop :=
  (((IsNumber g ∨ IsImage g) ∧ g.count = g.rows * g.cols * g.channels) ∨ (IsLabel g ∧ g.rows = 1 ∧ g.count = 1)) ∧
    (g.use = "given".toList ∨ g.use = "expected".toList) ∧ Columns.Sane g

/-- Records with everything the columns need. -/
structure Ready (env : Env F) (groups : List ColGroup) (records : List (List Str)) : Prop where
  supported : ∀ g ∈ groups, Supported g
  apart : Columns.Apart groups
  /-- there is something given -/
  given : ∃ g ∈ groups, g.use = "given".toList
  /-- no record is too short -/
  wide : ∀ r ∈ records, ∀ g ∈ groups, g.start + g.count ≤ r.length
  /-- every word survives being written and read -/
  safe : ∀ r ∈ records, ∀ g ∈ groups, ∀ w ∈ wordsIn g r, Csv.Safe env.isNum 44 w
  /-- numbers are numbers, and not too large -/
  numbers : ∀ r ∈ records, ∀ g ∈ groups, IsNumber g ∨ IsImage g → ∀ w ∈ wordsIn g r, ∃ x, number env w = some x ∧ env.lo ≤ x ∧ x ≤ env.hi
  /-- no record is blank -/
  notBlank : ∀ r ∈ records, 2 ≤ (groups.map (·.count)).sum ∨ ∃ g ∈ groups, [] ∉ wordsIn g r

/-- No two given tensors that are to be stored have the same hash. The tensors are those that the encoders make for the columns `gs` of the records, with the
labels in some order. -/
def NoCollisions (env : Env F) (gs : List ColGroup) (records : List (List Str)) : Prop :=
  ∀ gls : List (ColGroup × List Str), gls.map Prod.fst = gs →
    (∀ gl ∈ gls, gl.2.Nodup ∧ ∀ l ∈ gl.2, ∃ r ∈ records, ∃ w ∈ wordsIn gl.1 r, strip w = l) → ∀ r ∈ records, ∀ s ∈ records, ∀ a b,
    List.Forall₂ (fun (gl : ColGroup × List Str) t => rawEncode env (rawMeta gl.1 gl.2) (wordsIn gl.1 r) = .ok t) gls a →
    List.Forall₂ (fun (gl : ColGroup × List Str) t => rawEncode env (rawMeta gl.1 gl.2) (wordsIn gl.1 s) = .ok t) gls b →
    env.hash a = env.hash b → a = b

/-- A dataset that says what the records say. `gs` are the groups in the order of their columns. Every record has a row with its given values, every row is a record,
no two rows are records with the same words, and (unless there are more rows than the writer remembers) no two rows have the same given values. -/
def Faithful (env : Env F) (groups : List ColGroup) (records : List (List Str)) (d : Execute.Dataset F) : Prop :=
  ∃ (gs : List ColGroup) (kept : List (List Str)), gs.Perm groups ∧ gs.Pairwise (fun a b => a.start ≤ b.start) ∧
    let given := gs.filter fun g => g.use = "given".toList
    let expected := gs.filter fun g => g.use = "expected".toList
    List.Forall₂ (Describes env records kept) given d.given ∧ List.Forall₂ (Describes env records kept) expected d.expected ∧
    List.Forall₂ (fun k row => Execute.Encodes env.num env.pixel d.given (given.map (wordsIn · k)) row.1 ∧
      Execute.Encodes env.num env.pixel d.expected (expected.map (wordsIn · k)) row.2) kept d.rows ∧
    (∀ k ∈ kept, k ∈ records) ∧ kept.Pairwise (fun a b => ∃ g ∈ groups, wordsIn g a ≠ wordsIn g b) ∧ (∀ r ∈ records, ∃ k ∈ kept, SameIn env given k r) ∧
    (d.rows.length ≤ 100000 → kept.Pairwise fun a b => ¬ SameIn env given a b)

end Verif.CreateDataset
