import Verif.Model.Lines

/-!
Model of `TextLinePathReader`, /repo/src/util/file_reader.hpp 24-118.
A file is the list of lines `getline` will deliver, or `none` if it cannot be opened. The order of the files is the (unspecified) directory iteration order, so
theorems range over all lists of files. Lines are any type `L`; `emptyLine` is the empty string.
-/
namespace Verif.LineReader

variable {L : Type}

/-- The fields of the reader (file_reader.hpp 111-117): `cur` is the open stream's remaining lines (`none` = not open), `later` the files after `current_file`. -/
structure Reader (L : Type) where
  hasNext : Bool
  nextLine : L
  cur : Option (List L)
  later : List (Option (List L))
  skip : Bool

/-- `stream.open(...)`, `if (skip_header) skipHeader()`, `getline`, file_reader.hpp 77-86 and 104-109; `none` means a failing `getline`. -/
def openNext (skip : Bool) (f : Option (List L)) : Option L × Option (List L) :=
  match f with
  | none => (none, none)
  | some ls =>
    match (if skip then ls.drop 1 else ls) with
    | [] => (none, some [])
    | l :: rest => (some l, some rest)

/-- `nextLine`, file_reader.hpp 65-96 (the state change; the returned string is the old `nextLine`). -/
def advance (emptyLine : L) (r : Reader L) : Reader L :=
  if r.hasNext then
    match r.cur with
    | none => { r with hasNext := false, nextLine := emptyLine }
    | some (l :: rest) => { r with nextLine := l, cur := some rest }
    | some [] =>
      match r.later with
      | [] => { r with hasNext := false, nextLine := emptyLine, cur := none }
      | f :: fs =>
        match openNext r.skip f with
        | (some l, c) => { r with nextLine := l, cur := c, later := fs }
        | (none, c) => { r with hasNext := false, nextLine := emptyLine, cur := c, later := fs }
  else r

/-- The constructor, file_reader.hpp 26-49 (the list of file names is given). -/
def openReader (emptyLine : L) (skip : Bool) (files : List (Option (List L))) : Reader L :=
  match files with
  | [] => ⟨false, emptyLine, none, [], skip⟩
  | none :: fs => ⟨false, emptyLine, none, fs, skip⟩
  | some ls :: fs =>
    if skip then
      match ls with
      | [] => advance emptyLine ⟨false, emptyLine, some [], fs, skip⟩
      | _ :: rest => advance emptyLine ⟨true, emptyLine, some rest, fs, skip⟩
    else advance emptyLine ⟨true, emptyLine, some ls, fs, skip⟩

/-- A caller's loop `while (reader.hasNext()) lines.push_back(reader.nextLine())`, at most `fuel` iterations. -/
def drain (emptyLine : L) : Nat → Reader L → List L
  | 0, _ => []
  | fuel + 1, r => if r.hasNext then r.nextLine :: drain emptyLine fuel (advance emptyLine r) else []

end Verif.LineReader
