import Verif.Model.ConvertTsv
import Verif.Props.C15_Csv

/-!
# C150: converting a tab-separated file to csv
-/
namespace Verif.ConvertTsv
open Verif.TextCodec (Str NL)
open Verif.Csv

/-! ### Specification -/

/-- A line of a tab-separated file. -/
def tsvLine : List Str → Str
  | [] => []
  | [cell] => cell
  | cell :: cells => cell ++ TAB :: tsvLine cells

/-- A cell without quotes, tabs, line breaks and the escapes of happyml's own files. -/
def Plain (cell : Str) : Prop := Q ∉ cell ∧ TAB ∉ cell ∧ NL ∉ cell ∧ TextCodec.decode TAB (strip cell) = strip cell

/-- A cell that is taken for a number, because it begins with one, contains no comma (and no `<`). -/
def NumberLike (num : Str → Bool) (cell : Str) : Prop := num (strip cell) = true → COMMA ∉ cell ∧ TextCodec.LT ∉ cell

/-- The cells of a csv file. -/
def cellsOf (csv : Str) : Option (List (List Str)) :=
  readAll COMMA csv.length (LineReader.drain [] csv.length (LineReader.openReader [] false [some (Lines.getLines NL csv)]))

/-! ### Helpers -/

theorem strip_mem (f : Str) : ∀ c ∈ strip f, c ∈ f := by
  intro c hc
  unfold strip at hc
  have h1 := List.mem_reverse.1 hc
  have h2 := (List.dropWhile_suffix isSpace).subset h1
  exact (List.dropWhile_suffix isSpace).subset (List.mem_reverse.1 h2)

theorem dropWhile_head (p : UInt8 → Bool) (l : Str) : ∀ c, (l.dropWhile p).head? = some c → p c = false := by
  intro c h
  have := List.head?_dropWhile_not p l
  rw [h] at this
  simpa using this

theorem strip_strip (f : Str) : strip (strip f) = strip f := by
  apply strip_of_ends
  · intro c hc
    unfold strip at hc
    rw [List.head?_reverse] at hc
    set a := f.dropWhile isSpace with ha
    have hb : a.reverse.dropWhile isSpace <:+ a.reverse := List.dropWhile_suffix isSpace
    have : a.reverse.getLast? = some c := by
      obtain ⟨t, ht⟩ := hb
      rw [← ht, List.getLast?_append, hc]
      rfl
    rw [List.getLast?_reverse] at this
    exact dropWhile_head isSpace f c this
  · intro c hc
    unfold strip at hc
    rw [List.getLast?_reverse] at hc
    exact dropWhile_head isSpace _ c hc

theorem decode_cell (f : Str) (h : Plain f) : decodeField TAB f = strip f := by
  unfold decodeField
  have hq : Q ∉ strip f := fun hc => h.1 (strip_mem f Q hc)
  have h1 : quoted (strip f) = false := by
    unfold quoted
    rw [Bool.and_eq_false_iff]
    left
    rw [decide_eq_false_iff_not]
    intro hh
    exact hq (List.mem_of_head? hh)
  simp only [h1, Bool.false_eq_true, if_false]
  rw [ReplaceAll.C09_absent _ _ _ (by simp) (fun hi => hq (hi.subset (by simp)))]
  exact h.2.2.2

theorem scan_chars (f : Str) (hq : Q ∉ f) (ht : TAB ∉ f) (rest : Str) (res : List Str) : ∀ w,
    scanLine TAB (f ++ rest) ⟨res, w, false⟩ = scanLine TAB rest ⟨res, w ++ f, false⟩ := by
  induction f with
  | nil => intro w; simp
  | cons c f ih =>
    intro w
    simp only [List.mem_cons, not_or] at hq ht
    rw [List.cons_append, scanLine_other TAB c (Ne.symm hq.1) _ _ _ _ (Or.inr (Ne.symm ht.1)), ih hq.2 ht.2]
    simp

theorem scan_line : ∀ (cells : List Str), cells ≠ [] → (∀ f ∈ cells, Plain f) → ∀ res, ∃ res' w, scanLine TAB (tsvLine cells) ⟨res, [], false⟩ = ⟨res', w, false⟩ ∧
    res' ++ [decodeField TAB w] = res ++ cells.map strip
  | [], h, _, _ => absurd rfl h
  | [f], _, h, res => by
    have hf := h f (by simp)
    refine ⟨res, f, ?_, by simp [decode_cell f hf]⟩
    have := scan_chars f hf.1 hf.2.1 [] res []
    rw [List.append_nil, scanLine_nil] at this
    simpa [tsvLine] using this
  | f :: g :: cells, _, h, res => by
    have hf := h f (by simp)
    obtain ⟨res', w, h1, h2⟩ := scan_line (g :: cells) (by simp) (fun x hx => h x (List.mem_cons_of_mem _ hx)) (res ++ [strip f])
    refine ⟨res', w, ?_, by simpa using h2⟩
    rw [tsvLine, scan_chars f hf.1 hf.2.1, scanLine_delim, List.nil_append, decode_cell f hf]
    · exact h1
    · simp

theorem next_line (cells : List Str) (hne : cells ≠ []) (h : ∀ f ∈ cells, Plain f) (later : List Str) : nextRecord TAB (tsvLine cells :: later) = some (cells.map strip, later) := by
  obtain ⟨res', w, h1, h2⟩ := scan_line cells hne h []
  unfold nextRecord
  simp only [scanLines, h1, if_true, Bool.false_eq_true, if_false, h2, List.nil_append]

theorem copy_rows (num : Str → Bool) : ∀ (rows : List (List Str)) (fuel : Nat), rows.length ≤ fuel → (∀ r ∈ rows, r ≠ []) → (∀ r ∈ rows, ∀ f ∈ r, Plain f) →
    copy num fuel (rows.map tsvLine) = (rows.map fun r => writeRecord num COMMA (r.map strip), true)
  | [], 0, _, _, _ => rfl
  | [], _ + 1, _, _, _ => rfl
  | r :: rows, 0, h, _, _ => absurd h (by simp)
  | r :: rows, fuel + 1, h, hne, hp => by
    have ih := copy_rows num rows fuel (by simpa using h) (fun r hr => hne r (List.mem_cons_of_mem _ hr)) (fun r hr => hp r (List.mem_cons_of_mem _ hr))
    simp only [List.map_cons, copy, next_line r (hne r (by simp)) (hp r (by simp)) (rows.map tsvLine), ih]

theorem NL_tsvLine : ∀ cells : List Str, (∀ f ∈ cells, Plain f) → NL ∉ tsvLine cells
  | [], _ => by simp [tsvLine]
  | [f], h => (h f (by simp)).2.2.1
  | f :: g :: cells, h => by
    have ih := NL_tsvLine (g :: cells) fun x hx => h x (List.mem_cons_of_mem _ hx)
    simp only [tsvLine, List.mem_append, List.mem_cons, not_or]
    exact ⟨(h f (by simp)).2.2.1, by decide, ih⟩

theorem safe_cell (num : Str → Bool) (f : Str) (h : Plain f) (hn : NumberLike num f) : Safe num COMMA (strip f) := by
  refine ⟨strip_strip f, ?_⟩
  have hq : Q ∉ strip f := fun hc => h.1 (strip_mem f Q hc)
  have h1 : quoted (strip f) = false := by
    unfold quoted
    rw [Bool.and_eq_false_iff]
    left
    rw [decide_eq_false_iff_not]
    intro hh
    exact hq (List.mem_of_head? hh)
  cases hnum : num (strip f) with
  | false => exact Or.inr (Or.inl ⟨h1, rfl, fun hi => hq (hi.subset (by simp))⟩)
  | true =>
    obtain ⟨a, b⟩ := hn hnum
    refine Or.inr (Or.inr ⟨h1, rfl, fun c hc => ?_⟩)
    have hm := strip_mem f c hc
    exact ⟨fun e => a (e ▸ hm), fun e => h.1 (e ▸ hm), fun e => b (e ▸ hm), fun e => h.2.2.1 (e ▸ hm)⟩

theorem putLines_length {A : Type} (nl : A) (ls : List (List A)) : ls.length ≤ (Lines.putLines nl ls).length := by
  induction ls with
  | nil => simp
  | cons l ls ih => simp [Lines.putLines] at ih ⊢; omega

/-! ### C150 -/

/-- A tab-separated file of plain cells is converted to a csv file with the same rows of the same cells, without whitespace at the ends of the cells, if cells that begin like
a number contain no comma. -/
theorem C150_converted_partial (num : Str → Bool) (rows : List (List Str)) (hrows : rows ≠ []) (hne : ∀ r ∈ rows, r ≠ []) (hp : ∀ r ∈ rows, ∀ f ∈ r, Plain f)
    (hn : ∀ r ∈ rows, ∀ f ∈ r, NumberLike num f) :
    let result := convert num (some (Lines.getLines NL (Lines.putLines NL (rows.map tsvLine))))
    result.answer = some true ∧ cellsOf result.csv = some (rows.map fun r => r.map strip) := by
  have hl := Lines.getLines_putLines NL (rows.map tsvLine) (by
    intro l hl
    obtain ⟨r, hr, rfl⟩ := List.mem_map.1 hl
    exact NL_tsvLine r (hp r hr))
  have ha : LineReader.allLines false [some (rows.map tsvLine)] = rows.map tsvLine := by simp [LineReader.allLines, LineReader.body]
  have hd : LineReader.drain [] (rows.map tsvLine).length (LineReader.openReader [] false [some (rows.map tsvLine)]) = rows.map tsvLine := by
    rw [LineReader.C16_all_partial [] false _ ?_ _ (by rw [ha]; exact Nat.le_refl _), ha]
    intro f hf
    simp only [List.mem_singleton] at hf
    subst hf
    simp only [LineReader.Useful, LineReader.body]
    simpa using hrows
  have ho : (LineReader.openReader [] false [some (rows.map tsvLine)]).cur ≠ none := by
    obtain ⟨r, rs, rfl⟩ := List.exists_cons_of_ne_nil hrows
    simp [LineReader.openReader, LineReader.advance]
  have hc := copy_rows num rows (rows.map tsvLine).length (by simp) hne hp
  simp only [hl, convert, if_neg ho, Option.getD_some, hd, hc, if_true, true_and]
  have hs : ∀ r ∈ rows.map (fun r => r.map strip), ∀ f ∈ r, Safe num COMMA f := by
    intro r hr f hf
    obtain ⟨r', hr', rfl⟩ := List.mem_map.1 hr
    obtain ⟨f', hf', rfl⟩ := List.mem_map.1 hf
    exact safe_cell num f' (hp r' hr' f' hf') (hn r' hr' f' hf')
  have := C15_file_partial num COMMA (by decide) (by decide) (rows.map fun r => r.map strip) (by
    intro r hr
    obtain ⟨r', hr', rfl⟩ := List.mem_map.1 hr
    simpa using hne r' hr') hs (by simpa using hrows)
    (Lines.putLines NL ((rows.map fun r => r.map strip).map (writeRecord num COMMA))).length (Nat.le_trans (by simp) (putLines_length NL _))
  rw [List.map_map] at this
  exact this

/-- A file that cannot be opened or is empty is reported, but the csv file is emptied. -/
theorem C150_missing (num : Str → Bool) : convert num none = ⟨some false, []⟩ ∧ convert num (some []) = ⟨some false, []⟩ := ⟨rfl, rfl⟩

/-- An address that begins with a house number and contains a comma is cut in two: `12 A St, B` and a tab and `x` become three cells. -/
theorem C150_comma_violated :
    (let rows := [[[49, 50, 32, 65, 32, 83, 116, 44, 32, 66], [120]]]
     (∀ r ∈ rows, ∀ f ∈ r, Plain f) ∧ (convert isFloat (some (rows.map tsvLine))).answer = some true ∧
       cellsOf (convert isFloat (some (rows.map tsvLine))).csv = some [[[49, 50, 32, 65, 32, 83, 116], [66], [120]]]) := by
  unfold Plain
  decide +kernel

/-- A single quotation mark, such as the one for inches, makes the conversion throw after part of the file is written: `a`, then `5"`. -/
theorem C150_quote_violated : convert isFloat (some [[97], [53, 34]]) = ⟨none, [34, 97, 34, 10]⟩ := by decide +kernel

/-! ### Examples -/

/-- `a, b` and ` 1.5 `, then an empty line. -/
example : (∀ r ∈ [[[97, 44, 32, 98], [32, 49, 46, 53, 32]], [[]]], ∀ f ∈ r, Plain f ∧ NumberLike isFloat f) ∧
    cellsOf (convert isFloat (some ([[[97, 44, 32, 98], [32, 49, 46, 53, 32]], [[]]].map tsvLine))).csv = some [[[97, 44, 32, 98], [49, 46, 53]], [[]]] := by
  unfold Plain NumberLike
  decide +kernel

end Verif.ConvertTsv
