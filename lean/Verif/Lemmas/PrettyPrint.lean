import Verif.Model.PrettyPrint
import Verif.Spec.PrettyPrint
import Mathlib.Data.List.Basic

/-! Lemmas for C74. -/

namespace Verif.PrettyPrint

open Verif.PrettyPrintSpec

theorem intercalate_cons {α : Type} (sep x : List α) (xs : List (List α)) :
    List.intercalate sep (x :: xs) = x ++ xs.flatMap (sep ++ ·) := by
  induction xs generalizing x with
  | nil => simp [List.intercalate]
  | cons y ys ih =>
    have h : List.intercalate sep (x :: y :: ys) = x ++ (sep ++ List.intercalate sep (y :: ys)) := by
      simp [List.intercalate, List.intersperse]
    rw [h, ih]
    simp [List.flatMap_cons]

theorem drop_cons_get (ws : List Nat) (i w : Nat) (h : ws[i]? = some w) : ws.drop i = w :: ws.drop (i + 1) := by
  obtain ⟨hi, rfl⟩ := List.getElem?_eq_some_iff.1 h
  exact List.drop_eq_getElem_cons hi

theorem headerLoop_bar (ws : List Nat) (names : List Text) :
    ∀ i s, i + names.length ≤ ws.length →
      headerLoop ws i names ['|'] s = some (s ++ (List.zipWith setw (ws.drop i) names).flatMap (['|'] ++ ·)) := by
  induction names with
  | nil => intro i s _; simp [headerLoop]
  | cons n ns ih =>
    intro i s h
    simp only [List.length_cons] at h
    have hi : i < ws.length := by omega
    have hw : ws[i]? = some ws[i] := List.getElem?_eq_getElem hi
    unfold headerLoop
    simp only [hw]
    rw [ih (i + 1) _ (by omega), drop_cons_get ws i _ hw, List.zipWith_cons_cons]
    simp

theorem headerLoop_start (ws : List Nat) (names : List Text) (s : Text) (h : names.length ≤ ws.length) :
    headerLoop ws 0 names [] s = some (s ++ List.intercalate ['|'] (List.zipWith setw ws names)) := by
  cases names with
  | nil => simp [headerLoop, List.intercalate]
  | cons n ns =>
    simp only [List.length_cons] at h
    have hi : 0 < ws.length := by omega
    have hw : ws[0]? = some ws[0] := List.getElem?_eq_getElem hi
    unfold headerLoop
    simp only [hw]
    rw [headerLoop_bar ws ns 1 _ (by omega)]
    have hd := drop_cons_get ws 0 _ hw
    rw [List.drop_zero] at hd
    conv_rhs => rw [hd]
    rw [List.zipWith_cons_cons, intercalate_cons]
    simp

theorem lineLoop_eq (ws : List Nat) (h : Nat) (cells : List (List Text)) :
    ∀ i d s, lineLoop ws h i cells d s = headerLoop ws i (lineCells cells h) d s := by
  induction cells with
  | nil => intro i d s; simp [lineLoop, headerLoop, lineCells]
  | cons c cs ih =>
    intro i d s
    have hv : (if h < c.length then c.getD h [] else []) = (c[h]?).getD [] := by
      split
      · simp
      · rename_i hn
        rw [List.getElem?_eq_none (by omega)]; rfl
    unfold lineLoop headerLoop lineCells
    simp only [List.map_cons, hv]
    cases ws[i]? with
    | none => rfl
    | some w => exact ih _ _ _

/-- The text of one line. -/
def lineText (ws : List Nat) (cs : List Text) : Text := List.intercalate ['|'] (List.zipWith setw ws cs)

theorem setw_aligned (w : Nat) (c : Text) : RightAligned w c (setw w c) := by
  refine ⟨?_, _, rfl⟩
  simp only [setw, List.length_append, List.length_replicate]
  omega

theorem lineText_isLine (ws : List Nat) (cs : List Text) (h : ws.length = cs.length) :
    IsLine ws cs (lineText ws cs) := by
  refine ⟨List.zipWith setw ws cs, by simp [h], h, ?_, rfl⟩
  intro i w c p hw hc hp
  rw [List.getElem?_zipWith, hw, hc] at hp
  cases hp
  exact setw_aligned w c

theorem rowLoop_eq (ws : List Nat) (cells : List (List Text)) (hl : ws.length = cells.length) :
    ∀ n h s, rowLoop ws cells n h s =
      some (s ++ ((List.range' h n).map fun k => lineText ws (lineCells cells k)).flatMap (· ++ ['\n'])) := by
  intro n
  induction n with
  | zero => intro h s; simp [rowLoop]
  | succ n ih =>
    intro h s
    unfold rowLoop
    rw [lineLoop_eq, headerLoop_start _ _ _ (by simp [lineCells, hl])]
    simp only
    rw [ih]
    simp [List.range'_succ, lineText]

theorem maxHeight_le (cells : List (List Text)) : ∀ m, m ≤ maxHeight m cells ∧ ∀ c ∈ cells, c.length ≤ maxHeight m cells := by
  induction cells with
  | nil => intro m; simp [maxHeight]
  | cons c cs ih =>
    intro m
    obtain ⟨h1, h2⟩ := ih (max m c.length)
    unfold maxHeight
    refine ⟨by omega, ?_⟩
    intro d hd
    rcases List.mem_cons.1 hd with rfl | hd
    · omega
    · exact h2 d hd

theorem maxHeight_attained (cells : List (List Text)) : ∀ m, maxHeight m cells = m ∨ ∃ c ∈ cells, c.length = maxHeight m cells := by
  induction cells with
  | nil => intro m; simp [maxHeight]
  | cons c cs ih =>
    intro m
    unfold maxHeight
    rcases ih (max m c.length) with h | ⟨d, hd, h⟩
    · rcases Nat.le_total m c.length with hle | hle
      · right; exact ⟨c, by simp, by rw [h]; omega⟩
      · left; omega
    · right; exact ⟨d, by simp [hd], h⟩

theorem maxHeight_isHeight (cells : List (List Text)) : IsHeight cells (maxHeight 0 cells) := by
  refine ⟨(maxHeight_le cells 0).2, maxHeight_attained cells 0⟩

/-- The lines of one record. -/
def blockOf (ws : List Nat) (cells : List (List Text)) : List Text :=
  (List.range' 0 (maxHeight 0 cells)).map fun k => lineText ws (lineCells cells k)

theorem row_eq (ws : List Nat) (cells : List (List Text)) (hl : ws.length = cells.length) (s : Text) :
    row s cells ws = some (s ++ (blockOf ws cells).flatMap (· ++ ['\n'])) := rowLoop_eq ws cells hl _ _ _

theorem block_shows (ws : List Nat) (cells : List (List Text)) (hl : ws.length = cells.length) :
    ShowsRecord ws cells (blockOf ws cells) := by
  refine ⟨by simpa [blockOf] using maxHeight_isHeight cells, ?_⟩
  intro h t ht
  simp only [blockOf, List.getElem?_map, Option.map_eq_some_iff] at ht
  obtain ⟨k, hk, rfl⟩ := ht
  obtain ⟨hh, hk⟩ := List.getElem?_eq_some_iff.1 hk
  simp only [List.getElem_range', Nat.zero_add, Nat.one_mul] at hk
  subst hk
  exact lineText_isLine _ _ (by simp [lineCells, hl])

theorem header_eq (ws : List Nat) (names : List Text) (hl : ws.length = names.length) (s : Text) :
    header s names ws = some (s ++ (lineText ws names ++ ['\n'])) := by
  unfold header
  rw [headerLoop_start _ _ _ (by omega)]
  simp [lineText]

theorem cellWidth_le (cell : List Text) : ∀ m, m ≤ cellWidth m cell ∧ ∀ l ∈ cell, l.length ≤ cellWidth m cell := by
  induction cell with
  | nil => intro m; simp [cellWidth]
  | cons c cs ih =>
    intro m
    obtain ⟨h1, h2⟩ := ih (max m c.length)
    unfold cellWidth
    refine ⟨by omega, ?_⟩
    intro d hd
    rcases List.mem_cons.1 hd with rfl | hd
    · omega
    · exact h2 d hd

theorem widthsLoop_length (names : List Text) : ∀ cells : List (List Text), names.length = cells.length →
    (widthsLoop names cells).length = names.length := by
  induction names with
  | nil => intro cells _; cases cells <;> simp [widthsLoop]
  | cons n ns ih =>
    intro cells h
    cases cells with
    | nil => simp at h
    | cons c cs => simp only [widthsLoop, List.length_cons]; rw [ih cs (by simpa using h)]

theorem widthsLoop_get (names : List Text) : ∀ (cells : List (List Text)) (i : Nat) (w : Nat) name cell,
    (widthsLoop names cells)[i]? = some w → names[i]? = some name → cells[i]? = some cell →
    w = cellWidth name.length cell := by
  induction names with
  | nil => intro cells i w name cell h hn; simp at hn
  | cons n ns ih =>
    intro cells i w name cell h hn hc
    cases cells with
    | nil => simp at hc
    | cons c cs =>
      cases i with
      | zero => simp [widthsLoop] at h hn hc; subst hn hc; exact h.symm
      | succ i => simp [widthsLoop] at h hn hc; exact ih cs i w name cell h hn hc

theorem groupStrings_eq {R : Type} (ds : List (R → List Text)) (rs : List R) :
    ∀ i, i + rs.length ≤ ds.length →
      groupStrings ds i rs = some (List.zipWith (fun d r => d r) (ds.drop i) rs) := by
  induction rs with
  | nil => intro i _; simp [groupStrings]
  | cons r rs ih =>
    intro i h
    simp only [List.length_cons] at h
    have hi : i < ds.length := by omega
    unfold groupStrings
    rw [ih (i + 1) (by omega), List.getElem?_eq_getElem hi, List.drop_eq_getElem_cons hi,
      List.zipWith_cons_cons]

end Verif.PrettyPrint
