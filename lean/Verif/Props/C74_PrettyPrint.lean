import Verif.Lemmas.PrettyPrint

/-!
# C74: printing a dataset shows the requested number of rows
-/

namespace Verif.PrettyPrint

open Verif.PrettyPrintSpec

variable {R : Type}

/-- The reader is consistent: every row has one record and one decoder per column, and there is at least
one column.  The writer of a dataset guarantees this (C24). -/
def Reader.WellFormed (rd : Reader R) : Prop :=
  rd.givenDecoders.length = rd.givenNames.length ∧ rd.expectedDecoders.length = rd.expectedNames.length ∧
  0 < rd.givenNames.length + rd.expectedNames.length ∧
  ∀ row ∈ rd.rows, row.1.length = rd.givenNames.length ∧ row.2.length = rd.expectedNames.length

/-- The cells a user expects in a row: the expected values, then the given ones, each shown by the decoder of
its own column. -/
def cellsOf (rd : Reader R) (row : List R × List R) : List (List Text) :=
  List.zipWith (fun d r => d r) rd.expectedDecoders row.2 ++ List.zipWith (fun d r => d r) rd.givenDecoders row.1

/-- How many rows a limit asks for: all for a negative limit. -/
def wanted (rows : Nat) (limit : Int) : Nat := if limit < 0 then rows else min rows limit.toNat

theorem maxRows_eq (rows : Nat) (limit : Int) (h1 : -2 ^ 31 ≤ limit) (h2 : limit < 2 ^ 31) (hr : rows < 2 ^ 63) :
    maxRows rows limit = wanted rows limit := by
  unfold maxRows wanted
  split
  · rename_i h; subst h; simp
  · split
    · have : limit % 2 ^ 64 = limit + 2 ^ 64 := by omega
      rw [this]; omega
    · have : limit % 2 ^ 64 = limit := by omega
      rw [this]

theorem mergeRecords_eq (rd : Reader R) (hw : rd.WellFormed) (row : List R × List R) (hr : row ∈ rd.rows) :
    mergeRecords rd.expectedDecoders row.2 rd.givenDecoders row.1 = some (cellsOf rd row) := by
  obtain ⟨h1, h2, _, h3⟩ := hw
  obtain ⟨hg, he⟩ := h3 row hr
  unfold mergeRecords
  rw [groupStrings_eq _ _ 0 (by omega), groupStrings_eq _ _ 0 (by omega)]
  simp [cellsOf]

theorem cellsOf_length (rd : Reader R) (hw : rd.WellFormed) (row : List R × List R) (hr : row ∈ rd.rows) :
    (cellsOf rd row).length = (rd.expectedNames ++ rd.givenNames).length := by
  obtain ⟨h1, h2, _, h3⟩ := hw
  obtain ⟨hg, he⟩ := h3 row hr
  simp [cellsOf, h1, h2, hg, he]

theorem printLoop_rest (rd : Reader R) (hw : rd.WellFormed) (ws : List Nat)
    (hl : ws.length = (rd.expectedNames ++ rd.givenNames).length) :
    ∀ n i s, i + n ≤ rd.rows.length → printLoop rd n i ws s =
      some (s ++ ((((rd.rows.drop i).take n).map (cellsOf rd)).map (blockOf ws)).flatten.flatMap (· ++ ['\n'])) := by
  intro n
  induction n with
  | zero => intro i s _; simp [printLoop]
  | succ n ih =>
    intro i s h
    have hi : i < rd.rows.length := by omega
    have hmem : rd.rows[i] ∈ rd.rows := List.getElem_mem hi
    have hne : ws.isEmpty = false := by
      cases ws with
      | nil => exfalso; have := hw.2.2.1; simp at hl; omega
      | cons a b => rfl
    unfold printLoop
    rw [List.getElem?_eq_getElem hi]
    obtain ⟨g, e, hge⟩ : ∃ g e, rd.rows[i] = (g, e) := ⟨_, _, rfl⟩
    have hm := mergeRecords_eq rd hw _ hmem
    have hc := cellsOf_length rd hw _ hmem
    rw [hge] at hm hc
    simp only [hge, hm, hne, Bool.false_eq_true, if_false]
    rw [row_eq ws _ (by omega)]
    simp only
    rw [ih (i + 1) _ (by omega), List.drop_eq_getElem_cons hi, hge]
    simp

/-- Printing succeeds and shows the header and exactly the first `wanted` rows, in order, each with all its
values; header and rows use the same columns in the same order (expected values before given ones).  With a
limit of 0 or without rows nothing is printed. -/
theorem C74 (rd : Reader R) (hw : rd.WellFormed) (limit : Int) (h1 : -2 ^ 31 ≤ limit) (h2 : limit < 2 ^ 31)
    (hr : rd.rows.length < 2 ^ 63) :
    ∃ text, prettyPrint [] rd limit = some text ∧
      (wanted rd.rows.length limit = 0 → text = []) ∧
      (0 < wanted rd.rows.length limit →
        IsTable (rd.expectedNames ++ rd.givenNames) ((rd.rows.take (wanted rd.rows.length limit)).map (cellsOf rd)) text) := by
  unfold prettyPrint
  rw [maxRows_eq _ _ h1 h2 hr]
  have hle : wanted rd.rows.length limit ≤ rd.rows.length := by unfold wanted; split <;> omega
  revert hle
  generalize wanted rd.rows.length limit = n
  intro hle
  cases n with
  | zero => exact ⟨[], rfl, fun _ => rfl, fun h => absurd h (by omega)⟩
  | succ n =>
    have hi : 0 < rd.rows.length := by omega
    have hmem : rd.rows[0] ∈ rd.rows := List.getElem_mem hi
    have hm := mergeRecords_eq rd hw _ hmem
    have hc := cellsOf_length rd hw _ hmem
    obtain ⟨g, e, hge⟩ : ∃ g e, rd.rows[0] = (g, e) := ⟨_, _, rfl⟩
    rw [hge] at hm hc
    obtain ⟨ws, hws⟩ : ∃ ws, ws = widthsLoop (rd.expectedNames ++ rd.givenNames) (cellsOf rd (g, e)) := ⟨_, rfl⟩
    have hl : ws.length = (rd.expectedNames ++ rd.givenNames).length := by
      rw [hws]; exact widthsLoop_length _ _ hc.symm
    have hcons : rd.rows = (g, e) :: rd.rows.drop 1 := by
      have h := List.drop_eq_getElem_cons hi
      rw [List.drop_zero, hge] at h; exact h
    refine ⟨(lineText ws (rd.expectedNames ++ rd.givenNames) ::
      (((rd.rows.take (n + 1)).map (cellsOf rd)).map (blockOf ws)).flatten).flatMap (· ++ ['\n']), ?_,
      fun h => absurd h (by omega), fun _ => ?_⟩
    · unfold printLoop
      rw [List.getElem?_eq_getElem hi]
      simp only [hge, hm, List.isEmpty_nil, if_true]
      have hwo : widthsOf (mergeHeaders rd.expectedNames rd.givenNames) (cellsOf rd (g, e)) = some ws := by
        unfold widthsOf mergeHeaders
        rw [if_neg (by omega), hws]
      rw [hwo]
      simp only
      unfold mergeHeaders
      rw [header_eq ws _ hl]
      simp only
      rw [row_eq ws _ (by omega)]
      simp only
      rw [printLoop_rest rd hw ws hl n 1 _ (by omega)]
      conv_rhs => rw [hcons]
      simp
    · refine ⟨ws, _, _, lineText_isLine _ _ hl, by simp, ?_, ?_, ?_, rfl⟩
      · intro i record block h3 h4
        rw [List.getElem?_map, h3] at h4
        simp only [Option.map_some, Option.some.injEq] at h4
        subst h4
        rw [List.getElem?_map, Option.map_eq_some_iff] at h3
        obtain ⟨row, hrow, rfl⟩ := h3
        have hmem : row ∈ rd.rows := List.mem_of_mem_take (List.mem_of_getElem? hrow)
        exact block_shows _ _ (by rw [hl, cellsOf_length rd hw row hmem])
      · intro i w name hwi hn
        obtain ⟨hil, _⟩ := List.getElem?_eq_some_iff.1 hn
        have hcell : (cellsOf rd (g, e))[i]? = some (cellsOf rd (g, e))[i] := List.getElem?_eq_getElem (by omega)
        rw [hws] at hwi
        rw [widthsLoop_get _ _ i w name _ hwi hn hcell]
        exact (cellWidth_le _ _).1
      · intro first hf i w cell hwi hcell
        rw [hcons] at hf
        simp only [List.take_succ_cons, List.map_cons, List.getElem?_cons_zero, Option.some.injEq] at hf
        subst hf
        obtain ⟨hil, _⟩ := List.getElem?_eq_some_iff.1 hcell
        have hn : (rd.expectedNames ++ rd.givenNames)[i]? = some (rd.expectedNames ++ rd.givenNames)[i] :=
          List.getElem?_eq_getElem (by omega)
        rw [hws] at hwi
        rw [widthsLoop_get _ _ i w _ cell hwi hn hcell]
        exact (cellWidth_le _ _).2

/-- Where column `i` starts in a line. -/
def offset (ws : List Nat) (i : Nat) : Nat := (ws.take i).sum + i

/-- Columns line up: in every line whose cells fit, column `i` occupies the same positions and shows its cell
right-aligned there, and all such lines have the same length. -/
theorem C74_aligned (ws : List Nat) (cs : List Text) (t : Text) (h : IsLine ws cs t) (hne : cs ≠ [])
    (hfit : ∀ (i w : Nat) (c : Text), ws[i]? = some w → cs[i]? = some c → c.length ≤ w) :
    t.length + 1 = ws.sum + ws.length ∧
    ∀ (i w : Nat) (c : Text), ws[i]? = some w → cs[i]? = some c → RightAligned w c ((t.drop (offset ws i)).take w) := by
  obtain ⟨parts, hp, hw, hal, rfl⟩ := h
  induction ws generalizing cs parts with
  | nil =>
    cases cs with
    | nil => exact absurd rfl hne
    | cons c cs => simp at hw
  | cons w ws ih =>
    cases cs with
    | nil => simp at hw
    | cons c cs =>
      cases parts with
      | nil => simp at hp
      | cons p ps =>
        have hp0 := hal 0 w c p rfl rfl rfl
        have hf0 := hfit 0 w c rfl rfl
        have hpl : p.length = w := by rw [hp0.1]; omega
        cases ps with
        | nil =>
          cases cs with
          | cons c' cs' => simp at hp
          | nil =>
            have hws : ws = [] := by cases ws <;> simp_all
            subst hws
            refine ⟨by simp [List.intercalate, hpl], ?_⟩
            intro i w' c' h3 h4
            cases i with
            | succ i => simp at h4
            | zero =>
              simp at h3 h4
              subst h3 h4
              simpa [offset, List.intercalate, ← hpl] using hp0
        | cons q qs =>
          cases cs with
          | nil => simp at hp
          | cons c' cs' =>
            obtain ⟨i1, i2⟩ := ih (c' :: cs') (by simp)
              (fun i w c h3 h4 => hfit (i + 1) w c (by simpa using h3) (by simpa using h4))
              (q :: qs) (by simpa using hp) (by simpa using hw)
              (fun i w c p h3 h4 h5 => hal (i + 1) w c p (by simpa using h3) (by simpa using h4) (by simpa using h5))
            have ht : List.intercalate ['|'] (p :: q :: qs) = p ++ '|' :: List.intercalate ['|'] (q :: qs) := by
              rw [intercalate_cons, intercalate_cons]; simp
            rw [ht]
            constructor
            · simp only [List.length_append, List.length_cons, List.sum_cons]
              omega
            · intro i w' d h3 h4
              cases i with
              | zero =>
                simp at h3 h4
                subst h3 h4
                have : (p ++ '|' :: List.intercalate ['|'] (q :: qs)).take w = p := by
                  rw [← hpl]; simp
                simpa [offset, this] using hp0
              | succ i =>
                have h5 := i2 i w' d (by simpa using h3) (by simpa using h4)
                have h6 : offset (w :: ws) (i + 1) = p.length + (offset ws i + 1) := by
                  simp only [offset, List.take_succ_cons, List.sum_cons]; omega
                rw [h6, ← List.drop_drop, List.drop_left]
                simpa using h5

/-- A small dataset: one given and one expected column, three rows. -/
def exampleReader : Reader Nat where
  givenNames := ["size".toList]
  expectedNames := ["kind".toList]
  givenDecoders := [fun n => List.replicate n "x".toList]
  expectedDecoders := [fun n => [(toString n).toList]]
  rows := [([1], [7]), ([2], [8]), ([1], [9])]

example : exampleReader.WellFormed := by
  unfold Reader.WellFormed; decide

/-- With a limit of two, the header and two rows are shown, the second of them two lines high. -/
example : prettyPrint [] exampleReader 2 = some "kind|size\n   7|   x\n   8|   x\n    |   x\n".toList := by
  decide +kernel

/-- A limit of 0 shows nothing, -1 shows all rows. -/
example : prettyPrint [] exampleReader 0 = some [] ∧
    prettyPrint [] exampleReader (-1) = prettyPrint [] exampleReader 3 ∧
    prettyPrint [] exampleReader 4 = prettyPrint [] exampleReader 3 := by
  decide +kernel

/-- The widths come from the first row only, so a wider later row is not aligned with it. -/
example : prettyPrint [] { exampleReader with rows := [([1], [7]), ([1], [123456])] } (-1) =
    some "kind|size\n   7|   x\n123456|   x\n".toList := by
  decide +kernel

end Verif.PrettyPrint
