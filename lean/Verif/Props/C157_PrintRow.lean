import Verif.Model.PrintRow
import Verif.Spec.PrintRow
import Verif.Lemmas.Decimal
import Mathlib.Tactic.Ring

/-!
C157: what is printed for a record of numbers are its numbers, in order, to three decimals.

`C157_row` and `C157_pixels` say what a line looks like. Only the first number of a line is filled to eight characters, so that numbers below each other are not
aligned (`C157_aligned_violated`).
-/
namespace Verif.PrintRow
open Verif.TextCodec Verif.FloatBits Verif.FloatArith Verif.Decimal

theorem put_zero (o s : Str) : Stream.put ⟨o, 0⟩ s = ⟨o ++ s, 0⟩ := by
  unfold Stream.put setw
  simp

theorem columnLoop_rest (xs : List (BitVec 32)) : ∀ o : Str, columnLoop ⟨o, 0⟩ sep xs = ⟨o ++ xs.flatMap fun x => sep ++ fixed3 x, 0⟩ := by
  induction xs with
  | nil => intro o; simp [columnLoop]
  | cons x xs ih =>
    intro o
    rw [columnLoop, if_neg (by decide), put_zero, put_zero, ih]
    simp

theorem channelLoop_rest (xs : List (BitVec 32)) : ∀ o : Str, channelLoop ⟨o, 0⟩ sep xs = ⟨o ++ xs.flatMap fun x => sep ++ fixed3 x, 0⟩ := by
  induction xs with
  | nil => intro o; simp [channelLoop]
  | cons x xs ih =>
    intro o
    rw [channelLoop, if_neg (by decide), put_zero, put_zero, ih]
    simp

theorem joined_cons (s : Str) (ss : List Str) : joined sep (s :: ss) = s ++ ss.flatMap fun t => sep ++ t := by
  induction ss generalizing s with
  | nil => simp [joined]
  | cons t ss ih => rw [joined, ih, List.flatMap_cons]; simp

theorem channelLoop_joined (xs : List (BitVec 32)) (o : Str) : channelLoop ⟨o, 0⟩ [] xs = ⟨o ++ joined sep (xs.map fixed3), 0⟩ := by
  cases xs with
  | nil => simp [channelLoop, joined]
  | cons x xs =>
    rw [channelLoop, if_pos rfl, put_zero, channelLoop_rest, List.map_cons, joined_cons, List.flatMap_map]
    simp

def pixelText (p : List (BitVec 32)) : Str := 40 :: joined sep (p.map fixed3) ++ [41]

theorem pixelLoop_rest (ps : List (List (BitVec 32))) : ∀ o : Str, pixelLoop ⟨o, 0⟩ sep ps = ⟨o ++ ps.flatMap fun p => sep ++ pixelText p, 0⟩ := by
  induction ps with
  | nil => intro o; simp [pixelLoop]
  | cons p ps ih =>
    intro o
    rw [pixelLoop, put_zero, put_zero, channelLoop_joined, put_zero, ih]
    simp [pixelText]

theorem columnLoop_row (x : BitVec 32) (xs : List (BitVec 32)) :
    (columnLoop ⟨[], 8⟩ [] (x :: xs)).out = List.replicate (8 - (fixed3 x).length) 32 ++ joined sep ((x :: xs).map fixed3) := by
  have e : Stream.put ⟨[], 8⟩ (fixed3 x) = ⟨List.replicate (8 - (fixed3 x).length) 32 ++ fixed3 x, 0⟩ := by simp [Stream.put, setw]
  rw [columnLoop, if_pos rfl, e, columnLoop_rest, List.map_cons, joined_cons, List.flatMap_map, List.append_assoc]

theorem fixed3_shows (x : BitVec 32) (h : isFinite x = true) : Shows (fixed3 x) x := by
  have hn : isNaN x = false := by
    unfold isFinite at h; unfold isNaN
    simp only [bne_iff_ne, ne_eq] at h
    simp [h]
  have hi : isInf x = false := by
    unfold isFinite at h; unfold isInf
    simp only [bne_iff_ne, ne_eq] at h
    simp [h]
  obtain ⟨h1, h2, h3⟩ := dec_spec (thousandths x / 1000)
  obtain ⟨p1, p2⟩ := padded_spec 3 (thousandths x % 1000)
  have hv : digitsValue (dec (thousandths x / 1000) ++ padded 3 (thousandths x % 1000)) = thousandths x := by
    rw [digitsValue_padded 3 _ (show thousandths x % 1000 < 10 ^ 3 from Nat.mod_lt _ (by decide)), h1]
    exact Nat.div_add_mod' _ _
  refine ⟨dec (thousandths x / 1000), padded 3 (thousandths x % 1000), ?_, h3, h2, p1, p2, ?_⟩
  · unfold fixed3
    rw [hn, hi]
    simp
  · rw [hv]
    obtain ⟨c1, c2⟩ := nearest_close (magUnits (expo x) (frac x) * 1000) (2 ^ 149) (by positivity)
    exact ⟨c2, c1⟩

/-- A shown number contains neither commas nor blanks nor parentheses, so that a line can be taken apart again. -/
theorem shows_plain (s : Str) (x : BitVec 32) (h : Shows s x) : ∀ c ∈ s, c ≠ 44 ∧ c ≠ 32 ∧ c ≠ 40 ∧ c ≠ 41 := by
  obtain ⟨w, f, rfl, -, hw, hf, -⟩ := h
  have hd : ∀ c : UInt8, Csv.isDigit c = true → c ≠ 44 ∧ c ≠ 32 ∧ c ≠ 40 ∧ c ≠ 41 := by
    intro c hc
    refine ⟨?_, ?_, ?_, ?_⟩ <;> · rintro rfl; exact absurd hc (by decide)
  intro c hc
  simp only [List.mem_append, List.mem_cons] at hc
  rcases hc with (hc | hc) | hc | hc
  · split at hc
    · rw [List.mem_singleton.mp hc]; decide
    · cases hc
  · exact hd c (hw c hc)
  · rw [hc]; decide
  · exact hd c (hf c hc)

/-- C157. A record with one channel has one line for each row: blanks, and then its numbers in order, separated by commas, each to three decimals. -/
theorem C157_row (t : Tensor (BitVec 32)) (hk : t.chans = 1) (hc : 0 < t.cols) (row : Nat) (hr : row < t.rows) (hf : ∀ c, c < t.cols → isFinite (t.get row c 0) = true) :
    ∃ blanks parts, (lines t)[row]? = some (List.replicate blanks 32 ++ joined [44, 32] parts) ∧ (lines t).length = t.rows ∧ parts.length = t.cols ∧
      ∀ c, c < t.cols → ∃ s, parts[c]? = some s ∧ Shows s (t.get row c 0) ∧ ∀ b ∈ s, b ≠ 44 ∧ b ≠ 32 := by
  obtain ⟨n, hn⟩ : ∃ n, t.cols = n + 1 := ⟨t.cols - 1, by omega⟩
  refine ⟨8 - (fixed3 (t.get row 0 0)).length, (List.range t.cols).map fun c => fixed3 (t.get row c 0), ?_, by simp [lines], by simp, ?_⟩
  · unfold lines
    rw [List.getElem?_map, List.getElem?_range hr, Option.map_some]
    congr 1
    unfold prettyPrintRow
    rw [if_pos hk, hn, List.range_succ_eq_map, List.map_cons, columnLoop_row, List.map_cons, List.map_cons, List.map_map]
    rfl
  · intro c hlt
    have hs := fixed3_shows _ (hf c hlt)
    exact ⟨fixed3 (t.get row c 0), by rw [List.getElem?_map, List.getElem?_range hlt]; rfl, hs, fun b hb => ⟨(shows_plain _ _ hs b hb).1, (shows_plain _ _ hs b hb).2.1⟩⟩

/-- C157. With several channels the numbers of each column are in parentheses, behind eight blanks. -/
theorem C157_pixels (t : Tensor (BitVec 32)) (hk : t.chans ≠ 1) (hc : 0 < t.cols) (row : Nat) (hr : row < t.rows)
    (hf : ∀ c k, c < t.cols → k < t.chans → isFinite (t.get row c k) = true) :
    ∃ parts : List (List Str), (lines t)[row]? = some (List.replicate 8 32 ++ joined [44, 32] (parts.map fun p => 40 :: joined [44, 32] p ++ [41])) ∧
      parts.length = t.cols ∧ ∀ c, c < t.cols → ∃ p, parts[c]? = some p ∧ p.length = t.chans ∧
        ∀ k, k < t.chans → ∃ s, p[k]? = some s ∧ Shows s (t.get row c k) ∧ ∀ b ∈ s, b ≠ 44 ∧ b ≠ 32 ∧ b ≠ 40 ∧ b ≠ 41 := by
  obtain ⟨n, hn⟩ : ∃ n, t.cols = n + 1 := ⟨t.cols - 1, by omega⟩
  refine ⟨(List.range t.cols).map fun c => (List.range t.chans).map fun k => fixed3 (t.get row c k), ?_, by simp, ?_⟩
  · unfold lines
    rw [List.getElem?_map, List.getElem?_range hr, Option.map_some]
    congr 1
    unfold prettyPrintRow
    have e : Stream.put ⟨[], 8⟩ [] = ⟨List.replicate 8 32, 0⟩ := by simp [Stream.put, setw]
    rw [if_neg hk, hn, List.range_succ_eq_map, List.map_cons, pixelLoop, e, put_zero, channelLoop_joined, put_zero, pixelLoop_rest]
    simp only [List.map_cons, List.map_map]
    show _ = _ ++ joined sep _
    rw [joined_cons, List.flatMap_map, List.flatMap_map]
    simp [pixelText, Function.comp_def]
    rfl
  · intro c hlt
    refine ⟨(List.range t.chans).map fun k => fixed3 (t.get row c k), by rw [List.getElem?_map, List.getElem?_range hlt]; rfl, by simp, ?_⟩
    intro k hk'
    have hs := fixed3_shows _ (hf c k hlt hk')
    exact ⟨fixed3 (t.get row c k), by rw [List.getElem?_map, List.getElem?_range hk']; rfl, hs, shows_plain _ _ hs⟩

/-- C157 is violated for the alignment: the rows (1, 1) and (1, 10) have different lengths, although both start with the same number of characters. -/
theorem C157_aligned_violated :
    ∃ t : Tensor (BitVec 32), t.chans = 1 ∧ t.cols = 2 ∧ (lines t).map List.length = [15, 16] ∧
      ∀ r c, isFinite (t.get r c 0) = true := by
  refine ⟨⟨2, 2, 1, fun r c _ => if r = 1 ∧ c = 1 then 0x41200000#32 else 0x3F800000#32⟩, rfl, rfl, by decide +kernel, ?_⟩
  intro r c
  simp only
  split <;> decide

/-- 0.1 and -12.3456: the line `   0.100, -12.346`. -/
example : lines ⟨1, 2, 1, fun _ c _ => if c = 0 then 0x3DCCCCCD#32 else 0xC145879A#32⟩ =
    [[32, 32, 32, 48, 46, 49, 48, 48, 44, 32, 45, 49, 50, 46, 51, 52, 54]] := by
  decide +kernel

/-- Two channels: `        (0.000, 1.000)`. -/
example : lines ⟨1, 1, 2, fun _ _ k => if k = 0 then 0 else 0x3F800000#32⟩ =
    [[32, 32, 32, 32, 32, 32, 32, 32, 40, 48, 46, 48, 48, 48, 44, 32, 49, 46, 48, 48, 48, 41]] := by
  decide +kernel

end Verif.PrintRow
