import Verif.Model.Picture
import Mathlib.Data.Rat.Floor
import Mathlib.Tactic.Linarith
import Mathlib.Tactic.Positivity
import Mathlib.Tactic.FieldSimp
import Mathlib.Tactic.NormNum

/-!
C118: an image is shown as text with one line for two rows and one character for each column, and the characters are the shades of its brightness.
-/

namespace Verif.Picture
open Verif.Encoders (Out)

variable {F : Type} [Field F] [LinearOrder F]

/-! ### Specification -/

/-- The brightness of a pixel: its value, or the luminance of red, green and blue. -/
def luminance (t : Tensor F) (r c : Nat) : F :=
  if t.chans = 1 then t.get r c 0 else 299 / 1000 * t.get r c 0 + 587 / 1000 * t.get r c 1 + 114 / 1000 * t.get r c 2

/-- The mean brightness of two rows. -/
def brightness (t : Tensor F) (h c : Nat) : F := (luminance t (2 * h) c + luminance t (2 * h + 1) c) / 2

/-- `M` is the largest of the brightnesses; one, if all are black. -/
def IsWhite (t : Tensor F) (M : F) : Prop :=
  0 < M ∧ (∀ h c, h < t.rows / 2 → c < t.cols → brightness t h c ≤ M) ∧
    ((∃ h c, h < t.rows / 2 ∧ c < t.cols ∧ brightness t h c = M) ∨ ∀ h c, h < t.rows / 2 → c < t.cols → brightness t h c = 0)

/-- Blank, light, medium and dark shade, and full block, in code page 437. -/
def shades : List (BitVec 8) := [32, 176, 177, 178, 219]

/-! ### The cells -/

theorem foldl_max (l : List F) (a : F) : a ≤ l.foldl max a ∧ (∀ x ∈ l, x ≤ l.foldl max a) ∧ (l.foldl max a = a ∨ l.foldl max a ∈ l) := by
  induction l generalizing a with
  | nil => simp
  | cons x l ih =>
    obtain ⟨h1, h2, h3⟩ := ih (max a x)
    simp only [List.foldl_cons]
    refine ⟨le_trans (le_max_left _ _) h1, ?_, ?_⟩
    · intro y hy
      rw [List.mem_cons] at hy
      rcases hy with rfl | hy
      · exact le_trans (le_max_right _ _) h1
      · exact h2 y hy
    · rcases h3 with h3 | h3
      · rw [h3]
        rcases max_choice a x with h | h
        · exact Or.inl h
        · exact Or.inr (by rw [h]; exact List.mem_cons_self)
      · exact Or.inr (List.mem_cons_of_mem _ h3)

theorem mem_cells (t : Tensor F) (x : F) : x ∈ (cells t).flatten ↔ ∃ h c, h < (t.rows + 1) / 2 ∧ c < t.cols ∧ x = cell t (2 * h) c := by
  unfold cells
  simp only [List.mem_flatten, List.mem_map, List.mem_range]
  constructor
  · rintro ⟨l, ⟨h, hh, rfl⟩, hx⟩
    simp only [List.mem_map, List.mem_range] at hx
    obtain ⟨c, hc, rfl⟩ := hx
    exact ⟨h, c, hh, hc, rfl⟩
  · rintro ⟨h, c, hh, hc, rfl⟩
    exact ⟨_, ⟨h, hh, rfl⟩, List.mem_map.2 ⟨c, List.mem_range.2 hc, rfl⟩⟩

theorem cell_nonneg [IsStrictOrderedRing F] (t : Tensor F) (r c : Nat) : 0 ≤ cell t r c := by
  unfold cell
  simp only
  generalize (if r + 1 < t.rows then (gray t r c + gray t (r + 1) c) / 2 else gray t r c) / ((t.chans * (if r + 1 < t.rows then 2 else 1) : Nat) : F) = g
  by_cases h : g < 0
  · rw [if_pos h]
  · rw [if_neg h]
    split
    · exact zero_le_one
    · exact not_lt.1 h

theorem largest_spec [IsStrictOrderedRing F] (t : Tensor F) : 0 < largest t ∧ (∀ x ∈ (cells t).flatten, x ≤ largest t) ∧
    (largest t ∈ (cells t).flatten ∨ ∀ x ∈ (cells t).flatten, x = 0) := by
  obtain ⟨h1, h2, h3⟩ := foldl_max (cells t).flatten 0
  have hnn : ∀ x ∈ (cells t).flatten, 0 ≤ x := by
    intro x hx
    obtain ⟨h, c, _, _, rfl⟩ := (mem_cells t x).1 hx
    exact cell_nonneg t _ _
  unfold largest
  simp only
  by_cases h0 : (cells t).flatten.foldl max 0 = 0
  · rw [if_pos h0]
    have hz : ∀ x ∈ (cells t).flatten, x = 0 := fun x hx => le_antisymm (h0 ▸ h2 x hx) (hnn x hx)
    exact ⟨zero_lt_one, fun x hx => by rw [hz x hx]; exact zero_le_one, Or.inr hz⟩
  · rw [if_neg h0]
    exact ⟨lt_of_le_of_ne h1 (Ne.symm h0), h2, Or.inl (h3.resolve_left h0)⟩

theorem mapM_some {A B : Type} (f : A → Option B) (g : A → B) (l : List A) (h : ∀ a ∈ l, f a = some (g a)) : l.mapM f = some (l.map g) := by
  induction l with
  | nil => rfl
  | cons a l ih =>
    rw [List.mapM_cons, h a List.mem_cons_self, ih fun a ha => h a (List.mem_cons_of_mem _ ha)]
    rfl

/-- The index of the character for a value. -/
theorem shade_index [IsStrictOrderedRing F] [FloorSemiring F] (M g : F) (hM : 0 < M) (hg : g ≤ M) : ⌊g / M * 4⌋₊ ≤ 4 := by
  apply Nat.floor_le_of_le
  have : g / M ≤ 1 := (div_le_one hM).2 hg
  push_cast
  linarith

theorem lines_eq [IsStrictOrderedRing F] [FloorSemiring F] (t : Tensor F) :
    decodeImage t = .ok ((cells t).map fun row => row.map fun g => chars.getD ⌊g / largest t * 4⌋₊ 0) := by
  obtain ⟨h1, h2, _⟩ := largest_spec t
  unfold decodeImage
  rw [mapM_some _ (fun row => row.map fun g => chars.getD ⌊g / largest t * 4⌋₊ 0)]
  intro row hrow
  apply mapM_some
  intro g hg
  have := shade_index (largest t) g h1 (h2 g (List.mem_flatten.2 ⟨row, hrow, hg⟩))
  unfold shade
  rw [List.getD_eq_getElem?_getD, List.getElem?_eq_getElem (by simp [chars]; omega)]
  rfl

/-- For every tensor: the picture has a line for every two rows, also for a last single one, with a character of the list for every column. -/
theorem C118_total [IsStrictOrderedRing F] [FloorSemiring F] (t : Tensor F) :
    ∃ lines, decodeImage t = .ok lines ∧ lines.length = (t.rows + 1) / 2 ∧ ∀ l ∈ lines, l.length = t.cols ∧ ∀ x ∈ l, x ∈ shades := by
  rw [show shades = chars from rfl]
  refine ⟨_, lines_eq t, by simp [cells], ?_⟩
  obtain ⟨h1, h2, _⟩ := largest_spec t
  intro l hl
  obtain ⟨row, hrow, rfl⟩ := List.mem_map.1 hl
  constructor
  · unfold cells at hrow
    obtain ⟨h, _, rfl⟩ := List.mem_map.1 hrow
    simp
  · intro x hx
    obtain ⟨g, hg, rfl⟩ := List.mem_map.1 hx
    have := shade_index (largest t) g h1 (h2 g (List.mem_flatten.2 ⟨row, hrow, hg⟩))
    rw [List.getD_eq_getElem?_getD, List.getElem?_eq_getElem (by simp [chars]; omega)]
    exact List.getElem_mem _

/-! ### C118 -/

/-- All values of the image are between zero and one. -/
def Unit (t : Tensor F) : Prop := ∀ r c k, r < t.rows → c < t.cols → k < t.chans → 0 ≤ t.get r c k ∧ t.get r c k ≤ 1

theorem cell_brightness [IsStrictOrderedRing F] (t : Tensor F) (hu : Unit t) (he : t.rows % 2 = 0) (hc : t.chans = 1 ∨ 3 ≤ t.chans) (h c : Nat) (hh : h < t.rows / 2)
    (hcol : c < t.cols) : cell t (2 * h) c = brightness t h c / (t.chans * 2 : Nat) := by
  have hg : ∀ r, r < t.rows → gray t r c = luminance t r c ∧ 0 ≤ luminance t r c ∧ luminance t r c ≤ 1 := by
    intro r hr
    unfold gray luminance
    rcases hc with h1 | h3
    · rw [if_neg (by omega), if_pos h1, if_pos h1]
      exact ⟨rfl, hu r c 0 hr hcol (by omega)⟩
    · rw [if_pos h3, if_neg (by omega)]
      obtain ⟨a1, a2⟩ := hu r c 0 hr hcol (by omega)
      obtain ⟨b1, b2⟩ := hu r c 1 hr hcol (by omega)
      obtain ⟨c1, c2⟩ := hu r c 2 hr hcol (by omega)
      refine ⟨rfl, by positivity, ?_⟩
      linarith
  obtain ⟨a1, a2, a3⟩ := hg (2 * h) (by omega)
  obtain ⟨b1, b2, b3⟩ := hg (2 * h + 1) (by omega)
  have hpos : (1 : F) ≤ (t.chans * 2 : Nat) := by exact_mod_cast (by omega : 1 ≤ t.chans * 2)
  unfold cell
  simp only
  have hr : 2 * h + 1 < t.rows := by omega
  simp only [if_pos hr]
  rw [a1, b1]
  have hb : (luminance t (2 * h) c + luminance t (2 * h + 1) c) / 2 = brightness t h c := rfl
  rw [hb]
  have h0 : 0 ≤ brightness t h c := by unfold brightness; linarith
  have h1 : brightness t h c ≤ 1 := by unfold brightness; linarith
  rw [if_neg (not_lt.2 (by positivity)), if_neg (not_lt.2 ((div_le_one (by linarith)).2 (by linarith)))]

/-- C118: the picture of an image with an even number of rows and one channel, or at least three, with values between zero and one. Every character is the shade
for the mean brightness of the two rows, relative to the brightest place. Missing: an odd number of rows (`C118_odd_violated`), two channels
(`C118_two_channels_violated`), values above one (`C118_bright_violated`). -/
theorem C118_partial [IsStrictOrderedRing F] [FloorSemiring F] (t : Tensor F) (hu : Unit t) (he : t.rows % 2 = 0) (hc : t.chans = 1 ∨ 3 ≤ t.chans) :
    ∃ lines M, decodeImage t = .ok lines ∧ lines.length = t.rows / 2 ∧ IsWhite t M ∧
      ∀ h l, lines[h]? = some l → l.length = t.cols ∧ ∀ c, c < t.cols → ⌊4 * (brightness t h c / M)⌋₊ ≤ 4 ∧ l[c]? = shades[⌊4 * (brightness t h c / M)⌋₊]? := by
  rw [show shades = chars from rfl]
  have hcell := cell_brightness t hu he hc
  have hrows : (t.rows + 1) / 2 = t.rows / 2 := by omega
  have hpos : (0 : F) < (t.chans * 2 : Nat) := by exact_mod_cast (by omega : 0 < t.chans * 2)
  obtain ⟨h1, h2, h3⟩ := largest_spec t
  obtain ⟨M, hM, hq⟩ : ∃ M, IsWhite t M ∧ ∀ h c, h < t.rows / 2 → c < t.cols → cell t (2 * h) c / largest t = brightness t h c / M := by
    rcases h3 with h3 | h3
    · obtain ⟨h, c, hh, hcol, hl⟩ := (mem_cells t _).1 h3
      rw [hrows] at hh
      rw [hcell h c hh hcol] at hl
      have hM : brightness t h c = largest t * (t.chans * 2 : Nat) := by rw [hl]; field_simp
      refine ⟨largest t * (t.chans * 2 : Nat), ⟨mul_pos h1 hpos, ?_, Or.inl ⟨h, c, hh, hcol, hM⟩⟩, ?_⟩
      · intro h' c' hh' hcol'
        have := h2 _ ((mem_cells t _).2 ⟨h', c', by omega, hcol', rfl⟩)
        rw [hcell h' c' hh' hcol', div_le_iff₀ hpos] at this
        exact this
      · intro h' c' hh' hcol'
        rw [hcell h' c' hh' hcol', div_div, mul_comm]
    · have hz : ∀ h c, h < t.rows / 2 → c < t.cols → brightness t h c = 0 := by
        intro h c hh hcol
        have := h3 _ ((mem_cells t _).2 ⟨h, c, by omega, hcol, rfl⟩)
        rw [hcell h c hh hcol, div_eq_zero_iff] at this
        exact this.resolve_right hpos.ne'
      refine ⟨1, ⟨zero_lt_one, fun h c hh hcol => by rw [hz h c hh hcol]; exact zero_le_one, Or.inr hz⟩, ?_⟩
      intro h c hh hcol
      rw [hcell h c hh hcol, hz h c hh hcol, zero_div, zero_div, zero_div]
  refine ⟨_, M, lines_eq t, by simp [cells, hrows], hM, ?_⟩
  intro h l hl
  unfold cells at hl
  rw [List.getElem?_map, List.getElem?_map] at hl
  by_cases hh : h < t.rows / 2
  · rw [List.getElem?_range (by omega)] at hl
    simp only [Option.map_some, Option.some.injEq] at hl
    subst hl
    refine ⟨by simp, ?_⟩
    intro c hcol
    have hi := shade_index M (brightness t h c) hM.1 (hM.2.1 h c hh hcol)
    rw [mul_comm] at hi
    refine ⟨hi, ?_⟩
    rw [List.getElem?_map, List.getElem?_map, List.getElem?_range hcol]
    simp only [Option.map_some]
    rw [hq h c hh hcol, mul_comm, List.getD_eq_getElem?_getD, List.getElem?_eq_getElem (by simp [chars]; omega)]
    rfl
  · rw [List.getElem?_eq_none (by rw [List.length_range]; omega)] at hl
    cases hl

/-- C118 fails for an odd number of rows: of an image with the same value everywhere, the last line is shown brighter than the others. -/
theorem C118_odd_violated : Unit (F := ℚ) ⟨3, 1, 1, fun _ _ _ => 1 / 2⟩ ∧ decodeImage (F := ℚ) ⟨3, 1, 1, fun _ _ _ => 1 / 2⟩ = .ok [[177], [219]] := by
  refine ⟨fun _ _ _ _ _ _ => by norm_num, ?_⟩
  rw [lines_eq]
  congr 1
  decide +kernel

/-- C118 fails for two channels: nothing is shown. -/
theorem C118_two_channels_violated [IsStrictOrderedRing F] [FloorSemiring F] (t : Tensor F) (h : t.chans = 2) :
    ∃ lines, decodeImage t = .ok lines ∧ ∀ l ∈ lines, ∀ x ∈ l, x = 32 := by
  refine ⟨_, lines_eq t, ?_⟩
  intro l hl x hx
  obtain ⟨row, hrow, rfl⟩ := List.mem_map.1 hl
  obtain ⟨g, hg, rfl⟩ := List.mem_map.1 hx
  obtain ⟨h', c, _, _, rfl⟩ := (mem_cells t g).1 (List.mem_flatten.2 ⟨row, hrow, hg⟩)
  have : cell t (2 * h') c = 0 := by
    unfold cell gray
    simp [h]
  rw [this]
  simp [chars]

/-- C118 fails for values above one, for example pixels from 0 to 255: different values look the same. -/
theorem C118_bright_violated : decodeImage (F := ℚ) ⟨2, 2, 1, fun _ c _ => if c = 0 then 10 else 200⟩ = .ok [[219, 219]] := by
  rw [lines_eq]
  congr 1
  decide +kernel

/-- An image of four pixels. -/
example : Unit (F := ℚ) ⟨2, 2, 1, fun r c _ => if r = c then 1 else 1 / 3⟩ := by
  intro r c k _ _ _
  simp only
  split <;> norm_num

example : decodeImage (F := ℚ) ⟨2, 3, 1, fun r c _ => if r = c then 1 else if c = 2 then 1 / 10 else 0⟩ = .ok [[219, 219, 32]] := by
  rw [lines_eq]
  congr 1
  decide +kernel

end Verif.Picture
