import Verif.Model.Encoders
import Verif.Props.C36_C40_Statistics
import Mathlib.Data.List.Nodup
import Mathlib.Algebra.Order.Floor.Ring
import Mathlib.Data.Rat.Floor

/-!
C51: values passed to a task are encoded in the same layout as the training data.
C52: decoding a label vector returns the label that was encoded.
-/
namespace Verif.Encoders
open Verif.TextCodec (Str)
open Verif.Csv (strip)
variable {F : Type} [Field F] [LinearOrder F]

omit [Field F] [LinearOrder F] in
theorem readValues_congr {W V : Type} (c1 : W → Option F) (c2 : V → Option F) {ws : List W} {vs : List V}
    (h : List.Forall₂ (fun w v => c1 w = c2 v) ws vs) : ∀ n, readValues c1 n ws = readValues c2 n vs := by
  induction h with
  | nil => intro n; cases n <;> rfl
  | cons h1 _ ih =>
    intro n
    cases n with
    | zero => rfl
    | succ n => simp only [readValues, h1, ih]

omit [Field F] [LinearOrder F] in
theorem readValues_get {W : Type} (conv : W → Option F) : ∀ (n : Nat) (ws : List W) (xs : List F), readValues conv n ws = .ok xs →
    xs.length = n ∧ ∀ i, i < n → ∃ w x, ws[i]? = some w ∧ xs[i]? = some x ∧ conv w = some x := by
  intro n
  induction n with
  | zero => intro ws xs h; simp only [readValues, Out.ok.injEq] at h; subst h; exact ⟨rfl, fun i hi => absurd hi (by omega)⟩
  | succ n ih =>
    intro ws xs h
    cases ws with
    | nil => simp [readValues] at h
    | cons w ws =>
      rw [readValues] at h
      cases hc : conv w with
      | none => rw [hc] at h; simp at h
      | some x =>
        rw [hc] at h
        cases hr : readValues conv n ws with
        | throws => rw [hr] at h; simp at h
        | undefined => rw [hr] at h; simp at h
        | ok ys =>
          rw [hr] at h
          simp only [Out.ok.injEq] at h
          subst h
          obtain ⟨h1, h2⟩ := ih ws ys hr
          refine ⟨by simp [h1], fun i hi => ?_⟩
          cases i with
          | zero => exact ⟨w, x, rfl, rfl, hc⟩
          | succ i => simpa using h2 i (by omega)

omit [LinearOrder F] in
/-- C51, the layout of the training data: of the words of a column group, word `(k * rows + r) * cols + c` becomes the element in row `r`, column `c`
of channel `k`. -/
theorem C51_layout (num : Str → Option F) (words : List Str) (rows cols chans : Nat) (trim : Bool) (t : Tensor F)
    (h : scalarEncode num words rows cols chans trim = .ok t) :
    t.rows = rows ∧ t.cols = cols ∧ t.chans = chans ∧ ∀ r c k, r < rows → c < cols → k < chans →
      ∃ w, words[(k * rows + r) * cols + c]? = some w ∧ stringToFloat num (if trim then strip w else w) = some (t.get r c k) := by
  unfold scalarEncode encodeValues at h
  cases hr : readValues (fun w => stringToFloat num (if trim then strip w else w)) (chans * (rows * cols)) words with
  | throws => rw [hr] at h; simp at h
  | undefined => rw [hr] at h; simp at h
  | ok xs =>
    rw [hr] at h
    simp only at h
    split at h
    · simp at h
    · simp only [Out.ok.injEq] at h
      subst h
      refine ⟨rfl, rfl, rfl, fun r c k h1 h2 h3 => ?_⟩
      have hlt : (k * rows + r) * cols + c < chans * (rows * cols) := by
        have a1 : k * rows + r + 1 ≤ chans * rows := by
          calc k * rows + r + 1 ≤ k * rows + rows := by omega
            _ = (k + 1) * rows := by ring
            _ ≤ chans * rows := Nat.mul_le_mul_right _ h3
        calc (k * rows + r) * cols + c < (k * rows + r) * cols + cols := by omega
          _ = (k * rows + r + 1) * cols := by ring
          _ ≤ chans * rows * cols := Nat.mul_le_mul_right _ a1
          _ = chans * (rows * cols) := by ring
      obtain ⟨w, x, e1, e2, e3⟩ := (readValues_get _ _ _ _ hr).2 _ hlt
      refine ⟨w, e1, ?_⟩
      rw [e3]
      simp only [tensorOf]
      rw [show k * (rows * cols) + r * cols + c = (k * rows + r) * cols + c by ring, List.getD_eq_getElem?_getD, e2]
      rfl

/-- The words of a data file and the values of a script denote the same numbers. -/
def SameNumbers {V : Type} (num : Str → Option F) (asFloat : V → Option F) (words : List Str) (values : List V) : Prop :=
  List.Forall₂ (fun w v => stringToFloat num (strip w) = asFloat v) words values

/-- C51 for numbers, in general: the script encoder delivers what the dataset encoder would deliver for a column group with
rows and columns exchanged. -/
theorem C51_number_exchanged {V : Type} (num : Str → Option F) (asFloat : V → Option F) (toText : V → Str) (pixel : F → F)
    (m : Meta F) (hm : m.purpose = 'N') (words : List Str) (values : List V) (h : SameNumbers num asFloat words values) :
    variantEncode asFloat toText pixel m values =
      datasetEncode num pixel { m with rows := m.cols, cols := m.rows } words := by
  unfold variantEncode datasetEncode scalarEncode encodeValues
  have := readValues_congr _ _ h (m.chans * (m.cols * m.rows))
  simp only [hm, show ('N' : Char) ≠ 'I' by decide, if_false, if_true]
  rw [← this]

/-- C51 for numbers with as many rows as columns: both encoders agree. Missing: all other shapes, see `C51_violated`. -/
theorem C51_number_partial {V : Type} (num : Str → Option F) (asFloat : V → Option F) (toText : V → Str) (pixel : F → F)
    (m : Meta F) (hm : m.purpose = 'N') (hsq : m.rows = m.cols) (words : List Str) (values : List V)
    (h : SameNumbers num asFloat words values) :
    variantEncode asFloat toText pixel m values = datasetEncode num pixel m words := by
  rw [C51_number_exchanged num asFloat toText pixel m hm words values h]
  congr 1
  cases m
  simp_all

theorem categoryOf_nodup (labels : List Str) (h : labels.Nodup) (i : Nat) (w : Str) (hi : labels[i]? = some w) :
    categoryOf labels w = some i := by
  have huniq : ∀ p ∈ labels.zipIdx.reverse, p.1 = w → p = (w, i) := by
    intro p hp hw
    rw [List.mem_reverse, List.mem_zipIdx_iff_getElem?] at hp
    obtain ⟨a, j⟩ := p
    simp only at hp hw
    subst hw
    have hj : j < labels.length := by
      rcases Nat.lt_or_ge j labels.length with h | h
      · exact h
      · rw [List.getElem?_eq_none h] at hp; exact absurd hp (by simp)
    rw [(List.getElem?_inj hj h).mp (hp.trans hi.symm)]
  unfold categoryOf
  have hsome : (labels.zipIdx.reverse.find? fun p => p.1 = w).isSome := by
    rw [List.find?_isSome]
    exact ⟨(w, i), by rw [List.mem_reverse, List.mem_zipIdx_iff_getElem?]; exact hi, by simp⟩
  obtain ⟨p, hp⟩ := Option.isSome_iff_exists.mp hsome
  have h1 := List.find?_some hp
  have h2 := List.mem_of_find?_eq_some hp
  rw [hp, huniq p h2 (by simpa using h1)]
  rfl

omit [LinearOrder F] in
theorem categoryEncode_one (labels : List Str) (h : labels.Nodup) (w : Str) (i : Nat) (hi : labels[i]? = some (strip w)) :
    categoryEncode (F := F) labels [w] 1 labels.length 1 true =
      .ok ⟨1, labels.length, 1, fun r c _ => if [i][r]? = some c then 1 else 0⟩ := by
  have hlt : i < labels.length := by
    rcases Nat.lt_or_ge i labels.length with h | h
    · exact h
    · rw [List.getElem?_eq_none h] at hi; exact absurd hi (by simp)
  unfold categoryEncode
  rw [if_neg (by simp), if_neg (by simp), if_neg (by simp [categoryCount, List.Nodup.dedup h])]
  simp only [List.mapM_cons, List.mapM_nil, if_true, categoryOf_nodup labels h i _ hi]
  simp only [Option.pure_def, Option.bind_eq_bind, Option.bind_some]
  rw [if_neg (by simp; omega), if_neg (by simp)]

/-- C51 for labels, in general: the script encoder delivers the transposed vector. -/
theorem C51_label_transposed {V : Type} (num : Str → Option F) (asFloat : V → Option F) (toText : V → Str) (pixel : F → F)
    (m : Meta F) (hm : m.purpose = 'L') (hr : m.rows = 1) (hk : m.chans = 1) (hc : m.cols = m.labels.length)
    (hn : m.labels.Nodup) (w : Str) (v : V) (hv : toText v = strip w) (hl : strip w ∈ m.labels) :
    ∃ t t', datasetEncode num pixel m [w] = .ok t ∧ variantEncode asFloat toText pixel m [v] = .ok t' ∧
      t.rows = 1 ∧ t.cols = m.cols ∧ t'.rows = m.cols ∧ t'.cols = 1 ∧ t.chans = 1 ∧ t'.chans = 1 ∧
      ∀ c, c < m.cols → t'.get c 0 0 = t.get 0 c 0 := by
  obtain ⟨i, hlt, hi⟩ := List.getElem_of_mem hl
  have hi' : m.labels[i]? = some (strip w) := by rw [List.getElem?_eq_getElem hlt, hi]
  have hidx : m.labels.idxOf (strip w) = i := by rw [← hi]; exact List.Nodup.idxOf_getElem hn i hlt
  unfold datasetEncode variantEncode
  simp only [hm, show ('L' : Char) ≠ 'I' by decide, show ('L' : Char) ≠ 'N' by decide, if_false, if_true, hr, hk, hc, hv,
    if_pos hl, categoryEncode_one (F := F) m.labels hn w i hi', Out.map, plain]
  rw [if_neg (by simp; intro h; rw [h] at hl; simp at hl)]
  refine ⟨_, _, rfl, rfl, rfl, rfl, rfl, rfl, rfl, rfl, ?_⟩
  intro c _
  simp only [hidx, List.getElem?_cons_zero, Option.some.injEq, eq_comm]

/-- What a `PixelTensor` makes of a value in exact arithmetic: clamped and rounded down to a multiple of 1/255. -/
def pixelQ (v : ℚ) : ℚ := (⌊max 0 (min v 1) * 255⌋ : ℚ) / 255

/-- A conversion for the examples: the code of the first character as a number. -/
def numQ (w : Str) : Option ℚ := w.head?.map fun c => (c.toNat : ℚ)

/-- C51 is violated: for a row of two numbers the script encoder delivers a column; and an image value is not divided by 255. -/
theorem C51_violated :
    (∃ t t', datasetEncode numQ pixelQ ⟨'N', 1, 2, 1, [], ⟨false, 0, 1, false, 0, 1⟩⟩ [[65], [66]] = .ok t ∧
      variantEncode numQ id pixelQ ⟨'N', 1, 2, 1, [], ⟨false, 0, 1, false, 0, 1⟩⟩ [[65], [66]] = .ok t' ∧
      (t.rows, t.cols) = (1, 2) ∧ (t'.rows, t'.cols) = (2, 1)) ∧
    (∃ t t', datasetEncode numQ pixelQ ⟨'I', 1, 1, 1, [], ⟨false, 0, 1, false, 0, 1⟩⟩ [[51]] = .ok t ∧
      variantEncode numQ id pixelQ ⟨'I', 1, 1, 1, [], ⟨false, 0, 1, false, 0, 1⟩⟩ [[51]] = .ok t' ∧
      t.get 0 0 0 = some (51 / 255) ∧ t'.get 0 0 0 = some 1) := by
  refine ⟨⟨_, _, rfl, rfl, rfl, rfl⟩, ⟨_, _, rfl, rfl, ?_, ?_⟩⟩
  · decide +kernel
  · decide +kernel

/-- The hypotheses of the number theorems for a 2 by 2 group. -/
example : SameNumbers numQ numQ [[65], [66], [67], [68]] [[65], [66], [67], [68]] := by
  unfold SameNumbers
  simp only [List.forall₂_cons, List.Forall₂.nil, and_true]
  decide +kernel

/-- C52. Encoding a label and decoding the vector gives the (trimmed) label back, whatever the other labels and their
order. -/
theorem C52 [IsStrictOrderedRing F] (labels : List Str) (hn : labels.Nodup) (w : Str) (hw : strip w ∈ labels) :
    ∃ t : Tensor F, categoryEncode labels [w] 1 labels.length 1 true = .ok t ∧ decodeBest labels t = .ok (strip w) := by
  obtain ⟨i, hlt, hi⟩ := List.getElem_of_mem hw
  have hi' : labels[i]? = some (strip w) := by rw [List.getElem?_eq_getElem hlt, hi]
  refine ⟨_, categoryEncode_one labels hn w i hi', ?_⟩
  have hmax : Statistics.maxIndexByRow (F := F)
      ⟨1, labels.length, 1, fun r c _ => if [i][r]? = some c then 1 else 0⟩ 0 0 = i := by
    obtain ⟨j, h1, h2, h3, h4⟩ := Statistics.maxIndexLoop_spec
      (fun c => if [i][0]? = some c then (1 : F) else 0) labels.length (by omega)
    have e : Statistics.maxIndexByRow (F := F)
      ⟨1, labels.length, 1, fun r c _ => if [i][r]? = some c then 1 else 0⟩ 0 0 = j := by
      unfold Statistics.maxIndexByRow; dsimp only; rw [h1]
    rw [e]
    have h5 := h3 i hlt
    by_contra hne
    rw [if_pos (by simp), if_neg (by simp; exact fun h => hne h.symm)] at h5
    exact absurd h5 (not_le.mpr one_pos)
  unfold decodeBest
  rw [hmax, hi']

/-- C52 along the creation of a dataset: with the labels collected from a column, in whatever order, every cell of that
column can be encoded and decodes to its trimmed text. -/
theorem C52_dataset [IsStrictOrderedRing F] (records : List (List Str)) (column : Nat) (labels : List Str)
    (hl : IsDistinctValues records column labels) (r : List Str) (hr : r ∈ records) (v : Str) (hv : r[column]? = some v) :
    ∃ t : Tensor F, categoryEncode labels [v] 1 labels.length 1 true = .ok t ∧ decodeBest labels t = .ok (strip v) :=
  C52 labels hl.1 v ((hl.2 _).mpr ⟨r, hr, v, hv, rfl⟩)

/-- C52 for any prediction: the decoded label is the one at the first position of the largest value. -/
theorem C52_prediction (labels : List Str) (t : Tensor F) (hc : t.cols = labels.length) (h : 0 < t.cols) :
    ∃ i l, i < t.cols ∧ labels[i]? = some l ∧ decodeBest labels t = .ok l ∧
      (∀ j, j < t.cols → t.get 0 j 0 ≤ t.get 0 i 0) ∧ ∀ j, j < i → t.get 0 j 0 < t.get 0 i 0 := by
  obtain ⟨i, h1, h2, h3, h4⟩ := Statistics.maxIndexLoop_spec (fun c => t.get 0 c 0) t.cols h
  have e : Statistics.maxIndexByRow t 0 0 = i := by unfold Statistics.maxIndexByRow; rw [h1]
  have hi : labels[i]? = some (labels[i]'(hc ▸ h2)) := List.getElem?_eq_getElem _
  refine ⟨i, _, h2, hi, ?_, h3, h4⟩
  unfold decodeBest
  rw [e, hi]

example : IsDistinctValues [[[65]], [[66, 32]], [[32, 65]]] 0 [[66], [65]] := by
  refine ⟨by decide, ?_⟩
  intro l
  simp only [List.mem_cons, List.not_mem_nil, or_false, exists_eq_or_imp, exists_eq_left, List.getElem?_cons_zero,
    Option.some.injEq, exists_eq_left']
  have h1 : strip [65] = [65] := by decide
  have h2 : strip [66, 32] = [66] := by decide
  have h3 : strip [32, 65] = [65] := by decide
  rw [h1, h2, h3]
  constructor
  · rintro (rfl | rfl) <;> simp
  · rintro (rfl | rfl | rfl) <;> simp

end Verif.Encoders
