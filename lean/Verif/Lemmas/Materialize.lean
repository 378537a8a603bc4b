import Verif.Model.Materialize
import Verif.Lemmas.BinaryDataset
import Verif.Props.C02_HalfFloat
import Verif.Props.C03_C05_QuarterFloat
import Verif.Props.C53_EstimateBias

namespace Verif.Materialize
open Verif Verif.FloatBits Verif.FloatArith Verif.BinaryDataset Verif.QuarterFloat Verif.EstimateBias

/-- The tensor with `f` applied to each element. -/
def mapped (f : BitVec 32 → BitVec 32) (t : Tensor (BitVec 32)) : Tensor (BitVec 32) := ⟨t.rows, t.cols, t.chans, fun r c k => f (t.get r c k)⟩

theorem stored_same (f : BitVec 32 → BitVec 32) (t : Tensor (BitVec 32)) (hk : 0 < t.chans) (hr : 0 < t.rows) :
    Tensor.Same (stored f t).tensor (mapped f t) := dataOf_same f t hk hr

theorem elements_congr {s t : Tensor (BitVec 32)} (h : Tensor.Same s t) : Statistics.elements s = Statistics.elements t := by
  obtain ⟨h1, h2, h3, h4⟩ := h
  unfold Statistics.elements
  rw [← h1, ← h2, ← h3, List.flatMap_def, List.flatMap_def]
  congr 1
  apply List.map_congr_left
  intro k hk
  rw [List.flatMap_def, List.flatMap_def]
  congr 1
  apply List.map_congr_left
  intro r hr
  apply List.map_congr_left
  intro c hc
  exact h4 r c k (List.mem_range.mp hr) (List.mem_range.mp hc) (List.mem_range.mp hk)

theorem mem_elements {t : Tensor (BitVec 32)} {x : BitVec 32} :
    x ∈ Statistics.elements t ↔ ∃ r c k, r < t.rows ∧ c < t.cols ∧ k < t.chans ∧ t.get r c k = x := by
  unfold Statistics.elements
  simp only [List.mem_flatMap, List.mem_map, List.mem_range]
  constructor
  · rintro ⟨k, hk, r, hr, c, hc, h⟩; exact ⟨r, c, k, hr, hc, hk, h⟩
  · rintro ⟨r, c, k, hr, hc, hk, h⟩; exact ⟨k, hk, r, hr, c, hc, h⟩

theorem bias_congr {s t : Tensor (BitVec 32)} (h : Tensor.Same s t) : bias s = bias t := by
  unfold bias range
  rw [elements_congr h]

theorem stored_congr (f : BitVec 32 → BitVec 32) {s t : Tensor (BitVec 32)} (h : Tensor.Same s t) : stored f s = stored f t := by
  obtain ⟨h1, h2, h3, h4⟩ := h
  unfold stored
  rw [← h1, ← h2, ← h3]
  apply List.map_congr_left
  intro k hk
  apply List.map_congr_left
  intro r hr
  apply List.map_congr_left
  intro c hc
  rw [h4 r c k (List.mem_range.mp hr) (List.mem_range.mp hc) (List.mem_range.mp hk)]

/-- All elements are numbers. -/
def Finite (t : Tensor (BitVec 32)) : Prop := ∀ r c k, r < t.rows → c < t.cols → k < t.chans → isFinite (t.get r c k) = true

theorem not_nan_of_finite {x : BitVec 32} (h : isFinite x = true) : isNaN x = false := by
  unfold isFinite at h; unfold isNaN
  simp only [bne_iff_ne, ne_eq] at h
  simp [h]

theorem flt_eq {a b : BitVec 32} (ha : isNaN a = false) (hb : isNaN b = false) : flt a b = decide (value a < value b) := by
  unfold flt; simp [ha, hb]

theorem fmin_iff (M : Int) {a x : BitVec 32} (ha : isNaN a = false) (hx : isNaN x = false) :
    -M < value (fmin a x) ↔ -M < value a ∧ -M < value x := by
  have h := flt_eq hx ha
  unfold fmin
  rw [h]
  generalize ha' : value a = p at *
  generalize hx' : value x = q at *
  by_cases hq : q < p
  · simp only [hq, decide_true, if_true, hx']; omega
  · simp only [hq, decide_false, Bool.false_eq_true, if_false, ha']; omega

theorem fmax_iff (M : Int) {a x : BitVec 32} (ha : isNaN a = false) (hx : isNaN x = false) :
    value (fmax a x) < M ↔ value a < M ∧ value x < M := by
  have h := flt_eq ha hx
  unfold fmax
  rw [h]
  generalize ha' : value a = p at *
  generalize hx' : value x = q at *
  by_cases hq : p < q
  · simp only [hq, decide_true, if_true, hx']; omega
  · simp only [hq, decide_false, Bool.false_eq_true, if_false, ha']; omega

theorem range_fold (M : Int) (l : List (BitVec 32)) (hl : ∀ x ∈ l, isNaN x = false) : ∀ p : BitVec 32 × BitVec 32, isNaN p.1 = false → isNaN p.2 = false →
    isNaN (l.foldl (fun (p : BitVec 32 × BitVec 32) v => (fmin p.1 v, fmax p.2 v)) p).1 = false ∧
    isNaN (l.foldl (fun (p : BitVec 32 × BitVec 32) v => (fmin p.1 v, fmax p.2 v)) p).2 = false ∧
    (-M < value (l.foldl (fun (p : BitVec 32 × BitVec 32) v => (fmin p.1 v, fmax p.2 v)) p).1 ↔ -M < value p.1 ∧ ∀ x ∈ l, -M < value x) ∧
    (value (l.foldl (fun (p : BitVec 32 × BitVec 32) v => (fmin p.1 v, fmax p.2 v)) p).2 < M ↔ value p.2 < M ∧ ∀ x ∈ l, value x < M) := by
  induction l with
  | nil => intro p ha hb; simp [ha, hb]
  | cons x l ih =>
    intro p ha hb
    have hx := hl x List.mem_cons_self
    have h1 : isNaN (fmin p.1 x) = false := by unfold fmin; split <;> assumption
    have h2 : isNaN (fmax p.2 x) = false := by unfold fmax; split <;> assumption
    obtain ⟨i1, i2, i3, i4⟩ := ih (fun y hy => hl y (List.mem_cons_of_mem _ hy)) (fmin p.1 x, fmax p.2 x) h1 h2
    rw [List.foldl_cons]
    refine ⟨i1, i2, ?_, ?_⟩
    · rw [i3, fmin_iff M ha hx, and_assoc, List.forall_mem_cons]
    · rw [i4, fmax_iff M hb hx, and_assoc, List.forall_mem_cons]

/-- The magnitude bits of the largest number with bias `k`. -/
def top (k : Nat) : Nat := (141 - k) * 2 ^ 23 + 7 * 2 ^ 20

theorem magOf_top (k : Nat) (hk : k ≤ 15) : magOf (top k) = 15 * 2 ^ (160 - k) := by
  interval_cases k <;> decide +kernel

/-- All elements are within the range of bias `k`. -/
def Fits (t : Tensor (BitVec 32)) (k : Nat) : Prop := ∀ x ∈ Statistics.elements t, mag x < top k

theorem inRange_iff (t : Tensor (BitVec 32)) (ht : ∀ x ∈ Statistics.elements t, isFinite x = true) (k : Nat) (h4 : 4 ≤ k) (h15 : k ≤ 15) :
    InRange (range t).1 (range t).2 k ↔ Fits t k := by
  have hi : -(15 * 2 ^ (160 - k) : Int) < value 0x7F800000#32 ∧ value 0xFF800000#32 < (15 * 2 ^ (160 - k) : Int) := by
    interval_cases k <;> decide +kernel
  have hm := magOf_top k h15
  obtain ⟨r1, r2, r3, r4⟩ := range_fold (15 * 2 ^ (160 - k) : Int) (Statistics.elements t) (fun x hx => not_nan_of_finite (ht x hx))
    (0x7F800000#32, 0xFF800000#32) (by decide) (by decide)
  have hr : range t = (Statistics.elements t).foldl (fun (p : BitVec 32 × BitVec 32) v => (fmin p.1 v, fmax p.2 v)) (0x7F800000#32, 0xFF800000#32) := rfl
  unfold InRange
  rw [hr, r3, r4, r1, r2]
  unfold Fits
  have key : ∀ x, mag x < top k ↔ (-(15 * 2 ^ (160 - k) : Int) < value x ∧ value x < (15 * 2 ^ (160 - k) : Int)) := by
    intro x
    rw [← not_le, ← magOf_le_iff, hm, ← natAbs_value]
    have : ((15 * 2 ^ (160 - k) : Nat) : Int) = (15 * 2 ^ (160 - k) : Int) := by push_cast; rfl
    rw [← this]
    generalize 15 * 2 ^ (160 - k) = M
    omega
  simp only [true_and, hi.1, hi.2]
  constructor
  · intro h x hx; exact (key x).mpr ⟨h.1 x hx, h.2 x hx⟩
  · intro h; exact ⟨fun x hx => ((key x).mp (h x hx)).1, fun x hx => ((key x).mp (h x hx)).2⟩

theorem top_anti {j k : Nat} (h : j < k) (hk : k ≤ 15) : top k < top j := by unfold top; omega

/-- What `bias` is for a tensor of numbers. -/
def IsBias (t : Tensor (BitVec 32)) (k : Nat) : Prop := 4 ≤ k ∧ k ≤ 15 ∧ (k < 15 → ¬ Fits t (k + 1)) ∧ (k = 4 ∨ Fits t k)

theorem bias_spec (t : Tensor (BitVec 32)) (ht : ∀ x ∈ Statistics.elements t, isFinite x = true) : ∃ k : Nat, bias t = k ∧ IsBias t k := by
  obtain ⟨k, h1, h2, h3, h4, h5⟩ := C53_estimate 4 15 (by omega) (by omega) (by omega) (range t).1 (range t).2
  refine ⟨k, h1, h2, h3, ?_, ?_⟩
  · intro hk hf
    exact h4 (k + 1) (by omega) (by omega) ((inRange_iff t ht (k + 1) (by omega) (by omega)).mpr hf)
  · rcases h5 with h | ⟨h, _⟩
    · exact Or.inr ((inRange_iff t ht k h2 h3).mp h)
    · exact Or.inl h

theorem Fits.mono {t : Tensor (BitVec 32)} {j k : Nat} (h : Fits t k) (hjk : j ≤ k) (hk : k ≤ 15) : Fits t j := by
  rcases Nat.eq_or_lt_of_le hjk with rfl | hlt
  · exact h
  · exact fun x hx => lt_trans (h x hx) (top_anti hlt hk)

theorem IsBias.unique {t : Tensor (BitVec 32)} {j k : Nat} (hj : IsBias t j) (hk : IsBias t k) : j = k := by
  obtain ⟨j1, j2, j3, j4⟩ := hj
  obtain ⟨k1, k2, k3, k4⟩ := hk
  rcases Nat.lt_trichotomy j k with h | h | h
  · exfalso
    rcases k4 with k4 | k4
    · omega
    · exact j3 (by omega) (k4.mono (by omega) k2)
  · exact h
  · exfalso
    rcases j4 with j4 | j4
    · omega
    · exact k3 (by omega) (j4.mono (by omega) j2)

/-! ### One element -/

theorem mag_roundTrip (x : BitVec 32) (b : Nat) (hb1 : 1 ≤ b) (hb : b ≤ 15) (hx : isFinite x = true) :
    mag (roundTrip x b) ≤ top b ∧ (top (b + 1) ≤ mag x → top (b + 1) ≤ mag (roundTrip x b)) ∧ (mag x ≤ top (b + 1) → mag (roundTrip x b) ≤ top (b + 1)) := by
  obtain ⟨hx1, hmag, hf, he, hs⟩ := fields x
  have hrt := roundTrip_finite x b hb1 hb hx
  have h1 := encN_cases b (x ≠ 0) (sgn x) (expo x) (frac x) hs hf hb1 hb
  have h2 := decN_cases b (encN b (x ≠ 0) (sgn x) (expo x) (frac x)) (encN_not_special b _ _ _ _ hb1 hb hs hf).1
  have h3 := rnd_cases (frac x)
  have h4 := rnd_le _ hf
  rw [hmag]
  unfold mag top
  rw [hrt]
  have t31 : 2 ^ 31 = 2147483648 := rfl
  have t23 : 2 ^ 23 = 8388608 := rfl
  have t20 : 2 ^ 20 = 1048576 := rfl
  rw [t31, t23, t20] at h2
  rw [t23] at hf
  rw [t20] at h3
  rw [t31, t23, t20]
  clear t31 t23 t20 hrt hx1 hmag hx
  generalize encN b (x ≠ 0) (sgn x) (expo x) (frac x) = q at *
  generalize decN b q = d at *
  generalize rnd (frac x) = m at *
  generalize expo x = e at *
  generalize frac x = f at *
  generalize sgn x = s at *
  clear he
  rcases h1 with ⟨a1, a2⟩ | ⟨a1, a2⟩ | ⟨a1, a3, _, a4, a2⟩ | ⟨a1, a3, _, a2⟩ | ⟨a1, a3, _, a4, a5, a2⟩ <;>
  rcases h2 with ⟨c1, c2⟩ | ⟨c1, c2⟩ | ⟨c1, c3, c2⟩ <;> rw [c2] <;> (refine ⟨?_, ?_, ?_⟩ <;> omega)

end Verif.Materialize
