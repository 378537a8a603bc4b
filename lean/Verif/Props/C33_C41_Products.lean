import Verif.Props.C29_C32_Views
import Mathlib.Algebra.BigOperators.Ring.Finset
import Mathlib.Algebra.BigOperators.Intervals
import Mathlib.Tactic.Ring
import Mathlib.Data.Rat.Defs

/-!
C33, C41, C79 and C80. Products, correlations and element-wise operations, for every shape, over exact arithmetic
(any semiring, so in particular integers, rationals and reals; float rounding is not modelled).
-/
namespace Verif.Views
open Verif

variable {F : Type}

/-! ### C33 -/

/-- C33. The product is accepted exactly for matching inner dimension and channels, has the outer shape, and every element is the sum of
products along the inner dimension. -/
theorem C33_matmul [NonUnitalNonAssocSemiring F] (a b : Tensor F) :
    (matmul a b = none ↔ ¬(a.cols = b.rows ∧ a.chans = b.chans)) ∧
    ∀ v, matmul a b = some v → v.rows = a.rows ∧ v.cols = b.cols ∧ v.chans = a.chans ∧
      ∀ r c k, v.get r c k = ∑ i ∈ Finset.range a.cols, a.get r i k * b.get i c k := by
  unfold matmul
  by_cases h1 : a.cols = b.rows
  · by_cases h2 : a.chans = b.chans
    · simp only [h1, h2, ne_eq, not_true_eq_false, if_false, Option.some.injEq, reduceCtorEq, true_and]
      rintro v rfl
      exact ⟨rfl, rfl, rfl, fun r c k => sumLoop_eq_sum _ _⟩
    · simp [h1, h2]
  · simp [h1]

/-- Products of tensors that are the same are the same (no element outside the operands is used). -/
theorem C33_matmul_in_range [NonUnitalNonAssocSemiring F] (a a' b b' : Tensor F) (ha : Tensor.Same a a') (hb : Tensor.Same b b') (v : Tensor F)
    (h : matmul a b = some v) : ∃ v', matmul a' b' = some v' ∧ Tensor.Same v v' := by
  obtain ⟨hn, hs⟩ := C33_matmul a b
  obtain ⟨h1, h2, h3, h4⟩ := hs v h
  have hc : a.cols = b.rows ∧ a.chans = b.chans := by
    by_contra hc; rw [hn.mpr hc] at h; exact absurd h (by simp)
  obtain ⟨hn', hs'⟩ := C33_matmul a' b'
  cases hv : matmul a' b' with
  | none => exact absurd ⟨ha.2.1 ▸ hb.1 ▸ hc.1, ha.2.2.1 ▸ hb.2.2.1 ▸ hc.2⟩ (hn'.mp hv)
  | some v' =>
    obtain ⟨g1, g2, g3, g4⟩ := hs' v' hv
    refine ⟨v', rfl, by rw [h1, g1, ha.1], by rw [h2, g2, hb.2.1], by rw [h3, g3, ha.2.2.1], ?_⟩
    intro r c k hr hcc hk
    rw [h4, g4, ha.2.1]
    apply Finset.sum_congr rfl
    intro i hi
    rw [Finset.mem_range] at hi
    have hi' : i < a.cols := by rw [ha.2.1]; exact hi
    rw [ha.2.2.2 r i k (h1 ▸ hr) hi' (h3 ▸ hk), hb.2.2.2 i c k (hc.1 ▸ hi') (h2 ▸ hcc) (hc.2 ▸ h3 ▸ hk)]

/-- C33. The product is associative. -/
theorem C33_assoc [NonUnitalSemiring F] (a b c ab bc l r : Tensor F) (h1 : matmul a b = some ab) (h2 : matmul b c = some bc)
    (h3 : matmul ab c = some l) (h4 : matmul a bc = some r) : Tensor.Same l r := by
  obtain ⟨a1, a2, a3, a4⟩ := (C33_matmul a b).2 ab h1
  obtain ⟨b1, b2, b3, b4⟩ := (C33_matmul b c).2 bc h2
  obtain ⟨c1, c2, c3, c4⟩ := (C33_matmul ab c).2 l h3
  obtain ⟨d1, d2, d3, d4⟩ := (C33_matmul a bc).2 r h4
  have hab : a.cols = b.rows ∧ a.chans = b.chans := by
    by_contra hc; rw [(C33_matmul a b).1.mpr hc] at h1; exact absurd h1 (by simp)
  refine ⟨by rw [c1, a1, d1], by rw [c2, d2, b2], by rw [c3, a3, d3], ?_⟩
  intro r' c' k _ _ _
  rw [c4, d4, a2]
  simp only [a4, b4]
  simp only [Finset.sum_mul, Finset.mul_sum]
  rw [Finset.sum_comm]
  apply Finset.sum_congr rfl
  intro i _
  apply Finset.sum_congr rfl
  intro j _
  rw [mul_assoc]

/-- C33. Transposing a product reverses the factors. -/
theorem C33_transpose [NonUnitalCommSemiring F] (a b v : Tensor F) (h : matmul a b = some v) :
    ∃ w, matmul (transpose b) (transpose a) = some w ∧ Tensor.Same w (transpose v) := by
  obtain ⟨a1, a2, a3, a4⟩ := (C33_matmul a b).2 v h
  have hab : a.cols = b.rows ∧ a.chans = b.chans := by
    by_contra hc; rw [(C33_matmul a b).1.mpr hc] at h; exact absurd h (by simp)
  cases hw : matmul (transpose b) (transpose a) with
  | none => exact absurd ⟨hab.1.symm, hab.2.symm⟩ ((C33_matmul (transpose b) (transpose a)).1.mp hw)
  | some w =>
    obtain ⟨b1, b2, b3, b4⟩ := (C33_matmul (transpose b) (transpose a)).2 w hw
    refine ⟨w, rfl, by rw [b1]; exact a2.symm, by rw [b2]; exact a1.symm, by rw [b3]; exact hab.2.symm.trans a3.symm, ?_⟩
    intro r c k _ _ _
    rw [b4]
    show _ = v.get c r k
    rw [a4, hab.1]
    apply Finset.sum_congr rfl
    intro i _
    exact mul_comm _ _

/-- C33. The identity tensor is neutral on both sides. -/
theorem C33_identity [NonAssocSemiring F] (a : Tensor F) :
    (∃ v, matmul a (identity a.cols a.cols a.chans) = some v ∧ Tensor.Same v a) ∧
    (∃ v, matmul (identity a.rows a.rows a.chans) a = some v ∧ Tensor.Same v a) := by
  constructor
  · cases h : matmul a (identity a.cols a.cols a.chans) with
    | none => exact absurd ⟨rfl, rfl⟩ ((C33_matmul _ _).1.mp h)
    | some v =>
      obtain ⟨h1, h2, h3, h4⟩ := (C33_matmul _ _).2 v h
      refine ⟨v, rfl, h1, h2, h3, ?_⟩
      intro r c k _ hc _
      rw [h4]
      rw [h2] at hc
      have hc : c < a.cols := hc
      simp [identity, hc]
  · cases h : matmul (identity a.rows a.rows a.chans) a with
    | none => exact absurd ⟨rfl, rfl⟩ ((C33_matmul _ _).1.mp h)
    | some v =>
      obtain ⟨h1, h2, h3, h4⟩ := (C33_matmul _ _).2 v h
      refine ⟨v, rfl, h1, h2, h3, ?_⟩
      intro r c k hr _ _
      rw [h4]
      rw [h1] at hr
      have hr : r < a.rows := hr
      simp [identity, hr]

/-- C33. The dot product of two row vectors is their matrix product with the second transposed; other shapes are rejected. -/
theorem C33_dot [NonUnitalNonAssocSemiring F] (a b : Tensor F) :
    (dot a b = none ↔ ¬(a.rows = 1 ∧ b.rows = 1 ∧ a.chans = 1 ∧ b.chans = 1 ∧ a.cols = b.cols)) ∧
    ∀ v, dot a b = some v → ∃ w, matmul a (transpose b) = some w ∧ Tensor.Same v w := by
  have key : (a.rows = 1 ∧ b.rows = 1 ∧ a.chans = 1 ∧ b.chans = 1 ∧ a.cols = b.cols) → dot a b = some
      ⟨1, 1, 1, fun _ _ _ => sumLoop a.cols fun i => a.get 0 i 0 * b.get 0 i 0⟩ := by
    rintro ⟨h1, h2, h3, h4, h5⟩
    unfold dot
    rw [if_neg (by simp [h1, h2, h3, h4]), if_neg (by simp [h5])]
  have key2 : ¬(a.rows = 1 ∧ b.rows = 1 ∧ a.chans = 1 ∧ b.chans = 1 ∧ a.cols = b.cols) → dot a b = none := by
    intro h
    unfold dot
    by_cases h1 : a.rows ≠ 1 ∨ b.rows ≠ 1 ∨ a.chans ≠ 1 ∨ b.chans ≠ 1
    · rw [if_pos h1]
    · rw [if_neg h1]
      have : a.cols ≠ b.cols := by
        intro h5
        simp only [ne_eq, not_or, Decidable.not_not] at h1
        exact h ⟨h1.1, h1.2.1, h1.2.2.1, h1.2.2.2, h5⟩
      rw [if_pos this]
  by_cases h : a.rows = 1 ∧ b.rows = 1 ∧ a.chans = 1 ∧ b.chans = 1 ∧ a.cols = b.cols
  · refine ⟨by rw [key h]; simp [h], ?_⟩
    intro v hv
    rw [key h, Option.some.injEq] at hv
    subst hv
    obtain ⟨h1, h2, h3, h4, h5⟩ := h
    cases hw : matmul a (transpose b) with
    | none => exact absurd ⟨h5, h3.trans h4.symm⟩ ((C33_matmul _ _).1.mp hw)
    | some w =>
      obtain ⟨g1, g2, g3, g4⟩ := (C33_matmul _ _).2 w hw
      refine ⟨w, rfl, by rw [g1, h1], by rw [g2]; exact h2.symm, by rw [g3, h3], ?_⟩
      intro r c k hr hc hk
      have hr : r < 1 := hr
      have hc : c < 1 := hc
      have hk : k < 1 := hk
      obtain rfl : r = 0 := by omega
      obtain rfl : c = 0 := by omega
      obtain rfl : k = 0 := by omega
      rw [g4]
      exact sumLoop_eq_sum _ _
  · refine ⟨by rw [key2 h]; simp [h], ?_⟩
    intro v hv
    rw [key2 h] at hv
    exact absurd hv (by simp)

/-- C33. The outer product of a column and a row is their matrix product. -/
theorem C33_outer [NonUnitalNonAssocSemiring F] (a b : Tensor F) (ha : a.cols = 1) (hb : b.rows = 1) (hk : a.chans = b.chans) :
    ∃ w, matmul a b = some w ∧ Tensor.Same (outer a b) w := by
  cases hw : matmul a b with
  | none => exact absurd ⟨ha.trans hb.symm, hk⟩ ((C33_matmul _ _).1.mp hw)
  | some w =>
    obtain ⟨g1, g2, g3, g4⟩ := (C33_matmul _ _).2 w hw
    refine ⟨w, rfl, g1.symm, g2.symm, g3.symm, ?_⟩
    intro r c k _ _ _
    rw [g4, ha, Finset.sum_range_one]
    rfl

/-- A concrete product. -/
def exA : Tensor Int := ⟨2, 2, 1, fun r c _ => 2 * r + c + 1⟩

example : ∃ v, matmul exA exA = some v ∧ values v = [7, 10, 15, 22] := ⟨_, rfl, by decide⟩
example : matmul exA (⟨3, 1, 1, fun _ _ _ => 0⟩ : Tensor Int) = none := rfl

/-! ### C41 -/

theorem nested_foldl [NonUnitalNonAssocSemiring F] (n m : Nat) (f : Nat → Nat → F) (z : F) :
    (List.range n).foldl (fun acc i => (List.range m).foldl (fun acc j => acc + f i j) acc) z =
      z + ∑ i ∈ Finset.range n, ∑ j ∈ Finset.range m, f i j := by
  have inner : ∀ (m : Nat) (g : Nat → F) (z : F), (List.range m).foldl (fun acc j => acc + g j) z = z + ∑ j ∈ Finset.range m, g j := by
    intro m g z
    induction m with
    | zero => simp
    | succ m ih => rw [List.range_succ, List.foldl_append, ih, Finset.sum_range_succ]; simp [add_assoc]
  induction n with
  | zero => simp
  | succ n ih => rw [List.range_succ, List.foldl_append, ih, Finset.sum_range_succ]; simp [inner, add_assoc]

/-- C41. For a kernel not larger than the tensor, the valid cross-correlation has the standard shape and values. -/
theorem C41_valid [NonUnitalNonAssocSemiring F] (t kernel : Tensor F) (hr : kernel.rows ≤ t.rows) (hc : kernel.cols ≤ t.cols)
    (h1 : t.rows + 1 < 2 ^ 64) (h2 : t.cols + 1 < 2 ^ 64) (hk1 : 0 < kernel.rows) (hk2 : 0 < kernel.cols) :
    (validCorrelation t kernel).rows = t.rows - kernel.rows + 1 ∧ (validCorrelation t kernel).cols = t.cols - kernel.cols + 1 ∧
    (validCorrelation t kernel).chans = t.chans ∧
    ∀ r c k, (validCorrelation t kernel).get r c k =
      ∑ i ∈ Finset.range kernel.rows, ∑ j ∈ Finset.range kernel.cols, kernel.get i j k * t.get (r + i) (c + j) k := by
  refine ⟨?_, ?_, rfl, ?_⟩
  · show (t.rows + 1 + (2 ^ 64 - kernel.rows)) % 2 ^ 64 = _
    omega
  · show (t.cols + 1 + (2 ^ 64 - kernel.cols)) % 2 ^ 64 = _
    omega
  · intro r c k
    show (List.range kernel.rows).foldl _ 0 = _
    rw [nested_foldl, zero_add]

/-- C41. All elements used for an in-range result are in range. -/
theorem C41_in_range [NonUnitalNonAssocSemiring F] (t t' kernel kernel' : Tensor F) (hr : kernel.rows ≤ t.rows) (hc : kernel.cols ≤ t.cols)
    (h1 : t.rows + 1 < 2 ^ 64) (h2 : t.cols + 1 < 2 ^ 64) (hk1 : 0 < kernel.rows) (hk2 : 0 < kernel.cols)
    (hkc : t.chans ≤ kernel.chans) (ht : Tensor.Same t t') (hk : Tensor.Same kernel kernel') :
    Tensor.Same (validCorrelation t kernel) (validCorrelation t' kernel') := by
  obtain ⟨a1, a2, a3, a4⟩ := C41_valid t kernel hr hc h1 h2 hk1 hk2
  obtain ⟨e1, e2, e3, e4⟩ := ht
  obtain ⟨f1, f2, f3, f4⟩ := hk
  obtain ⟨b1, b2, b3, b4⟩ := C41_valid t' kernel' (by omega) (by omega) (by omega) (by omega) (by omega) (by omega)
  refine ⟨by rw [a1, b1, e1, f1], by rw [a2, b2, e2, f2], by rw [a3, b3, e3], ?_⟩
  intro r c k hr' hc' hk'
  rw [a1] at hr'; rw [a2] at hc'; rw [a3] at hk'
  rw [a4, b4, f1, f2]
  apply Finset.sum_congr rfl
  intro i hi
  apply Finset.sum_congr rfl
  intro j hj
  rw [Finset.mem_range] at hi hj
  rw [f4 i j k (by omega) (by omega) (by omega), e4 (r + i) (c + j) k (by omega) (by omega) hk']

/-- C41 is violated for a kernel with two rows more than the tensor: the announced number of rows is 2^64 - 1. -/
theorem C41_large_kernel_violated [NonUnitalNonAssocSemiring F] (t kernel : Tensor F) (h : kernel.rows = t.rows + 2) (hs : kernel.rows < 2 ^ 64) :
    (validCorrelation t kernel).rows = 2 ^ 64 - 1 := by
  show (t.rows + 1 + (2 ^ 64 - kernel.rows)) % 2 ^ 64 = _
  omega

/-- Value of a tensor continued by zero; `r` and `c` are given with an offset `(dr, dc)` so that they may lie before the start. -/
def extended [Zero F] (t : Tensor F) (r c dr dc k : Nat) : F :=
  if dr ≤ r ∧ r - dr < t.rows ∧ dc ≤ c ∧ c - dc < t.cols then t.get (r - dr) (c - dc) k else 0

theorem zeroPad_get [Zero F] (t : Tensor F) (p q a b r c k : Nat) : (zeroPad t p q a b).get r c k = extended t r c p a k := by
  simp only [zeroPad, extended]
  by_cases h : r < p ∨ t.rows ≤ r - p ∨ c < a ∨ t.cols ≤ c - a
  · rw [if_pos h, if_neg (by omega)]
  · rw [if_neg h, if_pos (by omega)]

/-- C80, full cross-correlation, for kernels of at most 3 rows and columns: the standard shape (tensor + kernel - 1) and values, the tensor
being continued by zeros. Missing: larger kernels, see `C80_full_shape_violated`. -/
theorem C80_full_partial [NonUnitalNonAssocSemiring F] (t kernel : Tensor F) (hk1 : 0 < kernel.rows) (hk2 : 0 < kernel.cols)
    (hk3 : kernel.rows ≤ 3) (hk4 : kernel.cols ≤ 3) (hr : 0 < t.rows) (hc : 0 < t.cols)
    (h1 : t.rows + 6 < 2 ^ 64) (h2 : t.cols + 6 < 2 ^ 64) :
    (fullCorrelation t kernel).rows = t.rows + kernel.rows - 1 ∧ (fullCorrelation t kernel).cols = t.cols + kernel.cols - 1 ∧
    (fullCorrelation t kernel).chans = t.chans ∧
    ∀ r c k, (fullCorrelation t kernel).get r c k =
      ∑ i ∈ Finset.range kernel.rows, ∑ j ∈ Finset.range kernel.cols,
        kernel.get i j k * extended t (r + i) (c + j) (kernel.rows - 1) (kernel.cols - 1) k := by
  have p : ∀ k, 0 < k → k ≤ 3 → fullPad k = k - 1 := by
    intro k h1 h2
    unfold fullPad
    split <;> omega
  have p1 := p _ hk1 hk3
  have p2 := p _ hk2 hk4
  have hrows : (zeroPad t (fullPad kernel.rows) (fullPad kernel.rows) (fullPad kernel.cols) (fullPad kernel.cols)).rows =
      t.rows + (fullPad kernel.rows + fullPad kernel.rows) := rfl
  have hcols : (zeroPad t (fullPad kernel.rows) (fullPad kernel.rows) (fullPad kernel.cols) (fullPad kernel.cols)).cols =
      t.cols + (fullPad kernel.cols + fullPad kernel.cols) := rfl
  obtain ⟨a1, a2, a3, a4⟩ := C41_valid
    (zeroPad t (fullPad kernel.rows) (fullPad kernel.rows) (fullPad kernel.cols) (fullPad kernel.cols)) kernel
    (by rw [hrows]; omega) (by rw [hcols]; omega) (by rw [hrows]; omega) (by rw [hcols]; omega) hk1 hk2
  refine ⟨?_, ?_, a3, ?_⟩
  · unfold fullCorrelation; rw [a1, hrows]; omega
  · unfold fullCorrelation; rw [a2, hcols]; omega
  · intro r c k
    unfold fullCorrelation
    rw [a4]
    simp only [zeroPad_get, p1, p2]

/-- C80, full convolution, same restriction: element (r, c) is the sum of kernel(i, j) · tensor(r - i, c - j). -/
theorem C80_convolve_partial [NonUnitalNonAssocSemiring F] (t kernel : Tensor F) (hk1 : 0 < kernel.rows) (hk2 : 0 < kernel.cols)
    (hk3 : kernel.rows ≤ 3) (hk4 : kernel.cols ≤ 3) (hr : 0 < t.rows) (hc : 0 < t.cols)
    (h1 : t.rows + 6 < 2 ^ 64) (h2 : t.cols + 6 < 2 ^ 64) :
    (fullConvolve t kernel).rows = t.rows + kernel.rows - 1 ∧ (fullConvolve t kernel).cols = t.cols + kernel.cols - 1 ∧
    (fullConvolve t kernel).chans = t.chans ∧
    ∀ r c k, (fullConvolve t kernel).get r c k =
      ∑ i ∈ Finset.range kernel.rows, ∑ j ∈ Finset.range kernel.cols, kernel.get i j k * extended t r c i j k := by
  obtain ⟨a1, a2, a3, a4⟩ := C80_full_partial t (rotate180 kernel) hk1 hk2 hk3 hk4 hr hc h1 h2
  refine ⟨a1, a2, a3, ?_⟩
  intro r c k
  unfold fullConvolve
  rw [a4]
  show ∑ i ∈ Finset.range kernel.rows, ∑ j ∈ Finset.range kernel.cols, kernel.get (kernel.rows - 1 - i) (kernel.cols - 1 - j) k *
    extended t (r + i) (c + j) (kernel.rows - 1) (kernel.cols - 1) k = _
  rw [← Finset.sum_range_reflect]
  apply Finset.sum_congr rfl
  intro i hi
  rw [Finset.mem_range] at hi
  rw [← Finset.sum_range_reflect]
  apply Finset.sum_congr rfl
  intro j hj
  rw [Finset.mem_range] at hj
  rw [show kernel.rows - 1 - (kernel.rows - 1 - i) = i by omega, show kernel.cols - 1 - (kernel.cols - 1 - j) = j by omega]
  congr 1
  unfold extended
  have e1 : r + (kernel.rows - 1 - i) - (kernel.rows - 1) = r - i := by omega
  have e2 : c + (kernel.cols - 1 - j) - (kernel.cols - 1) = c - j := by omega
  rw [e1, e2]
  apply if_congr _ rfl rfl
  constructor <;> rintro ⟨g1, g2, g3, g4⟩ <;> exact ⟨by omega, by omega, by omega, by omega⟩

/-- C80 is violated for kernels with four or more rows: the full correlation has fewer rows than tensor + kernel - 1. -/
theorem C80_full_shape_violated [NonUnitalNonAssocSemiring F] (t kernel : Tensor F) (hk : 4 ≤ kernel.rows) (hr : 0 < t.rows)
    (h : t.rows + kernel.rows + 2 < 2 ^ 64) : (fullCorrelation t kernel).rows < t.rows + kernel.rows - 1 := by
  show (t.rows + (fullPad kernel.rows + fullPad kernel.rows) + 1 + (2 ^ 64 - kernel.rows)) % 2 ^ 64 < _
  unfold fullPad
  rw [if_pos (by omega)]
  omega

example : values (validCorrelation (⟨3, 3, 1, fun r c _ => 3 * r + c⟩ : Tensor Int) exA) = [27, 37, 57, 67] := by decide
example : values (fullConvolve exA (⟨1, 2, 1, fun _ c _ => c + 1⟩ : Tensor Int)) = [1, 4, 4, 3, 10, 8] := by decide

/-! ### C79: element-wise operations -/

/-- C79. Element-wise addition, subtraction and multiplication accept exactly equal shapes and act position by position. -/
theorem C79_elementwise (op : F → F → F) (a b : Tensor F) :
    (zip op a b = none ↔ ¬(a.rows = b.rows ∧ a.cols = b.cols ∧ a.chans = b.chans)) ∧
    ∀ v, zip op a b = some v → v.rows = a.rows ∧ v.cols = a.cols ∧ v.chans = a.chans ∧
      ∀ r c k, v.get r c k = op (a.get r c k) (b.get r c k) := by
  unfold zip
  split
  · rename_i h
    refine ⟨⟨fun _ => ?_, fun _ => rfl⟩, fun v hv => absurd hv (by simp)⟩
    rintro ⟨h1, h2, h3⟩
    rcases h with h | h | h
    · exact h h3
    · exact h h1
    · exact h h2
  · rename_i h
    simp only [ne_eq, not_or, Decidable.not_not] at h
    refine ⟨⟨fun hh => absurd hh (by simp), fun hh => absurd ⟨h.2.1, h.2.2, h.1⟩ hh⟩, ?_⟩
    intro v hv
    rw [Option.some.injEq] at hv
    subst hv
    exact ⟨rfl, rfl, rfl, fun _ _ _ => rfl⟩

/-- C79. Subtracting what was added gives the original tensor. -/
theorem C79_add_subtract [AddGroup F] (a b v w : Tensor F) (h : add a b = some v) (h' : subtract v b = some w) : Tensor.Same w a := by
  obtain ⟨h1, h2, h3, h4⟩ := (C79_elementwise _ a b).2 v h
  obtain ⟨g1, g2, g3, g4⟩ := (C79_elementwise _ v b).2 w h'
  refine ⟨g1.trans h1, g2.trans h2, g3.trans h3, ?_⟩
  intro r c k _ _ _
  rw [g4, h4, add_sub_cancel_right]

/-- C79. Dividing what was multiplied gives the original tensor where the divisor is not zero; a zero divisor is replaced by `eps`. -/
theorem C79_multiply_divide [Field F] [DecidableEq F] (eps : F) (a b v w : Tensor F) (h : multiply a b = some v) (h' : divide eps v b = some w) :
    w.rows = a.rows ∧ w.cols = a.cols ∧ w.chans = a.chans ∧
    ∀ r c k, w.get r c k = if b.get r c k = 0 then 0 else a.get r c k := by
  obtain ⟨h1, h2, h3, h4⟩ := (C79_elementwise _ a b).2 v h
  obtain ⟨g1, g2, g3, g4⟩ := (C79_elementwise _ v b).2 w h'
  refine ⟨g1.trans h1, g2.trans h2, g3.trans h3, ?_⟩
  intro r c k
  rw [g4, h4]
  by_cases hb : b.get r c k = 0
  · simp [hb]
  · simp only [hb, if_false]
    exact mul_div_cancel_right₀ _ hb

example : ∃ v w, add exA exA = some v ∧ subtract v exA = some w ∧ values w = values exA := ⟨_, _, rfl, rfl, by decide⟩

end Verif.Views
