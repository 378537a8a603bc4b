import Verif.Lemmas.FloatNormalization

/-!
# C146: the normalization layer with rounding

The normalization layer computes finite numbers, and the error it hands down is finite, unless the elements are very small.

Recorded disagreements: for elements below 2^-149 the deviation is rounded to zero and the results are infinite or NaN (`C146_tiny_violated`); the error it hands down is
infinite already for inputs of 2^-50, because the third power of the deviation is rounded to zero (`C146_backward_violated`).
-/
namespace Verif.FloatNormalization
open Verif Double Statistics FloatStatistics FloatColumn Rounding FloatBits FloatOrder

/-- The largest element, between two powers of 2. -/
theorem largest_element (l : List F32) (h0 : ∃ x ∈ l, number x ≠ 0) :
    ∃ E : Int, (∀ x ∈ l, |number x| ≤ 2 ^ E) ∧ ∃ x ∈ l, 2 ^ (E - 1) < |number x| := by
  obtain ⟨x0, hx0, hne⟩ := h0
  obtain ⟨x, hx, hmax⟩ := Finset.exists_max_image l.toFinset (fun x => |number x|) ⟨x0, List.mem_toFinset.2 hx0⟩
  have pos : 0 < |number x| := lt_of_lt_of_le (abs_pos.2 hne) (hmax x0 (List.mem_toFinset.2 hx0))
  have c1 : |number x| ≤ (2 : ℚ) ^ Int.clog 2 |number x| := by exact_mod_cast Int.self_le_zpow_clog (b := 2) (by norm_num) |number x|
  have c2 : (2 : ℚ) ^ (Int.clog 2 |number x| - 1) < |number x| := by exact_mod_cast Int.zpow_pred_clog_lt_self (b := 2) (by norm_num) pos
  exact ⟨_, fun y hy => (hmax y (List.mem_toFinset.2 hy)).trans c1, x, List.mem_toFinset.1 hx, c2⟩

/-- From the deviation as a `double` to a `float`. -/
theorem deviation_float (d w N P sd : ℚ) (hd : 0 < d) (h1 : |d ^ 2 - w| ≤ d ^ 2 / 2 ^ 51) (hN : 1 ≤ N) (hP : P ≤ 2 ^ 9 * (N * w)) (hw : 1 / 2 ^ 200 ≤ w)
    (hsd : |sd - d| ≤ 1 / 2 ^ 24 * |d| + 1 / 2 ^ 150) : 0 < sd ∧ sd ≤ 2 * d ∧ P ≤ 2 ^ 12 * (N * sd ^ 2) := by
  rw [abs_of_pos hd] at hsd
  have h2 : w ≤ 2 * d ^ 2 := by
    have := (abs_le.1 h1).1
    have : d ^ 2 / 2 ^ 51 ≤ d ^ 2 := div_le_self (by positivity) (by norm_num)
    linarith
  have h3 : 1 / 2 ^ 101 ≤ d := by
    by_contra hc
    have h4 := pow_lt_pow_left₀ (not_le.1 hc) hd.le (n := 2) (by norm_num)
    rw [div_pow, one_pow, ← pow_mul] at h4
    have e : (1 : ℚ) / 2 ^ 200 = 4 * (1 / 2 ^ (101 * 2)) := by norm_num
    have : (0 : ℚ) < 1 / 2 ^ (101 * 2) := by positivity
    rw [e] at hw
    generalize (1 : ℚ) / 2 ^ (101 * 2) = x at *
    linarith
  have h4 : (1 : ℚ) / 2 ^ 150 ≤ 1 / 4 * (1 / 2 ^ 101) := by norm_num
  have h5 : |sd - d| ≤ 3 / 10 * d := by
    generalize (1 : ℚ) / 2 ^ 150 = x at *
    generalize (1 : ℚ) / 2 ^ 101 = y at *
    norm_num at hsd
    linarith
  rw [abs_le] at h5
  have h6 : 7 / 10 * d ≤ sd := by linarith
  refine ⟨by linarith, by linarith, ?_⟩
  have h7 := pow_le_pow_left₀ (by linarith) h6 2
  have h8 : w ≤ 5 * sd ^ 2 := by nlinarith
  have h9 : N * w ≤ N * (5 * sd ^ 2) := mul_le_mul_of_nonneg_left h8 (by linarith)
  nlinarith [mul_nonneg (by linarith : (0 : ℚ) ≤ N) (sq_nonneg sd)]

/-- The constants of the layer for at least two elements. -/
theorem constants_facts (t : Tensor F32) (hn : 2 ≤ t.size) (hn' : t.size ≤ 2 ^ 53) (hl : ∀ x ∈ elements t, Finite x ∧ |number x| ≤ 2 ^ (125 : Int))
    (hx : ∃ x ∈ elements t, 2 ^ (-60 : Int) ≤ |number x|) :
    ∃ (E : Int) (mean sd : F32), constants t = some (mean, sd) ∧ Finite mean ∧ Finite sd ∧ -60 ≤ E ∧ E ≤ 125 ∧ (∀ x ∈ elements t, |number x| ≤ 2 ^ E) ∧
      (∃ x ∈ elements t, 2 ^ (E - 1) < |number x|) ∧ |number mean| ≤ 2 ^ (E + 1) ∧ 0 < number sd ∧ number sd ≤ 2 ^ (E + 2) ∧
      2 ^ (2 * E) ≤ 2 ^ 12 * ((t.size : ℚ) * number sd ^ 2) := by
  obtain ⟨x1, hx1, hx1'⟩ := hx
  obtain ⟨E, e1, x, hx, e2⟩ := largest_element (elements t) ⟨x1, hx1, fun h => by
    rw [h, abs_zero] at hx1'
    exact absurd (two_zpow_pos (-60)) (not_lt.2 hx1')⟩
  have one2 : (1 : ℚ) < 2 := by norm_num
  have E1 : -60 ≤ E := (zpow_le_zpow_iff_right₀ one2).1 (hx1'.trans (e1 x1 hx1))
  have E2 : E ≤ 125 := by
    have := (zpow_lt_zpow_iff_right₀ one2).1 (e2.trans_le (hl x hx).2)
    omega
  obtain ⟨n, hsize⟩ : ∃ n, t.size = n + 1 := ⟨t.size - 1, by omega⟩
  obtain ⟨l, l1, l2⟩ : ∃ l, 2 ^ l ≤ n + 1 ∧ n + 1 < 2 ^ (l + 1) := ⟨Nat.log2 (n + 1), Nat.log2_self_le (by omega), Nat.lt_log2_self⟩
  have l3 : l ≤ 53 := (Nat.pow_le_pow_iff_right (by norm_num : 1 < 2)).1 (l1.trans (hsize ▸ hn'))
  obtain ⟨m, q, r1, r2, r3, r4, r5⟩ := step_run n (by omega) (by omega) E (by omega) (by omega) ((flat t).map number) 0 0 0 rep_zero rep_zero
    (by rw [abs_zero]; exact (two_zpow_pos E).le) (le_refl _) (by simp) (by
      intro v hv
      obtain ⟨y, hy, rfl⟩ := List.mem_map.1 hv
      exact ⟨number_rep y, e1 y ((mem_flat t y).1 hy)⟩) (by rw [List.length_map, flat_length, hsize]; omega)
  have q1 : 2 ^ (2 * E - 8) ≤ q := by
    have := r5 (E - 3) l (by omega) (by omega) l1 l2 (by simp) ⟨number x, List.mem_map.2 ⟨x, (mem_flat t x).2 hx, rfl⟩, by
      rw [show E - 3 + 2 = E - 1 by ring]
      exact e2⟩
    rwa [show 2 * (E - 3) - 2 = 2 * E - 8 by ring] at this
  rw [List.length_map, flat_length, Nat.zero_add, hsize] at r4
  have hN : (0 : ℚ) < ((n + 1 : Nat) : ℚ) := by exact_mod_cast Nat.succ_pos n
  have w1 : 2 ^ (2 * E - 9 - l) ≤ q / (n + 1 : Nat) := by
    rw [le_div_iff₀ hN]
    refine le_trans ?_ q1
    have hNl : ((n + 1 : Nat) : ℚ) ≤ 2 ^ (l + 1) := by exact_mod_cast l2.le
    refine (mul_le_mul_of_nonneg_left hNl (two_zpow_pos _).le).trans (le_of_eq ?_)
    rw [← zpow_natCast, ← zpow_add₀ (by norm_num)]
    congr 1
    push_cast
    ring
  have w2 : q / (n + 1 : Nat) ≤ 2 ^ (2 * E + 2) := by
    rw [div_le_iff₀ hN, mul_comm]
    exact r4
  have w3 := le_rnd (rep_pow (by omega)) w1
  have w4 := rnd_le (rep_pow (by omega)) w2
  have hop : op (q / (n + 1 : Nat)) = some (rnd (q / (n + 1 : Nat))) := by
    refine op_some ?_
    rw [abs_of_nonneg (div_nonneg r3 hN.le)]
    exact w2.trans (zpow_le_zpow_right₀ (by norm_num) (by omega))
  generalize rnd (q / (n + 1 : Nat)) = w at *
  have wpos : 0 < w := lt_of_lt_of_le (two_zpow_pos _) w3
  obtain ⟨d, d1, d2, d3, d4⟩ := root_facts w wpos
  have d5 : d ≤ 2 ^ (E + 1) := d4 (E + 1) (by rw [show 2 * (E + 1) = 2 * E + 2 by ring]; exact w4)
  have p127 : ∀ k : Int, k ≤ 127 → (2 : ℚ) ^ k ≤ 2 ^ 127 := fun k hk => by
    rw [show (2 : ℚ) ^ 127 = 2 ^ (127 : Int) from (zpow_natCast 2 127).symm]
    exact zpow_le_zpow_right₀ (by norm_num) hk
  obtain ⟨m1, m2⟩ := toFloat_error m (r2.trans (p127 _ (by omega)))
  obtain ⟨f1, f2⟩ := toFloat_error d (by rw [abs_of_pos d2]; exact d5.trans (p127 _ (by omega)))
  obtain ⟨g1, g2, g3⟩ := deviation_float d w ((n + 1 : Nat) : ℚ) (2 ^ (2 * E)) (number (toFloat d)) d2 d3 (by exact_mod_cast Nat.le_add_left 1 n) (by
      have h1 : (2 : ℚ) ^ l * 2 ^ (2 * E - 9 - l) ≤ ((n + 1 : Nat) : ℚ) * w :=
        mul_le_mul (by exact_mod_cast l1) w3 (two_zpow_pos _).le hN.le
      have h2 : (2 : ℚ) ^ (2 * E) = 2 ^ 9 * (2 ^ l * 2 ^ (2 * E - 9 - l)) := by
        rw [← zpow_natCast 2 l, ← zpow_natCast 2 9, ← zpow_add₀ (by norm_num), ← zpow_add₀ (by norm_num)]
        congr 1
        push_cast
        ring
      rw [h2]
      exact mul_le_mul_of_nonneg_left h1 (by norm_num)) (by
      refine le_trans ?_ w3
      rw [show (1 : ℚ) / 2 ^ 200 = 2 ^ (-200 : Int) by rw [zpow_neg, one_div]; norm_cast]
      exact zpow_le_zpow_right₀ (by norm_num) (by omega)) f2
  refine ⟨E, toFloat m, toFloat d, ?_, m1, f1, E1, E2, e1, ⟨x, hx, e2⟩, ?_, g1, ?_, ?_⟩
  · unfold constants
    rw [mapM_floats (flat t) fun y hy => (hl y ((mem_flat t y).1 hy)).1, hsize]
    show (((flat t).map number).foldlM (step (n + 1)) (0, 0)).bind _ = _
    rw [r1]
    show (if n + 1 = 0 then none else op (q / (n + 1 : Nat))).bind _ = _
    rw [if_neg (by omega), hop]
    show (if w = 0 then _ else (root w).bind _) = _
    rw [if_neg wpos.ne', d1]
    rfl
  · have h1 := abs_add_le (number (toFloat m) - m) m
    rw [sub_add_cancel] at h1
    have h2 : (1 : ℚ) / 2 ^ 150 ≤ 1 / 2 * 2 ^ E := by
      have : (2 : ℚ) ^ (-60 : Int) ≤ 2 ^ E := zpow_le_zpow_right₀ (by norm_num) E1
      have h3 : (1 : ℚ) / 2 ^ 150 ≤ 1 / 2 * 2 ^ (-60 : Int) := by rw [zpow_neg]; norm_num
      exact h3.trans (mul_le_mul_of_nonneg_left this (by norm_num))
    rw [← half_pow]
    generalize (1 : ℚ) / 2 ^ 150 = y at *
    norm_num at m2
    linarith [abs_nonneg m]
  · rw [show E + 2 = (E + 1) + 1 by ring, ← half_pow (E + 1)]
    linarith
  · rw [hsize]
    exact g3

/-- One normalized value. -/
theorem cast_le {a : ℚ} {E : Int} (h : |a| ≤ 2 ^ E) : |(a : ℝ)| ≤ 2 ^ E := by
  have := (Rat.cast_le (K := ℝ)).2 h
  push_cast at this
  exact this

theorem standardize_bound (mean sd v : F32) (E : Int) (n : Nat) (hE' : E ≤ 125) (hn : 1 ≤ n) (hn' : n ≤ 2 ^ 53) (f1 : Finite mean) (f2 : Finite sd) (f3 : Finite v)
    (h1 : |number v| ≤ 2 ^ E) (h2 : |number mean| ≤ 2 ^ (E + 1)) (h3 : 0 < number sd) (h4 : 2 ^ (2 * E) ≤ 2 ^ 12 * ((n : ℚ) * number sd ^ 2)) :
    Finite (standardize mean sd v) ∧ number (standardize mean sd v) ^ 2 ≤ 2 ^ 20 * n := by
  have p1 : |real v| ≤ (2 : ℝ) ^ E := by rw [real_number]; exact cast_le h1
  have p2 : |real mean| ≤ 2 * (2 : ℝ) ^ E := by
    rw [real_number, mul_comm, ← zpow_add_one₀ (by norm_num)]
    exact cast_le h2
  have p3 : 0 < real sd := by rw [real_number]; exact_mod_cast h3
  have p4 : ((2 : ℝ) ^ E) ^ 2 ≤ 2 ^ 12 * ((n : ℝ) * real sd ^ 2) := by
    rw [real_number, ← zpow_natCast, ← zpow_mul, mul_comm E]
    have := (Rat.cast_le (K := ℝ)).2 h4
    push_cast at this
    exact this
  have pos : (0 : ℝ) < 2 ^ E := zpow_pos (by norm_num) E
  have cap : (2 : ℝ) ^ E + 2 * 2 ^ E ≤ 2 ^ 127 := by
    have e : (2 : ℝ) ^ 127 = 4 * 2 ^ (125 : Int) := by norm_num
    have : (2 : ℝ) ^ E ≤ 2 ^ (125 : Int) := zpow_le_zpow_right₀ (by norm_num) hE'
    rw [e]
    generalize (2 : ℝ) ^ (125 : Int) = x at *
    linarith
  obtain ⟨s1, s2⟩ := sub_upper f3 f1 p1 p2 cap
  have hu : u ≤ 1 / 4 := by unfold u; norm_num
  have s3 : |real (v - mean)| ≤ 8 * (2 : ℝ) ^ E := by nlinarith
  have n1 : (1 : ℝ) ≤ n := by exact_mod_cast hn
  have n2 : (n : ℝ) ≤ 2 ^ 53 := by exact_mod_cast hn'
  generalize (2 : ℝ) ^ E = P at *
  have q1 : (real (v - mean) / real sd) ^ 2 ≤ 2 ^ 18 * (n : ℝ) := by
    rw [div_pow, div_le_iff₀ (by positivity), ← sq_abs]
    have := pow_le_pow_left₀ (abs_nonneg _) s3 2
    nlinarith
  have q2 : |real (v - mean) / real sd| ≤ 2 ^ 127 := by
    have h5 : |real (v - mean) / real sd| ≤ 2 ^ 36 := by
      refine abs_le_of_sq_le_sq (q1.trans ?_) (by norm_num)
      calc (2 : ℝ) ^ 18 * n ≤ 2 ^ 18 * 2 ^ 53 := mul_le_mul_of_nonneg_left n2 (by norm_num)
        _ ≤ (2 ^ 36) ^ 2 := by norm_num
    exact h5.trans (pow_le_pow_right₀ (by norm_num) (by norm_num))
  obtain ⟨d1, d2⟩ := div_spec (v - mean) sd s1 f2 p3.ne' q2
  refine ⟨d1, ?_⟩
  have := (quotient_bound _ _ P n _ n1 p3 s3 p4 d2).2
  have e : ((number (standardize mean sd v) : ℚ) : ℝ) ^ 2 ≤ 2 ^ 20 * (n : ℝ) := by
    rw [← real_number]
    exact this
  exact_mod_cast e

/-- The layer computes finite numbers, of size at most 1024 times the root of the number of elements, if the largest of at least two elements is between 2^-60 and 2^125.
What is missing: other inputs, see `C146_tiny_violated`. -/
theorem C146_finite_partial (t : Tensor F32) (hn : 2 ≤ t.size) (hn' : t.size ≤ 2 ^ 53) (hl : ∀ x ∈ elements t, Finite x ∧ |number x| ≤ 2 ^ (125 : Int))
    (hx : ∃ x ∈ elements t, 2 ^ (-60 : Int) ≤ |number x|) :
    ∃ y, forward t = some y ∧ y.rows = t.rows ∧ y.cols = t.cols ∧ y.chans = t.chans ∧
      ∀ r c k, r < t.rows → c < t.cols → k < t.chans → Finite (y.get r c k) ∧ number (y.get r c k) ^ 2 ≤ 2 ^ 20 * t.size := by
  obtain ⟨E, mean, sd, h1, h2, h3, h4, h5, h6, -, h8, h9, -, h11⟩ := constants_facts t hn hn' hl hx
  refine ⟨Views.map (standardize mean sd) t, by unfold forward; rw [h1]; rfl, rfl, rfl, rfl, fun r c k hr hc hk => ?_⟩
  have hm : t.get r c k ∈ elements t := by
    unfold elements
    simp only [List.mem_flatMap, List.mem_map, List.mem_range]
    exact ⟨k, hk, r, hr, c, hc, rfl⟩
  exact standardize_bound mean sd _ E t.size h5 (by omega) hn' h2 h3 (hl _ hm).1 (h6 _ hm) h8 h9 h11

theorem zero_cases (v : F32) (h : value v.bits = 0) : v = ⟨0#32⟩ ∨ v = ⟨0x80000000#32⟩ := by
  have hm := (FloatBits.value_eq_zero_iff v.bits).mp h
  have lt := v.bits.isLt
  obtain ⟨b⟩ := v
  simp only at hm lt ⊢
  have : b.toNat = 0 ∨ b.toNat = 2 ^ 31 := by omega
  rcases this with h | h
  · exact Or.inl (congrArg F32.mk (BitVec.eq_of_toNat_eq h))
  · exact Or.inr (congrArg F32.mk (BitVec.eq_of_toNat_eq h))

theorem zeros_run (n : Nat) (vs : List ℚ) (h : ∀ v ∈ vs, v = 0) : vs.foldlM (step n) (0, 0) = some (0, 0) := by
  induction vs with
  | nil => rfl
  | cons v vs ih =>
    have o : op 0 = some 0 := by
      rw [op_some (by rw [abs_zero]; exact (two_zpow_pos 1000).le), rnd_zero]
    have e : step n (0, 0) v = some (0, 0) := by
      rw [h v (by simp)]
      unfold step
      simp [o]
    rw [List.foldlM_cons, e]
    exact ih fun w hw => h w (List.mem_cons_of_mem _ hw)

/-- If all elements are zero, so are the results. -/
theorem C146_zero (t : Tensor F32) (hn : 1 ≤ t.size) (hl : ∀ x ∈ elements t, Finite x ∧ number x = 0) :
    ∃ y, forward t = some y ∧ ∀ r c k, r < t.rows → c < t.cols → k < t.chans → Finite (y.get r c k) ∧ number (y.get r c k) = 0 := by
  have hc : constants t = some (toFloat 0, one) := by
    unfold constants
    rw [mapM_floats (flat t) fun y hy => (hl y ((mem_flat t y).1 hy)).1]
    show (((flat t).map number).foldlM (step t.size) (0, 0)).bind _ = _
    rw [zeros_run t.size _ fun v hv => by
      obtain ⟨y, hy, rfl⟩ := List.mem_map.1 hv
      exact (hl y ((mem_flat t y).1 hy)).2]
    have o : op 0 = some 0 := by
      rw [op_some (by rw [abs_zero]; exact (two_zpow_pos 1000).le), rnd_zero]
    have z : t.size ≠ 0 := by omega
    simp [z, o]
  refine ⟨_, by unfold forward; rw [hc]; rfl, fun r c k hr hc' hk => ?_⟩
  have hm : t.get r c k ∈ elements t := by
    unfold elements
    simp only [List.mem_flatMap, List.mem_map, List.mem_range]
    exact ⟨k, hk, r, hr, c, hc', rfl⟩
  show Finite (standardize (toFloat 0) one (t.get r c k)) ∧ number (standardize (toFloat 0) one (t.get r c k)) = 0
  obtain ⟨fv, zv⟩ := hl _ hm
  generalize t.get r c k = v at *
  have hz : v = ⟨0#32⟩ ∨ v = ⟨0x80000000#32⟩ := by
    have h0 : value v.bits = 0 := by
      unfold number at zv
      rw [div_eq_zero_iff] at zv
      rcases zv with h | h
      · exact_mod_cast h
      · exact absurd h (by positivity)
    exact zero_cases v h0
  rcases hz with rfl | rfl <;> decide +kernel

/-- For a single element the result is zero. -/
theorem C146_single (t : Tensor F32) (hn : t.size = 1) (hl : ∀ x ∈ elements t, Finite x) :
    ∃ y, forward t = some y ∧ ∀ r c k, r < t.rows → c < t.cols → k < t.chans → Finite (y.get r c k) ∧ number (y.get r c k) = 0 := by
  obtain ⟨x, hx⟩ : ∃ x, flat t = [x] := List.length_eq_one_iff.1 (by rw [flat_length, hn])
  have all : ∀ y ∈ elements t, y = x := fun y hy => by
    have := (mem_flat t y).2 hy
    rw [hx] at this
    simpa using this
  have fx : Finite x := hl x ((mem_flat t x).1 (by rw [hx]; simp))
  have cap : |number x| ≤ 2 ^ (1000 : Int) := (number_lt x fx).trans (zpow_le_zpow_right₀ (by norm_num) (by norm_num : (128 : Int) ≤ 1000))
  have r := rnd_rep (number_rep x)
  have o : op 0 = some 0 := by
    rw [op_some (by rw [abs_zero]; exact (two_zpow_pos 1000).le), rnd_zero]
  have o2 : op (number x) = some (number x) := by rw [op_some cap, r]
  have hc : constants t = some (toFloat (number x), one) := by
    unfold constants
    rw [mapM_floats (flat t) fun y hy => hl y ((mem_flat t y).1 hy), hx, hn]
    simp [step, o, o2]
  refine ⟨_, by unfold forward; rw [hc]; rfl, fun r c k hr hc' hk => ?_⟩
  have hm : t.get r c k ∈ elements t := by
    unfold elements
    simp only [List.mem_flatMap, List.mem_map, List.mem_range]
    exact ⟨k, hk, r, hr, c, hc', rfl⟩
  show Finite (standardize (toFloat (number x)) one (t.get r c k)) ∧ number (standardize (toFloat (number x)) one (t.get r c k)) = 0
  rw [all _ hm]
  obtain ⟨fm, m1, m2⟩ := toFloat_between (number x) x x fx fx le_rfl le_rfl
  have e : real x - real (toFloat (number x)) = 0 := by
    rw [real_number, real_number, le_antisymm m2 m1, sub_self]
  obtain ⟨s1, s2⟩ := sub_spec x (toFloat (number x)) fx fm (by rw [e, abs_zero]; positivity)
  rw [e, abs_zero, mul_zero, sub_zero] at s2
  have s3 := abs_nonpos_iff.1 s2
  have s4 : value (x - toFloat (number x)).bits = 0 := by
    unfold real at s3
    rw [div_eq_zero_iff] at s3
    rcases s3 with h | h
    · exact_mod_cast h
    · exact absurd h (by positivity)
  unfold FloatColumn.standardize
  rcases zero_cases _ s4 with h | h <;> rw [h] <;> decide +kernel

/-- The error handed down, one value. -/
theorem derivative_finite (mean sd n d z : F32) (fm : Finite mean) (fs : Finite sd) (fn : Finite n) (fd : Finite d) (fz : Finite z) (hm : |real mean| ≤ 2 ^ 21)
    (hs : 1 / 2 ^ 22 ≤ real sd) (hs' : real sd ≤ 2 ^ 22) (hn : 1 ≤ real n) (hn' : real n ≤ 2 ^ 17) (hd : |real d| ≤ 1) (hz : |real z| ≤ 2 ^ 18) :
    Finite (derivative mean sd n d z) := by
  have s0 : 0 < real sd := lt_of_lt_of_le (by norm_num) hs
  have n0 : 0 < real n := by linarith
  have as : |real sd| = real sd := abs_of_pos s0
  have an : |real n| = real n := abs_of_pos n0
  obtain ⟨a1, a2⟩ := mul_upper fs fn (as.trans_le hs') (an.trans_le hn') (by norm_num) (by norm_num)
  have a3 : 1 / 2 ^ 22 ≤ |real sd * real n| := by
    rw [abs_mul, as, an]
    nlinarith
  have a4 : |real sd * real n| ≤ 2 ^ 22 * 2 ^ 17 := by
    rw [abs_mul, as, an]
    exact mul_le_mul hs' hn' n0.le (by norm_num)
  have a5 := mul_lower fs fn (a4.trans (by norm_num)) (le_trans (by norm_num) a3)
  have a6 : 1 / 2 ^ 23 ≤ |real (sd * n)| := le_trans (by linarith) a5
  obtain ⟨c1, c2⟩ := div_upper fd a1 hd (by norm_num : (0 : ℝ) < 1 / 2 ^ 23) a6 (by norm_num) (by norm_num)
  obtain ⟨d1, d2⟩ := div_upper fd fs hd (by norm_num : (0 : ℝ) < 1 / 2 ^ 22) (hs.trans as.ge) (by norm_num) (by norm_num)
  obtain ⟨e1, e2⟩ := sub_upper fz fm hz hm (by norm_num)
  have e3 : |real (z - mean)| ≤ 2 ^ 23 := e2.trans (by unfold u; norm_num)
  obtain ⟨k1, k2⟩ := negate_spec _ c1
  have k3 : |real (F32.negate (d / (sd * n)))| ≤ 2 * (1 / (1 / 2 ^ 23)) := by rw [k2, abs_neg]; exact c2
  obtain ⟨f1, f2⟩ := mul_upper k1 e1 k3 e3 (by norm_num) (by norm_num)
  have q1 : 1 / 2 ^ 44 ≤ |real sd * real sd| := by
    rw [abs_mul, as]
    calc (1 : ℝ) / 2 ^ 44 = 1 / 2 ^ 22 * (1 / 2 ^ 22) := by norm_num
      _ ≤ _ := mul_le_mul hs hs (by norm_num) s0.le
  obtain ⟨q2, q3⟩ := mul_upper fs fs (as.trans_le hs') (as.trans_le hs') (by norm_num) (by norm_num)
  have q4 : |real sd * real sd| ≤ 2 ^ 22 * 2 ^ 22 := by
    rw [abs_mul, as]
    exact mul_le_mul hs' hs' s0.le (by norm_num)
  have q5 := mul_lower fs fs (q4.trans (by norm_num)) (le_trans (by norm_num) q1)
  have q6 : 1 / 2 ^ 45 ≤ |real (sd * sd)| := le_trans (by linarith) q5
  have r1 : 1 / 2 ^ 67 ≤ |real (sd * sd) * real sd| := by
    rw [abs_mul, as]
    calc (1 : ℝ) / 2 ^ 67 = 1 / 2 ^ 45 * (1 / 2 ^ 22) := by norm_num
      _ ≤ _ := mul_le_mul q6 hs (by norm_num) (abs_nonneg _)
  obtain ⟨r2, r3⟩ := mul_upper q2 fs q3 (as.trans_le hs') (by norm_num) (by norm_num)
  have r4 : |real (sd * sd) * real sd| ≤ 2 * (2 ^ 22 * 2 ^ 22) * 2 ^ 22 := by
    rw [abs_mul, as]
    exact mul_le_mul q3 hs' s0.le (by norm_num)
  have r5 := mul_lower q2 fs (r4.trans (by norm_num)) (le_trans (by norm_num) r1)
  have r6 : 1 / 2 ^ 68 ≤ |real (sd * sd * sd)| := le_trans (by linarith) r5
  have w1 : 1 / 2 ^ 68 * real n ≤ |real (sd * sd * sd) * real n| := by
    rw [abs_mul, an]
    exact mul_le_mul_of_nonneg_right r6 n0.le
  have w0 : (1 : ℝ) / 2 ^ 68 ≤ 1 / 2 ^ 68 * real n := le_mul_of_one_le_right (by norm_num) hn
  obtain ⟨w2, w3⟩ := mul_upper r2 fn r3 (an.trans_le hn') (by norm_num) (by norm_num)
  have w4 : |real (sd * sd * sd) * real n| ≤ 2 * (2 * (2 ^ 22 * 2 ^ 22) * 2 ^ 22) * 2 ^ 17 := by
    rw [abs_mul, an]
    exact mul_le_mul r3 hn' n0.le (by norm_num)
  have w5 := mul_lower r2 fn (w4.trans (by norm_num)) (le_trans (by norm_num) (w0.trans w1))
  have w6 : 1 / 2 ^ 69 * real n ≤ |real (sd * sd * sd * n)| := le_trans (by linarith) w5
  obtain ⟨g1, g2⟩ := mul_upper fd e1 hd e3 (by norm_num) (by norm_num)
  have g3 : |real (d * (z - mean))| ≤ 2 ^ 24 := g2.trans (by norm_num)
  have x1 : (2 : ℝ) ^ 24 / (1 / 2 ^ 69 * real n) = 2 ^ 93 / real n := by
    field_simp
  have x2 : (2 : ℝ) ^ 93 / real n ≤ 2 ^ 93 := div_le_self (by norm_num) hn
  have x3 : (2 : ℝ) ^ 76 ≤ 2 ^ 93 / real n := by
    rw [le_div_iff₀ n0]
    calc (2 : ℝ) ^ 76 * real n ≤ 2 ^ 76 * 2 ^ 17 := mul_le_mul_of_nonneg_left hn' (by norm_num)
      _ = 2 ^ 93 := by norm_num
  obtain ⟨h1, h2⟩ := div_upper g1 w2 g3 (by positivity : (0 : ℝ) < 1 / 2 ^ 69 * real n) w6 (by rw [x1]; exact x2.trans (by norm_num)) (by rw [x1]; exact le_trans (by norm_num) x3)
  rw [x1] at h2
  obtain ⟨m1, m2⟩ := negate_spec n fn
  have m3 : |real (F32.negate n)| ≤ real n := by rw [m2, abs_neg, an]
  have p0 : real n * 2 ^ 23 ≤ 2 ^ 17 * 2 ^ 23 := mul_le_mul_of_nonneg_right hn' (by norm_num)
  obtain ⟨p1, p2⟩ := mul_upper m1 e1 m3 e3 (p0.trans (by norm_num)) (le_trans (by norm_num) (mul_le_mul_of_nonneg_right hn (by norm_num : (0 : ℝ) ≤ 2 ^ 23)))
  have y1 : 2 * (real n * 2 ^ 23) * (2 * (2 ^ 93 / real n)) = (2 : ℝ) ^ 118 := by
    field_simp
  obtain ⟨z1, z2⟩ := mul_upper p1 h1 p2 h2 (by rw [y1]; norm_num) (by rw [y1]; norm_num)
  rw [y1] at z2
  obtain ⟨v1, v2⟩ := add_upper d1 f1 d2 f2 (by norm_num)
  exact (add_upper v1 z1 v2 z2 (by norm_num)).1

/-- The error handed down is finite if there are between 2 and 2^16 elements, the largest between 2^-8 and 2^20, and the errors are at most 1.
What is missing: other inputs, see `C146_backward_violated`. -/
theorem C146_backward_finite_partial (t e : Tensor F32) (hn : 2 ≤ t.size) (hn' : t.size ≤ 2 ^ 16) (hl : ∀ x ∈ elements t, Finite x ∧ |number x| ≤ 2 ^ 20)
    (hx : ∃ x ∈ elements t, 1 / 2 ^ 8 ≤ |number x|) (r c k : Nat) (hr : r < t.rows) (hc : c < t.cols) (hk : k < t.chans) (fe : Finite (e.get r c k))
    (he : |number (e.get r c k)| ≤ 1) : ∃ y, backward t e r c k = some y ∧ Finite y := by
  have one2 : (1 : ℚ) < 2 := by norm_num
  obtain ⟨x0, hx0, hx0'⟩ := hx
  have big : t.size ≤ 2 ^ 53 := hn'.trans (by norm_num)
  have hl' : ∀ x ∈ elements t, Finite x ∧ |number x| ≤ 2 ^ (125 : Int) := fun x hx => ⟨(hl x hx).1, (hl x hx).2.trans (by norm_num)⟩
  have hx' : ∃ x ∈ elements t, 2 ^ (-60 : Int) ≤ |number x| := ⟨x0, hx0, le_trans (by norm_num) hx0'⟩
  obtain ⟨E, mean, sd, h1, h2, h3, -, h5, h6, ⟨x1, hx1, hx1'⟩, h8, h9, h10, h11⟩ := constants_facts t hn big hl' hx'
  have E1 : -8 ≤ E := (zpow_le_zpow_iff_right₀ one2).1 (le_trans (by norm_num; norm_num at hx0'; exact hx0') (h6 x0 hx0))
  have E2 : E ≤ 20 := by
    have : (2 : ℚ) ^ (E - 1) < 2 ^ (20 : Int) := hx1'.trans_le (by exact_mod_cast (hl x1 hx1).2)
    have := (zpow_lt_zpow_iff_right₀ one2).1 this
    omega
  have hm : t.get r c k ∈ elements t := by
    unfold elements
    simp only [List.mem_flatMap, List.mem_map, List.mem_range]
    exact ⟨k, hk, r, hr, c, hc, rfl⟩
  obtain ⟨z1, z2⟩ := standardize_bound mean sd _ E t.size h5 (by omega) big h2 h3 (hl _ hm).1 (h6 _ hm) h8 h9 h11
  have N1 : (2 : ℚ) ≤ t.size := by exact_mod_cast hn
  have N2 : (t.size : ℚ) ≤ 65536 := by exact_mod_cast hn'
  obtain ⟨f1, f2⟩ := toFloat_error (t.size : ℚ) (by rw [abs_of_nonneg (by linarith)]; exact N2.trans (by norm_num))
  rw [abs_of_nonneg (by linarith : (0 : ℚ) ≤ t.size)] at f2
  have f3 : |number (toFloat t.size) - t.size| ≤ 1 / 2 * t.size := by
    have : (1 : ℚ) / 2 ^ 150 ≤ 1 / 8 := by norm_num
    generalize (1 : ℚ) / 2 ^ 150 = b at *
    norm_num at f2
    linarith
  rw [abs_le] at f3
  refine ⟨_, by unfold backward; rw [h1]; rfl, derivative_finite _ _ _ _ _ h2 h3 f1 fe z1 ?_ ?_ ?_ ?_ ?_ ?_ ?_⟩
  · rw [real_number]
    have : |number mean| ≤ 2 ^ (21 : Int) := h8.trans (zpow_le_zpow_right₀ (by norm_num) (by omega))
    exact_mod_cast cast_le this
  · have q : (2 : ℚ) ^ (-16 : Int) ≤ 2 ^ 12 * (65536 * number sd ^ 2) := by
      refine (zpow_le_zpow_right₀ (by norm_num) (by omega : (-16 : Int) ≤ 2 * E)).trans (h11.trans ?_)
      exact mul_le_mul_of_nonneg_left (mul_le_mul_of_nonneg_right N2 (by positivity)) (by norm_num)
    have : (1 / 2 ^ 22 : ℚ) ≤ number sd := by
      refine le_of_sq_le_sq ?_ h9.le
      norm_num at q ⊢
      linarith
    rw [real_number]
    have := (Rat.cast_le (K := ℝ)).2 this
    push_cast at this
    exact this
  · have : number sd ≤ 2 ^ 22 := by
      have : number sd ≤ 2 ^ (22 : Int) := h10.trans (zpow_le_zpow_right₀ (by norm_num) (by omega))
      exact_mod_cast this
    rw [real_number]
    exact_mod_cast this
  · rw [real_number]
    have : 1 ≤ number (toFloat t.size) := by linarith
    exact_mod_cast this
  · rw [real_number]
    have : number (toFloat t.size) ≤ 2 ^ 17 := by norm_num; linarith
    exact_mod_cast this
  · rw [real_number]
    exact_mod_cast he
  · rw [real_number]
    have : |number (standardize mean sd (t.get r c k))| ≤ 2 ^ 18 := by
      refine abs_le_of_sq_le_sq (z2.trans ?_) (by norm_num)
      norm_num
      linarith
    exact_mod_cast this

/-- The smallest float and seven zeros. -/
def tiny : Tensor F32 := ⟨1, 8, 1, fun _ c _ => if c = 0 then ⟨1#32⟩ else ⟨0#32⟩⟩

/-- The deviation is rounded to zero: infinity and NaN for finite elements. -/
theorem C146_tiny_violated :
    (∀ x ∈ elements tiny, Finite x) ∧ ((forward tiny).map fun y => y.get 0 0 0) = some ⟨0x7F800000#32⟩ ∧ ((forward tiny).map fun y => y.get 0 1 0) = some F32.nan := by
  refine ⟨by decide +kernel, by decide +kernel, by decide +kernel⟩

/-- 2^-50 and 0. -/
def small : Tensor F32 := ⟨1, 2, 1, fun _ c _ => if c = 0 then ⟨0x26800000#32⟩ else ⟨0#32⟩⟩

/-- Errors of 1. -/
def errors : Tensor F32 := ⟨1, 2, 1, fun _ _ _ => one⟩

/-- The results are finite, but the third power of the deviation is rounded to zero: the error handed down is infinite. -/
theorem C146_backward_violated :
    (∀ x ∈ elements small, Finite x) ∧ (∃ y, forward small = some y ∧ Finite (y.get 0 0 0) ∧ Finite (y.get 0 1 0)) ∧
      backward small errors 0 0 0 = some ⟨0xFF800000#32⟩ ∧ backward small errors 0 1 0 = some ⟨0xFF800000#32⟩ := by
  have f : ∀ o : Option (Tensor F32), (∃ a b, (o.map fun y => (y.get 0 0 0, y.get 0 1 0)) = some (a, b) ∧ Finite a ∧ Finite b) → ∃ y, o = some y ∧ Finite (y.get 0 0 0) ∧ Finite (y.get 0 1 0) := by
    rintro (_ | y) ⟨a, b, h, ha, hb⟩
    · cases h
    · simp only [Option.map_some, Option.some.injEq, Prod.mk.injEq] at h
      exact ⟨y, rfl, h.1 ▸ ha, h.2 ▸ hb⟩
  refine ⟨by decide +kernel, f _ ⟨⟨1068219106#32⟩, ⟨3202677038#32⟩, by decide +kernel, by decide +kernel, by decide +kernel⟩, by decide +kernel, by decide +kernel⟩

/-- Two elements, 2 and 0. -/
def pair : Tensor F32 := ⟨1, 2, 1, fun _ c _ => if c = 0 then ⟨0x40000000#32⟩ else ⟨0#32⟩⟩

theorem number_two : number ⟨0x40000000#32⟩ = 2 := by
  have : value 0x40000000#32 = 2 * 2 ^ 149 := by decide +kernel
  unfold number
  rw [this]
  norm_num

example : ∃ y, forward pair = some y ∧ Finite (y.get 0 1 0) := by
  have e : elements pair = [⟨0x40000000#32⟩, ⟨0#32⟩] := by decide +kernel
  have z : number ⟨0#32⟩ = 0 := by decide +kernel
  obtain ⟨y, h, -, -, -, h'⟩ := C146_finite_partial pair (by decide) (by decide)
    (by
      rw [e]
      simp only [List.mem_cons, List.not_mem_nil, or_false, forall_eq_or_imp, forall_eq]
      exact ⟨⟨by decide +kernel, by rw [number_two]; norm_num⟩, by decide +kernel, by rw [z]; norm_num⟩)
    ⟨⟨0x40000000#32⟩, by rw [e]; simp, by rw [number_two]; norm_num⟩
  exact ⟨y, h, (h' 0 1 0 (by decide) (by decide) (by decide)).1⟩

example : ∃ y, backward pair errors 0 0 0 = some y ∧ Finite y := by
  have e : elements pair = [⟨0x40000000#32⟩, ⟨0#32⟩] := by decide +kernel
  have z : number ⟨0#32⟩ = 0 := by decide +kernel
  have o : number one = 1 := by
    have : value one.bits = 2 ^ 149 := by decide +kernel
    unfold number
    rw [this]
    norm_num
  refine C146_backward_finite_partial pair errors (by decide) (by decide) ?_ ⟨⟨0x40000000#32⟩, by rw [e]; simp, by rw [number_two]; norm_num⟩ 0 0 0 (by decide) (by decide) (by decide)
    (by decide +kernel) ((congrArg abs o).trans_le (by norm_num))
  rw [e]
  simp only [List.mem_cons, List.not_mem_nil, or_false, forall_eq_or_imp, forall_eq]
  exact ⟨⟨by decide +kernel, by rw [number_two]; norm_num⟩, by decide +kernel, by rw [z]; norm_num⟩

example : ∃ y, forward ⟨1, 1, 1, fun _ _ _ => ⟨0x40000000#32⟩⟩ = some y ∧ number (y.get 0 0 0) = 0 := by
  obtain ⟨y, h, h'⟩ := C146_single ⟨1, 1, 1, fun _ _ _ => ⟨0x40000000#32⟩⟩ rfl (by decide +kernel)
  exact ⟨y, h, (h' 0 0 0 (by decide) (by decide) (by decide)).2⟩

example : ∃ y, forward ⟨1, 3, 1, fun _ _ _ => ⟨0x80000000#32⟩⟩ = some y ∧ number (y.get 0 2 0) = 0 := by
  obtain ⟨y, h, h'⟩ := C146_zero ⟨1, 3, 1, fun _ _ _ => ⟨0x80000000#32⟩⟩ (by decide) (by decide +kernel)
  exact ⟨y, h, (h' 0 2 0 (by decide) (by decide) (by decide)).2⟩

end Verif.FloatNormalization
