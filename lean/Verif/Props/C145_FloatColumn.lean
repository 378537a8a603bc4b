import Verif.Props.C144_FloatStatistics
import Verif.Lemmas.FloatColumn

/-!
# C145: numbers of a dataset column with rounding

A number that was standardized and normalized when the dataset was created is read back up to an error of about 2^-22 times the largest number of the column times the deviation.

Recorded disagreement: a standardized column is normalized with the smallest and largest value from before. If the values are large against their spread in deviations, all of
them are stored as one number (`C145_collapsed_violated`, `C145_lost_violated`).
-/
namespace Verif.FloatColumn
open Verif Double Statistics FloatStatistics FloatBits Rounding FloatOrder FloatActivation

/-- The square of the deviation as a `float`; `d` is the deviation as a `double`. -/
theorem square_error (d x w : ℚ) (h1 : 1 < d) (h2 : |d ^ 2 - w| ≤ d ^ 2 / 2 ^ 51) (h3 : |x - d| ≤ 1 / 2 ^ 24 * d + 1 / 2 ^ 150) : |x ^ 2 - w| ≤ w / 2 ^ 22 := by
  have h4 : |x - d| ≤ (1 / 2 ^ 24 + 1 / 2 ^ 40) * d := by
    refine h3.trans ?_
    have : (1 : ℚ) / 2 ^ 150 ≤ 1 / 2 ^ 40 := by norm_num
    generalize (1 : ℚ) / 2 ^ 150 = t at *
    nlinarith
  have h5 : |x + d| ≤ (2 + 1 / 2 ^ 20) * d := by
    have e : x + d = (x - d) + 2 * d := by ring
    rw [e]
    refine (abs_add_le _ _).trans ?_
    rw [abs_of_pos (by linarith : 0 < 2 * d)]
    linarith
  have h6 : |x ^ 2 - d ^ 2| ≤ (1 / 2 ^ 24 + 1 / 2 ^ 40) * d * ((2 + 1 / 2 ^ 20) * d) := by
    rw [show x ^ 2 - d ^ 2 = (x - d) * (x + d) by ring, abs_mul]
    exact mul_le_mul h4 h5 (abs_nonneg _) (by positivity)
  have h7 := abs_sub_le (x ^ 2) (d ^ 2) w
  have h8 := (abs_le.1 h2).2
  have d0 : 0 < d ^ 2 := by positivity
  rw [show (1 / 2 ^ 24 + 1 / 2 ^ 40) * d * ((2 + 1 / 2 ^ 20) * d) = (1 / 2 ^ 24 + 1 / 2 ^ 40) * (2 + 1 / 2 ^ 20) * d ^ 2 by ring] at h6
  generalize d ^ 2 = D at *
  norm_num at h6 h2 h8 ⊢
  linarith

/-- What the metadata of a column says. -/
theorem metadata_facts (ts : List (Tensor F32)) (M : ℚ) (hM : M ≤ 2 ^ 70) (hlen : (ts.flatMap elements).length ≤ 2 ^ 53)
    (hl : ∀ x ∈ ts.flatMap elements, Finite x ∧ |number x| ≤ M) (hd : ∃ x ∈ ts.flatMap elements, ∃ y ∈ ts.flatMap elements, number x ≠ number y) :
    ∃ m, metadata ts = some m ∧ Finite m.lo ∧ Finite m.hi ∧ Finite m.mean ∧ Finite m.sd ∧ (∃ x ∈ ts.flatMap elements, number m.lo = number x) ∧
      (∃ x ∈ ts.flatMap elements, number m.hi = number x) ∧ (∀ x ∈ ts.flatMap elements, number m.lo ≤ number x ∧ number x ≤ number m.hi) ∧
      number m.lo < number m.hi ∧ number m.lo ≤ number m.mean ∧ number m.mean ≤ number m.hi ∧ 0 ≤ number m.sd ∧
      number m.sd ≤ 3 * (number m.hi - number m.lo) ∧ (m.standardized = true → 1 ≤ number m.sd ∧ 1 < number m.hi - number m.lo)  ∧
      ∃ s w, running ts = some s ∧ s.variance = some w ∧ m.mean = toFloat s.mean ∧ (m.standardized = true → |number m.sd ^ 2 - w| ≤ w / 2 ^ 22) ∧
        (w ≤ 1 → m.standardized = false) ∧ (1 + 1 / 2 ^ 50 < w → m.standardized = true) := by
  obtain ⟨x0, hx0, y0, hy0, hxy⟩ := hd
  obtain ⟨s, s1, s2, ⟨a, ha, ea⟩, ⟨b, hb, eb⟩, s5, s6, s7, -, w, w1, w2, w3⟩ := C144_running ts (List.ne_nil_of_mem hx0) hlen fun x hx => (hl x hx).1
  have wpos : 0 < w := lt_of_le_of_ne w2 fun h => hxy (w3.1 h.symm x0 hx0 y0 hy0)
  obtain ⟨d, d1, d2, d3, d4⟩ := root_facts w wpos
  have fa := (hl a ha).1
  have fb := (hl b hb).1
  have ma := abs_le.1 (hl a ha).2
  have mb := abs_le.1 (hl b hb).2
  have hab : number a < number b := by
    rw [← ea, ← eb]
    refine lt_of_le_of_ne ((s5 x0 hx0).1.trans (s5 x0 hx0).2) fun h => hxy ?_
    have h1 := s5 x0 hx0
    have h2 := s5 y0 hy0
    linarith
  -- the range is at least 2^-149
  have hR0 : (2 : ℚ) ^ (-149 : Int) ≤ number b - number a := by
    have hv : value a.bits < value b.bits := not_le.1 fun h => absurd ((number_le_iff b a).2 h) (not_le.2 hab)
    have hv' : ((1 : Int) : ℚ) ≤ ((value b.bits - value a.bits : Int) : ℚ) := Int.cast_le.2 (by omega)
    unfold number
    rw [← sub_div, le_div_iff₀ (by positivity), zpow_neg, ← Int.cast_sub]
    refine le_trans (le_of_eq ?_) hv'
    norm_num
  have Rpos : 0 < number b - number a := by linarith
  have c1 : number b - number a ≤ (2 : ℚ) ^ Int.clog 2 (number b - number a) := by exact_mod_cast Int.self_le_zpow_clog (b := 2) (by norm_num) (number b - number a)
  have c2 : (2 : ℚ) ^ (Int.clog 2 (number b - number a) - 1) < number b - number a := by
    exact_mod_cast Int.zpow_pred_clog_lt_self (b := 2) (by norm_num) Rpos
  generalize Int.clog 2 (number b - number a) = e at *
  have he : -149 ≤ e := (zpow_le_zpow_iff_right₀ (by norm_num : (1 : ℚ) < 2)).1 (hR0.trans c1)
  rw [zpow_sub_one₀ (by norm_num)] at c2
  have hw : w ≤ 2 ^ (2 * e) := by
    have hrun : ((ts.flatMap elements).map number).foldlM Running.step .init = some s := by
      rw [← s1]
      unfold running
      rw [mapM_floats _ fun x hx => (hl x hx).1]
      rfl
    have hm2 := squares_le (number a) (number b) e (by omega) c1 ((ts.flatMap elements).map number) .init s rep_zero (fun _ => rfl) (fun h => absurd h (lt_irrefl 0)) (by
        show (0 : ℚ) ≤ ((0 : Nat) : ℚ) * _
        rw [Nat.cast_zero, zero_mul]) (by
        intro v hv
        obtain ⟨x, hx, rfl⟩ := List.mem_map.1 hv
        exact ⟨number_rep x, ea ▸ (s5 x hx).1, eb ▸ (s5 x hx).2⟩) (by
        show 0 + _ ≤ _
        rw [List.length_map, Nat.zero_add]
        exact hlen) hrun
    have htot : 0 < s.total := by rw [s2]; exact List.length_pos_iff.2 (List.ne_nil_of_mem hx0)
    have htot' : (0 : ℚ) < s.total := by exact_mod_cast htot
    unfold FloatStatistics.Running.variance at w1
    rw [if_neg (by omega)] at w1
    unfold op at w1
    split at w1
    · rw [← Option.some.inj w1]
      refine rnd_le (rep_pow (by omega)) ?_
      rw [div_le_iff₀ htot', mul_comm]
      exact hm2
    · cases w1
  have hde : d ≤ 2 ^ e := d4 e hw
  have hdR : d ≤ 2 * (number b - number a) := by linarith
  obtain ⟨p1, p2, p3⟩ := toFloat_between s.min a a fa fa ea.ge ea.le
  obtain ⟨q1, q2, q3⟩ := toFloat_between s.max b b fb fb eb.ge eb.le
  obtain ⟨r1, r2, r3⟩ := toFloat_between s.mean a b fa fb (ea ▸ s6) (eb ▸ s7)
  have elo : number (toFloat s.min) = number a := le_antisymm p3 p2
  have ehi : number (toFloat s.max) = number b := le_antisymm q3 q2
  have e70 : (2 : ℚ) ^ 127 = 2 ^ 57 * 2 ^ 70 := by norm_num
  have hd127 : d ≤ 2 ^ 127 := by
    rw [e70]
    generalize (2 : ℚ) ^ 70 = P at *
    linarith
  obtain ⟨t1, t2⟩ := toFloat_error d (by rw [abs_of_pos d2]; exact hd127)
  rw [abs_of_pos d2, abs_le] at t2
  have hbig : number ⟨0x7F000000#32⟩ = 2 ^ 127 := by
    unfold number
    rw [show value (0x7F000000#32) = 2 ^ 276 by decide +kernel]
    rw [Int.cast_pow, Int.cast_ofNat, show (276 : Nat) = 127 + 149 by rfl, pow_add, mul_div_assoc, div_self (by positivity), mul_one]
  have t3 := toFloat_between d ⟨0#32⟩ ⟨0x7F000000#32⟩ (by decide) (by decide) (by rw [number_zero (by decide)]; exact d2.le) (by rw [hbig]; exact hd127)
  rw [number_zero (by decide)] at t3
  refine ⟨⟨decide (1 < d), toFloat s.mean, toFloat d, toFloat s.min, toFloat s.max⟩, ?_, p1, q1, r1, t1, ⟨a, ha, elo⟩, ⟨b, hb, ehi⟩, ?_, ?_, ?_, ?_, t3.2.1, ?_, ?_, s, w, s1, w1, rfl, ?_, ?_, ?_⟩
  · unfold metadata
    rw [s1]
    show s.variance.bind _ = _
    rw [w1]
    show (root w).bind _ = _
    rw [d1]
    rfl
  · intro x hx
    show number (toFloat s.min) ≤ _ ∧ _ ≤ number (toFloat s.max)
    rw [elo, ehi, ← ea, ← eb]
    exact s5 x hx
  · show number (toFloat s.min) < number (toFloat s.max)
    rw [elo, ehi]
    exact hab
  · show number (toFloat s.min) ≤ number (toFloat s.mean)
    rw [elo]
    exact r2
  · show number (toFloat s.mean) ≤ number (toFloat s.max)
    rw [ehi]
    exact r3
  · show number (toFloat d) ≤ 3 * (number (toFloat s.max) - number (toFloat s.min))
    rw [elo, ehi]
    have : (1 : ℚ) / 2 ^ 150 ≤ 2 ^ (-149 : Int) / 2 := by rw [zpow_neg]; norm_num
    have t5 := t2.2
    generalize (1 : ℚ) / 2 ^ 150 = t at this t5
    generalize (2 : ℚ) ^ (-149 : Int) = t' at this hR0
    linarith
  · intro h
    have h1 : 1 < d := of_decide_eq_true h
    have t4 := toFloat_between d one ⟨0x7F000000#32⟩ (by decide) (by decide) (by rw [number_one (a := one) rfl]; exact h1.le) (by rw [hbig]; exact hd127)
    rw [number_one (a := one) rfl] at t4
    refine ⟨t4.2.1, ?_⟩
    show 1 < number (toFloat s.max) - number (toFloat s.min)
    rw [elo, ehi]
    have e1 : 1 ≤ e := by
      by_contra hc
      have : (2 : ℚ) ^ e ≤ 2 ^ (0 : Int) := zpow_le_zpow_right₀ (by norm_num) (by omega)
      rw [zpow_zero] at this
      linarith
    have : (2 : ℚ) ^ (1 : Int) ≤ 2 ^ e := zpow_le_zpow_right₀ (by norm_num) e1
    rw [zpow_one] at this
    linarith

  · intro h
    have h1 : 1 < d := of_decide_eq_true h
    exact square_error d (number (toFloat d)) w h1 d3 (abs_le.2 t2)
  · intro h
    have := d4 0 (by rw [mul_zero, zpow_zero]; exact h)
    rw [zpow_zero] at this
    exact decide_eq_false (not_lt.2 this)
  · intro h
    refine decide_eq_true (not_le.1 fun hc => ?_)
    rw [abs_le] at d3
    have : d ^ 2 ≤ 1 := pow_le_one₀ d2.le hc
    have h51 : d ^ 2 / 2 ^ 51 ≤ 1 / 2 ^ 51 := div_le_div_of_nonneg_right this (by positivity)
    have e : (1 : ℚ) / 2 ^ 50 = 2 * (1 / 2 ^ 51) := by norm_num
    rw [e] at h
    have : (0 : ℚ) < 1 / 2 ^ 51 := by norm_num
    generalize (1 : ℚ) / 2 ^ 51 = t at *
    linarith [d3.1]

theorem caps (M sd : ℝ) (hM : M ≤ 2 ^ 70) (hM0 : 0 ≤ M) (h0 : 0 ≤ sd) (h : sd ≤ 6 * M) :
    (∀ t : ℝ, t ≤ 1000 * M → t ≤ 2 ^ 127) ∧ ∀ t : ℝ, t ≤ 3 * M + 4 * (u * (M * sd)) → t ≤ 2 ^ 127 := by
  have hu := u_pos
  obtain ⟨P, h1, h2, h3⟩ : ∃ P : ℝ, M ≤ P ∧ 1000 * P ≤ 2 ^ 127 ∧ 3 * P + 4 * (u * (P * (6 * P))) ≤ 2 ^ 127 := ⟨2 ^ 70, hM, by norm_num, by unfold u; norm_num⟩
  generalize (2 : ℝ) ^ 127 = Q at *
  clear hM
  refine ⟨fun t ht => by linarith, fun t ht => ?_⟩
  have h4 : M * sd ≤ P * (6 * P) := mul_le_mul h1 (by linarith) h0 (by linarith)
  have := mul_le_mul_of_nonneg_left h4 hu.le
  linarith

/-- The metadata: smallest and largest value are exact, the mean and the square of the deviation are those of the running values (C144) up to a small error, and exactly the
columns with a variance above 1 are standardized (up to 2^-50). -/
theorem C145_metadata (ts : List (Tensor F32)) (hlen : (ts.flatMap elements).length ≤ 2 ^ 53) (hl : ∀ x ∈ ts.flatMap elements, Finite x ∧ |number x| ≤ 2 ^ 70)
    (hd : ∃ x ∈ ts.flatMap elements, ∃ y ∈ ts.flatMap elements, number x ≠ number y) :
    ∃ m s w, metadata ts = some m ∧ running ts = some s ∧ s.variance = some w ∧
      (∃ x ∈ ts.flatMap elements, number m.lo = number x) ∧ (∃ x ∈ ts.flatMap elements, number m.hi = number x) ∧
      (∀ x ∈ ts.flatMap elements, number m.lo ≤ number x ∧ number x ≤ number m.hi) ∧ |number m.mean - s.mean| ≤ 1 / 2 ^ 24 * |s.mean| + 1 / 2 ^ 150 ∧
      (m.standardized = true → |number m.sd ^ 2 - w| ≤ w / 2 ^ 22) ∧ (w ≤ 1 → m.standardized = false) ∧ (1 + 1 / 2 ^ 50 < w → m.standardized = true) := by
  obtain ⟨m, m1, -, -, -, -, m6, m7, m8, -, -, -, -, -, -, s, w, s1, s2, s3, s4, s5, s6⟩ := metadata_facts ts (2 ^ 70) (le_refl _) hlen hl hd
  refine ⟨m, s, w, m1, s1, s2, m6, m7, m8, ?_, s4, s5, s6⟩
  obtain ⟨x0, hx0, -⟩ := hd
  obtain ⟨s', e1, -, ⟨a, ha, ea⟩, ⟨b, hb, eb⟩, -, e6, e7, -⟩ := C144_running ts (List.ne_nil_of_mem hx0) hlen fun x hx => (hl x hx).1
  obtain rfl : s = s' := Option.some.inj (s1.symm.trans e1)
  rw [s3]
  refine (toFloat_error s.mean ?_).2
  have h1 := (abs_le.1 (hl a ha).2).1
  have h2 := (abs_le.1 (hl b hb).2).2
  have : (2 : ℚ) ^ 70 ≤ 2 ^ 127 := pow_le_pow_right₀ (by norm_num) (by norm_num)
  generalize (2 : ℚ) ^ 70 = P at *
  generalize (2 : ℚ) ^ 127 = Q at *
  exact abs_le.2 ⟨by linarith, by linarith⟩

/-- Standardizing, normalizing and undoing both, for any constants of the sizes that columns have. -/
theorem standardized_back (m : Metadata) (v : F32) (M : ℝ) (hM : M ≤ 2 ^ 70) (hM0 : 1 / 2 ≤ M) (hs : m.standardized = true) (f1 : Finite m.lo) (f2 : Finite m.hi)
    (f3 : Finite m.mean) (f4 : Finite m.sd) (fv : Finite v) (lM : |real m.lo| ≤ M) (hR : 1 ≤ real m.hi - real m.lo) (hR' : real m.hi - real m.lo ≤ 2 * M)
    (s1 : 1 ≤ real m.sd) (s2 : real m.sd ≤ 6 * M) (vM : |real v| ≤ M) (hvm : |real v - real m.mean| ≤ 2 * M) :
    Finite (encode m v) ∧ Finite (decode m (encode m v)) ∧ |real (decode m (encode m v)) - real v| ≤ (4 + real m.sd) * M / 2 ^ 22 := by
  have hu := u_pos
  have hη := η_pos
  have hu' : u ≤ 1 / 1000 := by unfold u; norm_num
  have hη' : η ≤ 1 / 1000 := by unfold η; norm_num
  obtain ⟨cap, cap2⟩ : (∀ t : ℝ, t ≤ 1000 * M → t ≤ 2 ^ 127) ∧ ∀ t : ℝ, t ≤ 3 * M + 4 * (u * (M * real m.sd)) → t ≤ 2 ^ 127 := caps M (real m.sd) hM (by linarith) (by linarith) s2
  clear hM
  have umul : ∀ t : ℝ, 0 ≤ t → u * t ≤ t / 1000 := fun t ht => by
    have := mul_le_mul_of_nonneg_right hu' ht
    linarith
  have uM0 : 0 < u * M := mul_pos hu (by linarith)
  have uM := umul M (by linarith)
  have sd0 : 0 < real m.sd := by linarith
  -- standardizing
  obtain ⟨d1, d2⟩ := sub_spec v m.mean fv f3 (cap _ (by linarith))
  have dle : |real (v - m.mean)| ≤ 3 * M := by
    have h1 := abs_add_le (real (v - m.mean) - (real v - real m.mean)) (real v - real m.mean)
    rw [sub_add_cancel] at h1
    have h2 := umul _ (abs_nonneg (real v - real m.mean))
    linarith
  have qle : |real (v - m.mean) / real m.sd| ≤ 3 * M := by
    rw [abs_div, abs_of_pos sd0, div_le_iff₀ sd0]
    have : 3 * M * 1 ≤ 3 * M * real m.sd := mul_le_mul_of_nonneg_left s1 (by linarith)
    linarith
  obtain ⟨z1, z2⟩ := div_spec (v - m.mean) m.sd d1 f4 sd0.ne' (cap _ (by linarith))
  obtain ⟨E1, E2, E3⟩ := standardize_error (real v) (real m.mean) (real m.sd) M _ _ hM0 s1 s2 hvm d2 z2
  have hz : standardize m.mean m.sd v = (v - m.mean) / m.sd := rfl
  rw [← hz] at z1 E1 E2 E3
  have henc : encode m v = normalize m.lo m.hi (standardize m.mean m.sd v) := by
    unfold encode
    rw [if_pos hs]
  generalize standardize m.mean m.sd v = z at *
  -- normalizing
  have zM : |real z| ≤ 3 * M := by linarith
  have zl : |real z - real m.lo| ≤ 4 * M := (abs_sub _ _).trans (by linarith)
  obtain ⟨x1, x2⟩ := sub_spec z m.lo z1 f1 (cap _ (by linarith))
  obtain ⟨r1, r2⟩ := sub_spec m.hi m.lo f2 f1 (cap _ (by rw [abs_of_nonneg (by linarith)]; linarith))
  rw [abs_of_nonneg (by linarith : 0 ≤ real m.hi - real m.lo)] at r2
  have r3 := umul (real m.hi - real m.lo) (by linarith)
  have r4 := abs_le.1 r2
  have rpos : 1 / 2 ≤ real (m.hi - m.lo) := by linarith
  have rle : real (m.hi - m.lo) ≤ 4 * M := by linarith
  have rp : 0 < real (m.hi - m.lo) := by linarith
  have xle : |real (z - m.lo)| ≤ 5 * M := by
    have h1 := abs_add_le (real (z - m.lo) - (real z - real m.lo)) (real z - real m.lo)
    rw [sub_add_cancel] at h1
    have h2 := umul _ (abs_nonneg (real z - real m.lo))
    linarith
  have xr : |real (z - m.lo) / real (m.hi - m.lo)| ≤ 10 * M := by
    rw [abs_div, abs_of_pos rp, div_le_iff₀ rp]
    have : 10 * M * (1 / 2) ≤ 10 * M * real (m.hi - m.lo) := mul_le_mul_of_nonneg_left rpos (by linarith)
    linarith
  obtain ⟨y1, y2⟩ := div_spec (z - m.lo) (m.hi - m.lo) x1 r1 rp.ne' (cap _ (by linarith))
  have hy : normalize m.lo m.hi z = (z - m.lo) / (m.hi - m.lo) := rfl
  rw [hy] at henc
  rw [← henc] at y1 y2
  have hdec : decode m (encode m v) = unstandardize m.mean m.sd (denormalize m.lo m.hi (encode m v)) := by
    unfold decode
    rw [if_pos hs]
  rw [hdec]
  clear hdec henc hy
  generalize encode m v = y at *
  -- undoing the normalization
  have yr : |real y * real (m.hi - m.lo)| ≤ 6 * M := by
    have h3 : |real y * real (m.hi - m.lo) - real (z - m.lo)| ≤ u * |real (z - m.lo)| + η * real (m.hi - m.lo) := by
      have e : real y * real (m.hi - m.lo) - real (z - m.lo) = (real y - real (z - m.lo) / real (m.hi - m.lo)) * real (m.hi - m.lo) := by
        field_simp
      rw [e, abs_mul, abs_of_pos rp]
      refine (mul_le_mul_of_nonneg_right y2 (by linarith)).trans (le_of_eq ?_)
      rw [abs_div, abs_of_pos rp]
      field_simp
    have h4 := abs_add_le (real y * real (m.hi - m.lo) - real (z - m.lo)) (real (z - m.lo))
    rw [sub_add_cancel] at h4
    have h5 := umul _ (abs_nonneg (real (z - m.lo)))
    have h6 := mul_le_mul_of_nonneg_right hη' (by linarith : 0 ≤ real (m.hi - m.lo))
    linarith
  obtain ⟨p1, p2⟩ := mul_spec y (m.hi - m.lo) y1 r1 (cap _ (by linarith))
  obtain ⟨N1, N2⟩ := normalize_error (real z) (real m.lo) (real (m.hi - m.lo)) M _ _ _ hM0 lM (by linarith) rle x2 y2 p2
  have uz := umul _ (abs_nonneg (real z))
  have pl : |real (y * (m.hi - m.lo)) + real m.lo| ≤ 4 * M := by
    have h1 := abs_add_le (real (y * (m.hi - m.lo)) + real m.lo - real z) (real z)
    rw [sub_add_cancel] at h1
    linarith
  obtain ⟨w1, w2⟩ := add_spec (y * (m.hi - m.lo)) m.lo p1 f1 (cap _ (by linarith))
  have W := N2 _ w2
  have hw : denormalize m.lo m.hi y = y * (m.hi - m.lo) + m.lo := rfl
  rw [← hw] at w1 W
  clear w2 hw
  generalize denormalize m.lo m.hi y = w at *
  -- undoing the standardization
  obtain ⟨C1, C2⟩ := column_error (real v) (real m.mean) (real m.sd) M (real z) (real w) (real (w * m.sd)) hM0 s1 vM E1 E2 W
  obtain ⟨q1, q2⟩ := mul_spec w m.sd w1 f4 (cap2 _ C1)
  obtain ⟨C3, C4⟩ := C2 q2
  obtain ⟨o1, o2⟩ := add_spec (w * m.sd) m.mean q1 f3 (cap2 _ (C3.trans (by linarith)))
  exact ⟨y1, o1, C4 _ o2⟩

/-- Every number of a column is read back up to an error of (4 + deviation) · M / 2^22, where `M` bounds the numbers of the column. What is missing: the error is not small
against the differences of the numbers, see below. -/
theorem C145_read_back_partial (ts : List (Tensor F32)) (M : ℚ) (hM : M ≤ 2 ^ 70) (hlen : (ts.flatMap elements).length ≤ 2 ^ 53)
    (hl : ∀ x ∈ ts.flatMap elements, Finite x ∧ |number x| ≤ M) (hd : ∃ x ∈ ts.flatMap elements, ∃ y ∈ ts.flatMap elements, number x ≠ number y) :
    ∃ m, metadata ts = some m ∧ 0 ≤ number m.sd ∧ (∀ R : ℚ, (∀ x ∈ ts.flatMap elements, ∀ y ∈ ts.flatMap elements, number x - number y ≤ R) → number m.sd ≤ 3 * R) ∧
      ∀ v ∈ ts.flatMap elements, Finite (encode m v) ∧ Finite (decode m (encode m v)) ∧
        |number (decode m (encode m v)) - number v| ≤ (4 + number m.sd) * M / 2 ^ 22 + 1 / 2 ^ 149 := by
  obtain ⟨m, m1, f1, f2, f3, f4, ⟨a, ha, ea⟩, ⟨b, hb, eb⟩, hbnd, hlt, g1, g2, s0, s1, s2, -⟩ := metadata_facts ts M hM hlen hl hd
  refine ⟨m, m1, s0, ?_, ?_⟩
  · intro R hR
    have := hR b hb a ha
    linarith
  intro v hv
  obtain ⟨fv, vM⟩ := hl v hv
  have la : |number m.lo| ≤ M := by rw [ea]; exact (hl a ha).2
  have lb : |number m.hi| ≤ M := by rw [eb]; exact (hl b hb).2
  obtain ⟨v1, v2⟩ := hbnd v hv
  have la' := abs_le.1 la
  have lb' := abs_le.1 lb
  have hM0 : 0 ≤ M := (abs_nonneg _).trans la
  by_cases hs : m.standardized = true
  · obtain ⟨s3, s4⟩ := s2 hs
    have toR : ∀ p q : ℚ, p ≤ q → (p : ℝ) ≤ (q : ℝ) := fun p q h => by exact_mod_cast h
    obtain ⟨h1, h2, h3⟩ := standardized_back m v M (by simpa using toR _ _ hM) (by
        have := toR (1 / 2) M (by linarith)
        push_cast at this
        exact this) hs f1 f2 f3 f4 fv (by
        rw [real_number]
        exact_mod_cast la) (by
        rw [real_number, real_number]
        exact_mod_cast s4.le) (by
        rw [real_number, real_number]
        exact_mod_cast (by linarith : number m.hi - number m.lo ≤ 2 * M)) (by
        rw [real_number]
        exact_mod_cast s3) (by
        rw [real_number]
        exact_mod_cast (by linarith : number m.sd ≤ 6 * M)) (by
        rw [real_number]
        exact_mod_cast vM) (by
        rw [real_number, real_number]
        exact_mod_cast abs_le.2 ⟨by linarith, by linarith⟩)
    refine ⟨h1, h2, ?_⟩
    rw [real_number, real_number, real_number] at h3
    have h4 : |number (decode m (encode m v)) - number v| ≤ (4 + number m.sd) * M / 2 ^ 22 := by
      have : ((|number (decode m (encode m v)) - number v| : ℚ) : ℝ) ≤ (((4 + number m.sd) * M / 2 ^ 22 : ℚ) : ℝ) := by
        push_cast
        exact h3
      exact_mod_cast this
    have h5 : (0 : ℚ) ≤ 1 / 2 ^ 149 := by positivity
    generalize (1 : ℚ) / 2 ^ 149 = t at *
    linarith
  · have henc : encode m v = normalize m.lo m.hi v := by
      unfold encode
      rw [if_neg hs]
    have hdec : decode m (encode m v) = denormalize m.lo m.hi (normalize m.lo m.hi v) := by
      unfold decode
      rw [if_neg hs, henc]
    have hM' : M ≤ 2 ^ 125 := hM.trans (pow_le_pow_right₀ (by norm_num) (by norm_num))
    obtain ⟨h1, h2⟩ := C144_undone m.lo m.hi v M f1 f2 fv hlt v1 v2 hM' la lb
    have hr : Finite (m.hi - m.lo) := by
      refine (sub_spec m.hi m.lo f2 f1 ?_).1
      rw [real_number, real_number]
      have : |number m.hi - number m.lo| ≤ 2 ^ 127 := by
        have e : (2 : ℚ) ^ 127 = 2 ^ 2 * 2 ^ 125 := by norm_num
        rw [e, abs_of_pos (by linarith)]
        generalize (2 : ℚ) ^ 125 = P at *
        linarith
      exact_mod_cast this
    refine ⟨?_, by rw [hdec]; exact h1, ?_⟩
    · rw [henc]
      exact ((C144_normalized_partial m.lo m.hi f1 f2 hlt hr).1 v fv v1 v2).1
    · rw [hdec]
      refine h2.trans ?_
      have h6 : M / 2 ^ 21 ≤ (4 + number m.sd) * M / 2 ^ 22 := by
        have : 0 ≤ number m.sd * M := mul_nonneg s0 hM0
        rw [div_le_div_iff₀ (by norm_num) (by norm_num)]
        linarith
      linarith

/-- Numbers that are far enough apart are stored as different numbers. -/
theorem C145_apart_partial (ts : List (Tensor F32)) (M : ℚ) (hM : M ≤ 2 ^ 70) (hlen : (ts.flatMap elements).length ≤ 2 ^ 53)
    (hl : ∀ x ∈ ts.flatMap elements, Finite x ∧ |number x| ≤ M) (m : Metadata) (hm : metadata ts = some m) (v w : F32) (hv : v ∈ ts.flatMap elements)
    (hw : w ∈ ts.flatMap elements) (hne : number v ≠ number w) (h : (4 + number m.sd) * M / 2 ^ 21 + 1 / 2 ^ 148 < number w - number v) : encode m v ≠ encode m w := by
  intro he
  obtain ⟨m', h1, h2, -, h3⟩ := C145_read_back_partial ts M hM hlen hl ⟨w, hw, v, hv, hne.symm⟩
  obtain rfl : m = m' := Option.some.inj (hm.symm.trans h1)
  obtain ⟨-, -, a1⟩ := h3 v hv
  obtain ⟨-, -, a2⟩ := h3 w hw
  rw [← he] at a2
  rw [abs_le] at a1 a2
  have e : (1 : ℚ) / 2 ^ 148 = 2 * (1 / 2 ^ 149) := by norm_num
  rw [e] at h
  generalize (1 : ℚ) / 2 ^ 149 = t at *
  linarith [a1.1, a2.2]

/-- What is missing: if the smallest value of a standardized column is large against the range in deviations, all values are stored as one number... -/
theorem C145_collapsed_violated (ts : List (Tensor F32)) (hlen : (ts.flatMap elements).length ≤ 2 ^ 53) (hl : ∀ x ∈ ts.flatMap elements, Finite x ∧ |number x| ≤ 2 ^ 70)
    (hd : ∃ x ∈ ts.flatMap elements, ∃ y ∈ ts.flatMap elements, number x ≠ number y) (m : Metadata) (hm : metadata ts = some m) (hs : m.standardized = true)
    (h : 2 ^ 27 * (number m.hi - number m.lo) ≤ number m.sd * |number m.lo|) : ∀ v ∈ ts.flatMap elements, ∀ w ∈ ts.flatMap elements, encode m v = encode m w := by
  obtain ⟨m', m1, f1, f2, f3, f4, ⟨a, ha, ea⟩, ⟨b, hb, eb⟩, hbnd, hlt, g1, g2, s0, s1, s2, -⟩ := metadata_facts ts (2 ^ 70) (le_refl _) hlen hl hd
  obtain rfl : m' = m := Option.some.inj (m1.symm.trans hm)
  obtain ⟨s3, s4⟩ := s2 hs
  have hu := u_pos
  have hη := η_pos
  have toR : ∀ p q : ℚ, p ≤ q → (p : ℝ) ≤ (q : ℝ) := fun p q h => by exact_mod_cast h
  have la : |real m'.lo| ≤ 2 ^ 70 := by
    have := toR _ _ (hl a ha).2
    rw [← ea] at this
    rw [real_number]
    push_cast at this
    exact this
  have lb : |real m'.hi| ≤ 2 ^ 70 := by
    have := toR _ _ (hl b hb).2
    rw [← eb] at this
    rw [real_number]
    push_cast at this
    exact this
  have s3' : 1 ≤ real m'.sd := by rw [real_number]; exact_mod_cast s3
  have s1' : real m'.sd ≤ 3 * (real m'.hi - real m'.lo) := by rw [real_number, real_number, real_number]; exact_mod_cast s1
  have s4' : 1 < real m'.hi - real m'.lo := by rw [real_number, real_number]; exact_mod_cast s4
  have h' : 2 ^ 27 * (real m'.hi - real m'.lo) ≤ real m'.sd * |real m'.lo| := by rw [real_number, real_number, real_number]; exact_mod_cast h
  have sd0 : 0 < real m'.sd := by linarith
  have big : (2 : ℝ) ^ 70 + 2 ^ 70 ≤ 2 ^ 126 := by norm_num
  have big' : (2 : ℝ) ^ 126 * 2 = 2 ^ 127 := by norm_num
  have big0 : (1 : ℝ) ≤ 2 ^ 70 := by norm_num
  have key : ∀ v ∈ ts.flatMap elements, encode m' v = F32.negate m'.lo / (m'.hi - m'.lo) := by
    intro v hv
    obtain ⟨fv, -⟩ := hl v hv
    obtain ⟨v1, v2⟩ := hbnd v hv
    have hR : |real v - real m'.mean| ≤ real m'.hi - real m'.lo := by
      rw [real_number, real_number, real_number, real_number]
      exact_mod_cast abs_le.2 ⟨by linarith, by linarith⟩
    have hR2 : real m'.hi - real m'.lo ≤ 2 ^ 126 := by
      rw [abs_le] at la lb
      generalize (2 : ℝ) ^ 70 = P at *
      linarith
    obtain ⟨d1, d2⟩ := sub_spec v m'.mean fv f3 (by
      rw [← big']
      generalize (2 : ℝ) ^ 70 = P at *
      generalize (2 : ℝ) ^ 126 = Q at *
      linarith)
    have hu' : u ≤ 1 / 1000 := by unfold u; norm_num
    have hη' : η ≤ 1 / 1000 := by unfold η; norm_num
    have d3 : |real (v - m'.mean)| ≤ 1001 / 1000 * (real m'.hi - real m'.lo) := by
      have h1 := abs_add_le (real (v - m'.mean) - (real v - real m'.mean)) (real v - real m'.mean)
      rw [sub_add_cancel] at h1
      have h2 : u * |real v - real m'.mean| ≤ 1 / 1000 * (real m'.hi - real m'.lo) := mul_le_mul hu' hR (abs_nonneg _) (by norm_num)
      clear la lb big big' big0 h' hR2
      linarith
    have q1 : |real (v - m'.mean) / real m'.sd| * real m'.sd ≤ 1001 / 1000 * (real m'.hi - real m'.lo) := by
      rw [abs_div, abs_of_pos sd0, div_mul_cancel₀ _ sd0.ne']
      exact d3
    obtain ⟨z1, z2⟩ := div_spec (v - m'.mean) m'.sd d1 f4 sd0.ne' (by
      refine le_trans (le_mul_of_one_le_right (abs_nonneg _) s3') (q1.trans ?_)
      rw [← big']
      generalize (2 : ℝ) ^ 70 = P at *
      generalize (2 : ℝ) ^ 126 = Q at *
      linarith)
    have z3 : |real ((v - m'.mean) / m'.sd)| * real m'.sd ≤ 101 / 100 * (real m'.hi - real m'.lo) := by
      have h1 := abs_add_le (real ((v - m'.mean) / m'.sd) - real (v - m'.mean) / real m'.sd) (real (v - m'.mean) / real m'.sd)
      rw [sub_add_cancel] at h1
      have h2 := mul_le_mul_of_nonneg_right hu' (abs_nonneg (real (v - m'.mean) / real m'.sd))
      have h3 : |real ((v - m'.mean) / m'.sd)| ≤ 1001 / 1000 * |real (v - m'.mean) / real m'.sd| + η := by
        clear la lb big big' big0 h' hR2
        linarith
      have h4 := mul_le_mul_of_nonneg_right h3 sd0.le
      have h5 := mul_le_mul_of_nonneg_right hη' sd0.le
      clear la lb big big' big0 h' hR2
      linarith
    have hv0 : |real ((v - m'.mean) / m'.sd)| * 2 ^ 26 < |real m'.lo| := by
      refine lt_of_mul_lt_mul_right ?_ sd0.le
      have e : (2 : ℝ) ^ 27 = 2 * 2 ^ 26 := by norm_num
      rw [e] at h'
      have h5 := mul_le_mul_of_nonneg_right z3 (by positivity : (0 : ℝ) ≤ 2 ^ 26)
      have h6 : 0 < (2 : ℝ) ^ 26 * (real m'.hi - real m'.lo) := mul_pos (by positivity) (by linarith)
      clear la lb big big' big0 hR2 e
      generalize (2 : ℝ) ^ 26 = p at *
      linarith
    unfold encode
    rw [if_pos hs]
    have hn : ∀ z, FloatStatistics.normalize m'.lo m'.hi z = (z - m'.lo) / (m'.hi - m'.lo) := fun z => by unfold FloatStatistics.normalize; rfl
    have hz : standardize m'.mean m'.sd v = (v - m'.mean) / m'.sd := by unfold standardize; rfl
    rw [hn, hz, vanish _ m'.lo z1 f1 hv0 (by
      generalize (2 : ℝ) ^ 70 = P at *
      generalize (2 : ℝ) ^ 126 = Q at *
      linarith)]
  intro v hv w hw
  rw [key v hv, key w hw]

/-- 2^29 and 2^29 + 64. -/
def lost : Tensor F32 := ⟨1, 2, 1, fun _ c _ => if c = 0 then ⟨0x4E000000#32⟩ else ⟨0x4E000001#32⟩⟩

theorem lost_metadata : metadata [lost] = some ⟨true, ⟨0x4E000000#32⟩, ⟨0x42000000#32⟩, ⟨0x4E000000#32⟩, ⟨0x4E000001#32⟩⟩ := by decide +kernel

theorem lost_elements : [lost].flatMap elements = [⟨0x4E000000#32⟩, ⟨0x4E000001#32⟩] := by decide

/-- ... for example 2^29 and 2^29 + 64: both are stored as the same number and read back as 2^29. -/
theorem C145_lost_violated : ∃ (ts : List (Tensor F32)) (m : Metadata) (v w : F32), metadata ts = some m ∧ v ∈ ts.flatMap elements ∧ w ∈ ts.flatMap elements ∧
    number v + 64 = number w ∧ encode m v = encode m w ∧ decode m (encode m v) = v ∧ decode m (encode m w) ≠ w := by
  refine ⟨[lost], _, ⟨0x4E000000#32⟩, ⟨0x4E000001#32⟩, lost_metadata, by rw [lost_elements]; simp, by rw [lost_elements]; simp, ?_, by decide +kernel, by decide +kernel,
    by decide +kernel⟩
  unfold number
  rw [show value (0x4E000000#32) = 2 ^ 29 * 2 ^ 149 by decide +kernel, show value (0x4E000001#32) = (2 ^ 29 + 64) * 2 ^ 149 by decide +kernel]
  rw [Int.cast_mul, Int.cast_mul, Int.cast_pow (2 : Int) 149, Int.cast_ofNat, mul_div_assoc, mul_div_assoc, div_self (by positivity)]
  norm_num

/-! ### Witnesses -/

theorem lost_size : ∀ x ∈ [lost].flatMap elements, Finite x ∧ |number x| ≤ 2 ^ 30 := by
  intro x hx
  have h : x.units ≤ 2 ^ 30 * 2 ^ 149 ∧ isFinite x.bits = true := by
    revert x
    rw [lost_elements]
    decide +kernel
  refine ⟨h.2, ?_⟩
  rw [units_number, div_le_iff₀ (by positivity)]
  exact_mod_cast h.1

theorem lost_differ : ∃ x ∈ [lost].flatMap elements, ∃ y ∈ [lost].flatMap elements, number x ≠ number y := by
  rw [lost_elements]
  refine ⟨⟨0x4E000001#32⟩, by simp, ⟨0x4E000000#32⟩, by simp, fun h => ?_⟩
  exact absurd ((number_val _ _).1 h.le) (by decide +kernel)

/-- The hypotheses of `C145_collapsed_violated` hold for this column. -/
example (m : Metadata) (hm : metadata [lost] = some m) : ∀ v ∈ [lost].flatMap elements, ∀ w ∈ [lost].flatMap elements, encode m v = encode m w := by
  obtain rfl := Option.some.inj (lost_metadata.symm.trans hm)
  refine C145_collapsed_violated [lost] (by rw [lost_elements]; decide) (fun x hx => ⟨(lost_size x hx).1, (lost_size x hx).2.trans (pow_le_pow_right₀ (by norm_num) (by norm_num))⟩)
    lost_differ _ lost_metadata rfl ?_
  show 2 ^ 27 * (number ⟨0x4E000001#32⟩ - number ⟨0x4E000000#32⟩) ≤ number ⟨0x42000000#32⟩ * |number ⟨0x4E000000#32⟩|
  unfold number
  rw [show value (0x4E000000#32) = 2 ^ 29 * 2 ^ 149 by decide +kernel, show value (0x4E000001#32) = (2 ^ 29 + 64) * 2 ^ 149 by decide +kernel,
    show value (0x42000000#32) = 32 * 2 ^ 149 by decide +kernel]
  rw [Int.cast_mul, Int.cast_mul, Int.cast_mul, Int.cast_pow (2 : Int) 149, Int.cast_ofNat, mul_div_assoc, mul_div_assoc, mul_div_assoc, div_self (by positivity)]
  norm_num

theorem sample_column : (∀ x ∈ [sample, sample].flatMap elements, Finite x ∧ |number x| ≤ 4) ∧ ([sample, sample].flatMap elements).length ≤ 2 ^ 53 ∧
    ⟨0x3F800000#32⟩ ∈ [sample, sample].flatMap elements ∧ ⟨0x40600000#32⟩ ∈ [sample, sample].flatMap elements ∧ number ⟨0x3F800000#32⟩ ≠ number ⟨0x40600000#32⟩ := by
  have e : [sample, sample].flatMap elements = elements sample ++ elements sample := by simp
  rw [e]
  refine ⟨fun x hx => sample_size x (by simpa using hx), ?_⟩
  rw [sample_elements]
  refine ⟨by decide, by simp, by simp, fun h => ?_⟩
  exact absurd ((number_val _ _).1 h.ge) (by decide +kernel)

/-- 1, 3.5 and -0.1, in two rows: read back with an error of less than 10^-4; 1 and 3.5 are stored as different numbers. -/
example : ∃ m, metadata [sample, sample] = some m ∧ (∀ v ∈ [sample, sample].flatMap elements, |number (decode m (encode m v)) - number v| ≤ 1 / 10 ^ 4) ∧
    encode m ⟨0x3F800000#32⟩ ≠ encode m ⟨0x40600000#32⟩ := by
  obtain ⟨h1, h2, h3, h4, h5⟩ := sample_column
  obtain ⟨m, m1, -, m3, m4⟩ := C145_read_back_partial [sample, sample] 4 (by norm_num) h2 h1 ⟨_, h3, _, h4, h5⟩
  have h8 := m3 8 (by
    intro x hx y hy
    have g1 := abs_le.1 (h1 x hx).2
    have g2 := abs_le.1 (h1 y hy).2
    linarith)
  refine ⟨m, m1, fun v hv => (m4 v hv).2.2.trans ?_, C145_apart_partial [sample, sample] 4 (by norm_num) h2 h1 m m1 _ _ h3 h4 h5 ?_⟩
  · have t : (1 : ℚ) / 2 ^ 149 ≤ 1 / 10 ^ 6 := by norm_num
    generalize (1 : ℚ) / 2 ^ 149 = t' at *
    linarith
  · have t : (1 : ℚ) / 2 ^ 148 ≤ 1 / 10 ^ 6 := by norm_num
    generalize (1 : ℚ) / 2 ^ 148 = t' at *
    have d : (2 : ℚ) ≤ number ⟨0x40600000#32⟩ - number ⟨0x3F800000#32⟩ := by
      unfold number
      rw [show value (0x40600000#32) = 7 * 2 ^ 148 by decide +kernel, show value (0x3F800000#32) = 2 ^ 149 by decide +kernel]
      norm_num
    linarith

example : ∃ m s w, metadata [lost] = some m ∧ running [lost] = some s ∧ s.variance = some w ∧ |number m.sd ^ 2 - w| ≤ w / 2 ^ 22 := by
  obtain ⟨m, s, w, h1, h2, h3, -, -, -, -, h8, -, -⟩ := C145_metadata [lost] (by rw [lost_elements]; decide)
    (fun x hx => ⟨(lost_size x hx).1, (lost_size x hx).2.trans (pow_le_pow_right₀ (by norm_num) (by norm_num))⟩) lost_differ
  refine ⟨m, s, w, h1, h2, h3, h8 ?_⟩
  rw [Option.some.inj (h1.symm.trans lost_metadata)]

end Verif.FloatColumn
