import Verif.Lemmas.FloatNormalize

/-!
# C144: statistics with rounding

The mean of a tensor lies between its smallest and its largest element and has a small error, whatever the roundings; deviations are never roots of negative numbers; the
spread of a column is zero exactly if all values are equal; normalizing to the range of a column gives numbers from 0 to 1, in order, and undoing it gives the value back up
to a small error.

Recorded disagreements:
* a column with one value normalizes to NaN (`C144_constant_violated`);
* a column whose range is no `float` normalizes to zeros, and its largest values to NaN (`C144_range_violated`).
-/
namespace Verif.FloatStatistics
open Verif Double Statistics FloatBits Rounding FloatOrder FloatActivation

/-! ### Mean and deviation of a tensor -/

theorem mean_run (t : Tensor F32) (lo hi : F32) (hne : elements t ≠ []) (hlo : Finite lo) (hhi : Finite hi)
    (hl : ∀ x ∈ elements t, Finite x ∧ number lo ≤ number x ∧ number x ≤ number hi) :
    ∃ a, ((elements t).map number).foldlM average (0, 0) = some (a, (elements t).length) ∧ Rep a ∧ number lo ≤ a ∧ a ≤ number hi ∧ arithmeticMean t = some (toFloat a) := by
  obtain ⟨a, h1, h2, h3⟩ := average_run (number lo) (number hi) 128 (by norm_num) (by norm_num) (number_lt lo hlo) (number_lt hi hhi) ((elements t).map number) 0 0 rep_zero
    (by
      intro v hv
      obtain ⟨x, hx, rfl⟩ := List.mem_map.1 hv
      exact ⟨number_rep x, (hl x hx).2⟩) (fun _ => rfl) (fun h => absurd h (by omega))
  rw [List.length_map, Nat.zero_add] at h1 h3
  obtain ⟨h4, h5⟩ := h3 (List.length_pos_iff.2 hne)
  refine ⟨a, h1, h2, h4, h5, ?_⟩
  unfold arithmeticMean
  rw [mapM_floats _ fun x hx => (hl x hx).1]
  show (((elements t).map number).foldlM average (0, 0)).bind _ = _
  rw [h1]
  rfl

/-- The mean of a tensor of finite elements is finite and lies between any bounds of the elements. -/
theorem C144_mean (t : Tensor F32) (lo hi : F32) (hne : elements t ≠ []) (hlo : Finite lo) (hhi : Finite hi)
    (hl : ∀ x ∈ elements t, Finite x ∧ number lo ≤ number x ∧ number x ≤ number hi) :
    ∃ m, arithmeticMean t = some m ∧ Finite m ∧ number lo ≤ number m ∧ number m ≤ number hi := by
  obtain ⟨a, -, -, h4, h5, h6⟩ := mean_run t lo hi hne hlo hhi hl
  obtain ⟨g1, g2, g3⟩ := toFloat_between a lo hi hlo hhi h4 h5
  exact ⟨_, h6, g1, g2, g3⟩

/-- Bounds of finitely many floats that are among them. -/
theorem exists_bounds (l : List F32) (hne : l ≠ []) : ∃ lo ∈ l, ∃ hi ∈ l, ∀ x ∈ l, number lo ≤ number x ∧ number x ≤ number hi := by
  induction l with
  | nil => exact absurd rfl hne
  | cons y l ih =>
    rcases eq_or_ne l [] with rfl | h
    · exact ⟨y, by simp, y, by simp, fun x hx => by rw [List.mem_singleton.1 hx]; exact ⟨le_refl _, le_refl _⟩⟩
    · obtain ⟨lo, h1, hi, h2, h3⟩ := ih h
      refine ⟨if number y ≤ number lo then y else lo, ?_, if number hi ≤ number y then y else hi, ?_, ?_⟩
      · split
        · simp
        · exact List.mem_cons_of_mem _ h1
      · split
        · simp
        · exact List.mem_cons_of_mem _ h2
      · intro x hx
        have hx' : number x = number y ∨ (number lo ≤ number x ∧ number x ≤ number hi) := by
          rcases List.mem_cons.1 hx with rfl | hx
          · exact Or.inl rfl
          · exact Or.inr (h3 x hx)
        have := h3 lo h1
        split <;> split <;> rcases hx' with h | h <;> constructor <;> linarith

/-- The error of the average before it is converted to `float`, for elements of size at most `M`. -/
theorem average_accurate (l : List F32) (M : ℚ) (hne : l ≠ []) (hM : 2 ^ (-149 : Int) ≤ M) (hM' : M ≤ 2 ^ (128 : Int)) (hl : ∀ x ∈ l, |number x| ≤ M) :
    ∃ a, (l.map number).foldlM average (0, 0) = some (a, l.length) ∧ |a - exactMean l| ≤ (l.length + 1) * 2 ^ (-51 : Int) * M := by
  have hM0 : 0 < M := lt_of_lt_of_le (two_zpow_pos _) hM
  obtain ⟨a, h1, h2⟩ := average_error M ((zpow_le_zpow_right₀ (by norm_num) (by norm_num)).trans hM) (hM'.trans (zpow_le_zpow_right₀ (by norm_num) (by norm_num)))
    (l.map number) 0 0 0 rep_zero (by
      intro v hv
      obtain ⟨x, hx, rfl⟩ := List.mem_map.1 hv
      exact ⟨number_rep x, hl x hx⟩) (fun _ => ⟨rfl, rfl⟩) (by rw [abs_zero]; exact hM0.le) (by simp)
  rw [List.length_map, Nat.zero_add] at h1 h2
  refine ⟨a, h1, ?_⟩
  have hn : (0 : ℚ) < l.length := by exact_mod_cast List.length_pos_iff.2 hne
  rw [zero_add] at h2
  unfold exactMean
  have e : (2 : ℚ) ^ (-51 : Int) = 4 * 2 ^ (-53 : Int) := by
    rw [show (-51 : Int) = 2 + -53 by norm_num, zpow_add₀ (by norm_num)]
    norm_num
  rw [e]
  have hu := two_zpow_pos (-53)
  clear hM hM' e
  generalize (2 : ℚ) ^ (-53 : Int) = U at *
  generalize (l.length : ℚ) = n at *
  generalize (l.map number).sum = S at *
  have e2 : a - S / n = (n * a - S) / n := by field_simp
  rw [e2, abs_div, abs_of_pos hn, div_le_iff₀ hn]
  refine h2.trans ?_
  have : 0 ≤ U * M * (n * (n + 1)) := by positivity
  nlinarith

/-- The mean is the exact mean up to a small error. -/
theorem C144_mean_accurate (t : Tensor F32) (M : ℚ) (hne : elements t ≠ []) (hM : 2 ^ (-149 : Int) ≤ M) (hM' : M ≤ 2 ^ 127)
    (hl : ∀ x ∈ elements t, Finite x ∧ |number x| ≤ M) :
    ∃ m, arithmeticMean t = some m ∧ Finite m ∧
      |number m - exactMean (elements t)| ≤ (((elements t).length + 1) * 2 ^ (-51 : Int) + 1 / 2 ^ 24) * M + 1 / 2 ^ 150 := by
  obtain ⟨lo, hlo, hi, hhi, hb⟩ := exists_bounds _ hne
  obtain ⟨a, h1, -, h4, h5, h6⟩ := mean_run t lo hi hne (hl lo hlo).1 (hl hi hhi).1 fun x hx => ⟨(hl x hx).1, hb x hx⟩
  obtain ⟨a', g1, g2⟩ := average_accurate (elements t) M hne hM (hM'.trans (by rw [← zpow_natCast]; exact zpow_le_zpow_right₀ (by norm_num) (by norm_num)))
    fun x hx => (hl x hx).2
  rw [h1] at g1
  have e : a = a' := by simpa using g1
  subst e
  have ma : |a| ≤ M := by
    have l1 := (abs_le.1 (hl lo hlo).2).1
    have l2 := (abs_le.1 (hl hi hhi).2).2
    exact abs_le.2 ⟨by linarith, by linarith⟩
  obtain ⟨f1, f2⟩ := toFloat_error a (ma.trans hM')
  refine ⟨_, h6, f1, ?_⟩
  have tri := abs_sub_le (number (toFloat a)) a (exactMean (elements t))
  have : (1 : ℚ) / 2 ^ 24 * |a| ≤ 1 / 2 ^ 24 * M := mul_le_mul_of_nonneg_left ma (by positivity)
  rw [add_mul]
  refine tri.trans ((add_le_add f2 g2).trans ?_)
  clear hM hM' f2 g2 tri h1 g1
  generalize ((elements t).length + 1 : ℚ) * 2 ^ (-51 : Int) * M = A at *
  generalize (1 : ℚ) / 2 ^ 24 * M = B at *
  generalize (1 : ℚ) / 2 ^ 24 * |a| = C at *
  linarith

/-- The error of one rounding, relative to a bound that is zero or not tiny. -/
theorem rnd_bound {x B : ℚ} (h : |x| ≤ B) (hB : B = 0 ∨ 2 ^ (-1000 : Int) ≤ B) : |rnd x| ≤ B * (1 + 2 * 2 ^ (-53 : Int)) := by
  rcases hB with rfl | hB
  · rw [abs_nonpos_iff.1 h, rnd_zero, abs_zero, zero_mul]
  · have e := rnd_error x
    have hh : (2 : ℚ) ^ (-1075 : Int) ≤ 2 ^ (-53 : Int) * B := by
      refine le_trans ?_ (mul_le_mul_of_nonneg_left hB (two_zpow_pos _).le)
      rw [← zpow_add₀ (by norm_num)]
      exact zpow_le_zpow_right₀ (by norm_num) (by norm_num)
    have hu := two_zpow_pos (-53)
    clear hB
    generalize (2 : ℚ) ^ (-53 : Int) = U at *
    generalize (2 : ℚ) ^ (-1075 : Int) = H at *
    have t : |rnd x| ≤ |x| + |x - rnd x| := by
      have := abs_sub x (x - rnd x)
      rwa [sub_sub_cancel] at this
    nlinarith

theorem mapM_some {α β : Type} (f : α → Option β) (g : α → β) (l : List α) (h : ∀ x ∈ l, f x = some (g x)) : l.mapM f = some (l.map g) := by
  induction l with
  | nil => rfl
  | cons x l ih =>
    rw [List.mapM_cons, h x (by simp), ih fun y hy => h y (List.mem_cons_of_mem _ hy)]
    rfl

/-- What the deviation is the root of is a number that is not negative and at most the square of the range (up to a relative error of 2^-50). -/
theorem C144_deviation (t : Tensor F32) (lo hi : F32) (hne : elements t ≠ []) (hlo : Finite lo) (hhi : Finite hi)
    (hl : ∀ x ∈ elements t, Finite x ∧ number lo ≤ number x ∧ number x ≤ number hi) :
    ∃ w, deviationSquared t = some w ∧ 0 ≤ w ∧ w ≤ (1 + 2 ^ (-50 : Int)) * (number hi - number lo) ^ 2 := by
  obtain ⟨m, m1, m2, m3, m4⟩ := C144_mean t lo hi hne hlo hhi hl
  have big : ∀ f : Int, f ≤ 1000 → (2 : ℚ) ^ f ≤ 2 ^ (1000 : Int) := fun f hf => zpow_le_zpow_right₀ (by norm_num) hf
  have hR0 : 0 ≤ number hi - number lo := by linarith
  have hR1 : number hi - number lo = 0 ∨ 2 ^ (-149 : Int) ≤ number hi - number lo := by
    rcases eq_or_ne (number hi) (number lo) with h | h
    · exact Or.inl (by rw [h, sub_self])
    · have := (number_apart hi lo h).1
      rw [abs_of_nonneg hR0] at this
      exact Or.inr this
  have hmax : number hi - number lo ≤ 2 ^ (129 : Int) := (le_abs_self _).trans (abs_sub_pow (number_lt lo hlo) (number_lt hi hhi))
  have hu : (2 : ℚ) ^ (-53 : Int) ≤ 1 / 16 := by rw [zpow_neg]; norm_num
  have hu0 := two_zpow_pos (-53)
  have e50 : (2 : ℚ) ^ (-50 : Int) = 8 * 2 ^ (-53 : Int) := by
    rw [show (-50 : Int) = 3 + -53 by norm_num, zpow_add₀ (by norm_num)]
    norm_num
  have hD : ∀ x ∈ elements t, op (number x - number m) = some (rnd (number x - number m)) ∧
      op (rnd (number x - number m) * rnd (number x - number m)) = some (rnd (rnd (number x - number m) * rnd (number x - number m))) ∧
      0 ≤ rnd (rnd (number x - number m) * rnd (number x - number m)) ∧
      rnd (rnd (number x - number m) * rnd (number x - number m)) ≤ (1 + 2 ^ (-50 : Int)) * (number hi - number lo) ^ 2 := by
    intro x hx
    obtain ⟨-, x1, x2⟩ := hl x hx
    have hd : |number x - number m| ≤ number hi - number lo := abs_le.2 ⟨by linarith, by linarith⟩
    have h1 := rnd_bound hd (hR1.imp id fun h => (zpow_le_zpow_right₀ (by norm_num) (by norm_num)).trans h)
    have h129 := abs_rnd_le (e := 129) (by norm_num) (hd.trans hmax)
    have s1 := op_some ((hd.trans hmax).trans (big 129 (by norm_num)))
    generalize rnd (number x - number m) = d at *
    have s2 : op (d * d) = some (rnd (d * d)) := by
      refine op_some (le_trans ?_ (big (129 + 129) (by norm_num)))
      rw [abs_mul, zpow_add₀ (by norm_num)]
      exact mul_le_mul h129 h129 (abs_nonneg _) (two_zpow_pos _).le
    refine ⟨s1, s2, le_rnd rep_zero (mul_self_nonneg d), ?_⟩
    generalize number hi - number lo = R at *
    have hsq : |d * d| ≤ R * R * (1 + 2 * 2 ^ (-53 : Int)) ^ 2 := by
      rw [abs_mul]
      refine (mul_le_mul h1 h1 (abs_nonneg _) (by positivity)).trans (le_of_eq (by ring))
    have h2 := rnd_bound hsq (by
      rcases hR1 with h | h
      · left
        rw [h]
        ring
      · right
        have hRR : (2 : ℚ) ^ (-298 : Int) ≤ R * R := by
          rw [show (-298 : Int) = -149 + -149 by norm_num, zpow_add₀ (by norm_num)]
          exact mul_le_mul h h (two_zpow_pos _).le hR0
        have h3 : (2 : ℚ) ^ (-1000 : Int) ≤ 2 ^ (-298 : Int) := zpow_le_zpow_right₀ (by norm_num) (by norm_num)
        refine h3.trans (hRR.trans (le_mul_of_one_le_right (mul_self_nonneg R) (one_le_pow₀ (by linarith)))))
    refine ((le_abs_self _).trans h2).trans ?_
    rw [e50]
    clear hsq h2 h1 h129 s1 s2 hR1 hmax big e50
    generalize (2 : ℚ) ^ (-53 : Int) = U at *
    have hc : (1 + 2 * U) ^ 2 * (1 + 2 * U) ≤ 1 + 8 * U := by
      have q1 : U * U ≤ U / 16 := by nlinarith
      have q2 : U * U * U ≤ U / 16 := by nlinarith
      nlinarith
    calc R * R * (1 + 2 * U) ^ 2 * (1 + 2 * U) = ((1 + 2 * U) ^ 2 * (1 + 2 * U)) * R ^ 2 := by ring
      _ ≤ (1 + 8 * U) * R ^ 2 := mul_le_mul_of_nonneg_right hc (sq_nonneg R)
  have hB : (1 + 2 ^ (-50 : Int)) * (number hi - number lo) ^ 2 ≤ 2 ^ (260 : Int) := by
    have h1 : (number hi - number lo) ^ 2 ≤ 2 ^ (258 : Int) := by
      rw [sq, show (258 : Int) = 129 + 129 by norm_num, zpow_add₀ (by norm_num)]
      exact mul_le_mul hmax hmax hR0 (two_zpow_pos _).le
    have h2 : (2 : ℚ) ^ (260 : Int) = 4 * 2 ^ (258 : Int) := by
      rw [show (260 : Int) = 2 + 258 by norm_num, zpow_add₀ (by norm_num)]
      norm_num
    rw [h2, e50]
    have h3 : 1 + 8 * (2 : ℚ) ^ (-53 : Int) ≤ 4 := by
      clear h2 h1 big hmax hR1 e50 hD
      generalize (2 : ℚ) ^ (-53 : Int) = U at *
      linarith
    exact mul_le_mul h3 h1 (sq_nonneg _) (by norm_num)
  have hB0 : 0 ≤ (1 + (2 : ℚ) ^ (-50 : Int)) * (number hi - number lo) ^ 2 := by
    have := two_zpow_pos (-50)
    positivity
  obtain ⟨w, w1, -, w2⟩ := average_run 0 ((1 + 2 ^ (-50 : Int)) * (number hi - number lo) ^ 2) 260 (by norm_num) (by norm_num) (by rw [abs_zero]; exact (two_zpow_pos _).le)
    (by rw [abs_of_nonneg hB0]; exact hB) ((elements t).map fun x => rnd (rnd (number x - number m) * rnd (number x - number m))) 0 0 rep_zero (by
      intro v hv
      obtain ⟨x, hx, rfl⟩ := List.mem_map.1 hv
      exact ⟨rep_rnd _, (hD x hx).2.2⟩) (fun _ => rfl) (fun h => absurd h (by omega))
  rw [List.length_map, Nat.zero_add] at w1 w2
  refine ⟨w, ?_, w2 (List.length_pos_iff.2 hne)⟩
  unfold deviationSquared
  rw [m1]
  show (ofFloat m).bind _ = _
  rw [ofFloat_some m m2]
  show ((elements t).mapM ofFloat).bind _ = _
  rw [mapM_floats _ fun x hx => (hl x hx).1]
  show Option.bind (List.mapM (m := Option) _ ((elements t).map number)) _ = _
  rw [mapM_some _ (fun v => rnd (rnd (v - number m) * rnd (v - number m))) _ (by
    intro v hv
    obtain ⟨x, hx, rfl⟩ := List.mem_map.1 hv
    obtain ⟨s1, s2, -⟩ := hD x hx
    rw [s1]
    exact s2)]
  rw [List.map_map]
  show (((elements t).map fun x => rnd (rnd (number x - number m) * rnd (number x - number m))).foldlM average (0, 0)).bind _ = _
  rw [w1]
  rfl

/-- A tensor whose elements all have one value has this mean and no deviation. -/
theorem C144_constant (t : Tensor F32) (c : F32) (hne : elements t ≠ []) (hc : Finite c) (hl : ∀ x ∈ elements t, Finite x ∧ number x = number c) :
    (∃ m, arithmeticMean t = some m ∧ Finite m ∧ number m = number c) ∧ deviationSquared t = some 0 := by
  have hl' : ∀ x ∈ elements t, Finite x ∧ number c ≤ number x ∧ number x ≤ number c := fun x hx => ⟨(hl x hx).1, (hl x hx).2.ge, (hl x hx).2.le⟩
  obtain ⟨m, m1, m2, m3, m4⟩ := C144_mean t c c hne hc hc hl'
  obtain ⟨w, w1, w2, w3⟩ := C144_deviation t c c hne hc hc hl'
  rw [sub_self, zero_pow (by norm_num), mul_zero] at w3
  exact ⟨⟨m, m1, m2, le_antisymm m4 m3⟩, by rw [w1, le_antisymm w3 w2]⟩

/-! ### Columns -/

theorem largest_big (x : F32) (h : Finite x) : |number x| < largest := by
  refine (number_lt x h).trans_lt ?_
  unfold largest
  rw [zpow_ofNat]
  have h1 : (2 : ℚ) ^ 128 < 2 ^ 971 := pow_lt_pow_right₀ (by norm_num) (by norm_num)
  refine h1.trans_le ?_
  refine le_mul_of_one_le_left (by positivity) (by norm_num)

/-- The running values of a column: all elements are counted, smallest and largest value are exact, the mean lies between them and is the exact one up to a small error. -/
theorem C144_running (ts : List (Tensor F32)) (hne : ts.flatMap elements ≠ []) (hlen : (ts.flatMap elements).length ≤ 2 ^ 53) (hl : ∀ x ∈ ts.flatMap elements, Finite x) :
    ∃ s, running ts = some s ∧ s.total = (ts.flatMap elements).length ∧
      (∃ x ∈ ts.flatMap elements, s.min = number x) ∧ (∃ x ∈ ts.flatMap elements, s.max = number x) ∧ (∀ x ∈ ts.flatMap elements, s.min ≤ number x ∧ number x ≤ s.max) ∧
      s.min ≤ s.mean ∧ s.mean ≤ s.max ∧
      (∀ M : ℚ, 2 ^ (-149 : Int) ≤ M → M ≤ 2 ^ 128 → (∀ x ∈ ts.flatMap elements, |number x| ≤ M) →
        |s.mean - exactMean (ts.flatMap elements)| ≤ ((ts.flatMap elements).length + 1) * 2 ^ (-51 : Int) * M) ∧
      ∃ w, s.variance = some w ∧ 0 ≤ w ∧ (w = 0 ↔ ∀ x ∈ ts.flatMap elements, ∀ y ∈ ts.flatMap elements, number x = number y) := by
  have hrun : running ts = ((ts.flatMap elements).map number).foldlM Running.step .init := by
    unfold running
    rw [mapM_floats _ hl]
    rfl
  rw [hrun]
  generalize ts.flatMap elements = l at *
  clear hrun
  have hv : ∀ v ∈ l.map number, Rep v ∧ |v| ≤ 2 ^ (128 : Int) := by
    intro v hv
    obtain ⟨x, hx, rfl⟩ := List.mem_map.1 hv
    exact ⟨number_rep x, number_lt x (hl x hx)⟩
  obtain ⟨s, s1, s2, s3, s4, s5, s6, s7, s8, -, s10⟩ := running_run (l.map number) .init rep_zero (by
      show |(0 : ℚ)| ≤ _
      rw [abs_zero]
      exact (two_zpow_pos _).le) (fun _ => rfl) (le_refl _) (by
      show (0 : ℚ) ≤ ((0 : Nat) : ℚ) * _
      rw [Nat.cast_zero, zero_mul]) rep_zero hv (by
      show 0 + (l.map number).length ≤ _
      rw [List.length_map, Nat.zero_add]
      exact hlen)
  have e3 : s.total = l.length := by
    rw [s3, List.length_map]
    exact Nat.zero_add _
  have hmem : ∀ x ∈ l, number x ∈ l.map number := fun x hx => List.mem_map.2 ⟨x, hx, rfl⟩
  obtain ⟨x0, hx0⟩ := List.exists_mem_of_ne_nil l hne
  obtain ⟨-, l2, l3⟩ := lower_fold (l.map number) largest
  obtain ⟨-, u2, u3⟩ := upper_fold (l.map number) (-largest)
  have e6 : s.min = (l.map number).foldl lower largest := s6
  have e7 : s.max = (l.map number).foldl upper (-largest) := s7
  have hmin : ∃ x ∈ l, s.min = number x := by
    rw [e6]
    rcases l3 with h | h
    · have h1 := l2 _ (hmem x0 hx0)
      have h2 := (abs_lt.1 (largest_big x0 (hl x0 hx0))).2
      rw [h] at h1
      linarith
    · obtain ⟨x, hx, he⟩ := List.mem_map.1 h
      exact ⟨x, hx, he.symm⟩
  have hmax : ∃ x ∈ l, s.max = number x := by
    rw [e7]
    rcases u3 with h | h
    · have h1 := u2 _ (hmem x0 hx0)
      have h2 := (abs_lt.1 (largest_big x0 (hl x0 hx0))).1
      rw [h] at h1
      linarith
    · obtain ⟨x, hx, he⟩ := List.mem_map.1 h
      exact ⟨x, hx, he.symm⟩
  have hbnd : ∀ x ∈ l, s.min ≤ number x ∧ number x ≤ s.max := fun x hx => ⟨e6 ▸ l2 _ (hmem x hx), e7 ▸ u2 _ (hmem x hx)⟩
  obtain ⟨xl, hxl, exl⟩ := hmin
  obtain ⟨xu, hxu, exu⟩ := hmax
  have s2' : (l.map number).foldlM average (0, 0) = some (s.mean, s.total) := s2
  obtain ⟨a, a1, -, a2⟩ := average_run s.min s.max 128 (by norm_num) (by norm_num) (exl ▸ number_lt xl (hl xl hxl)) (exu ▸ number_lt xu (hl xu hxu)) (l.map number) 0 0 rep_zero
    (by
      intro v hv
      obtain ⟨x, hx, rfl⟩ := List.mem_map.1 hv
      exact ⟨number_rep x, hbnd x hx⟩) (fun _ => rfl) (fun h => absurd h (by omega))
  rw [s2'] at a1
  have ea : s.mean = a := (Prod.mk.inj (Option.some.inj a1)).1
  have ha := a2 (by rw [List.length_map, Nat.zero_add]; exact List.length_pos_iff.2 hne)
  rw [← ea] at ha
  have htot : 0 < s.total := by rw [e3]; exact List.length_pos_iff.2 hne
  have htot' : (1 : ℚ) ≤ s.total := by exact_mod_cast htot
  have htot2 : (s.total : ℚ) ≤ 2 ^ (53 : Int) := by
    rw [show (2 : ℚ) ^ (53 : Int) = ((2 ^ 53 : Nat) : ℚ) by norm_cast]
    exact_mod_cast (by omega : s.total ≤ 2 ^ 53)
  refine ⟨s, s1, e3, ⟨xl, hxl, exl⟩, ⟨xu, hxu, exu⟩, hbnd, ha.1, ha.2, ?_, rnd (s.m2 / s.total), ?_, ?_, ?_, ?_⟩
  · intro M hM hM' hall
    obtain ⟨b, b1, b2⟩ := average_accurate l M hne hM (by rw [← zpow_natCast] at hM'; exact hM') hall
    rw [s2'] at b1
    rw [(Prod.mk.inj (Option.some.inj b1)).1]
    exact b2
  · unfold Running.variance
    rw [if_neg (by omega)]
    refine op_some (le_trans ?_ (zpow_le_zpow_right₀ (by norm_num) (by norm_num : (258 : Int) ≤ 1000)))
    rw [abs_of_nonneg (div_nonneg s4 (by linarith)), div_le_iff₀ (by linarith), mul_comm]
    exact s5
  · exact le_rnd rep_zero (div_nonneg s4 (by linarith))
  · intro hw
    by_contra hc
    obtain ⟨y, l', rfl⟩ : ∃ y l', l = y :: l' := by
      cases l with
      | nil => exact absurd rfl hne
      | cons y l' => exact ⟨y, l', rfl⟩
    have h300 := s10 (number y) (Or.inl ⟨rfl, rfl⟩) (by
      intro v hv hne
      obtain ⟨x, hx, rfl⟩ := List.mem_map.1 hv
      exact number_apart x y hne) (by
      by_contra hn
      refine hc fun x hx z hz => ?_
      have key : ∀ x ∈ y :: l', number x = number y := by
        intro x hx
        by_contra hxy
        exact hn ⟨_, hmem x hx, hxy⟩
      rw [key x hx, key z hz])
    have : (2 : ℚ) ^ (-353 : Int) ≤ rnd (s.m2 / s.total) := by
      refine le_rnd (rep_pow (by norm_num)) ?_
      rw [le_div_iff₀ (by linarith)]
      refine le_trans (mul_le_mul_of_nonneg_left htot2 (two_zpow_pos _).le) ?_
      rw [← zpow_add₀ (by norm_num)]
      exact h300
    rw [hw] at this
    exact absurd this (not_le.2 (two_zpow_pos _))
  · intro hall
    have : s.m2 = 0 := s8 (number x0) (Or.inl rfl) (by
      intro v hv
      obtain ⟨x, hx, rfl⟩ := List.mem_map.1 hv
      exact hall x hx x0 hx0)
    rw [this, zero_div, rnd_zero]

/-! ### Normalizing -/

theorem number_val (a b : F32) : number a ≤ number b ↔ val a ≤ val b := number_le_iff a b

theorem number_zero {a : F32} (h : val a = 0) : number a = 0 := by
  unfold number
  rw [show value a.bits = 0 from h]
  simp

theorem number_one {a : F32} (h : val a = val one) : number a = 1 := by
  unfold number
  rw [show value a.bits = 2 ^ 149 from h.trans (by decide +kernel)]
  rw [Int.cast_pow, Int.cast_ofNat]
  exact div_self (by positivity)

/-- The differences that normalizing takes the quotient of. -/
theorem difference (lo hi v : F32) (hlo : Finite lo) (hhi : Finite hi) (hv : Finite v) (hr : Finite (hi - lo)) (h1 : number lo ≤ number v) (h2 : number v ≤ number hi) :
    Finite (v - lo) ∧ 0 ≤ val (v - lo) ∧ val (v - lo) ≤ val (hi - lo) := by
  rw [number_val] at h1 h2
  have a := FloatSoftmax.sub_mono lo v lo (finite_num _ hlo) (finite_num _ hv) hlo h1
  have b := FloatSoftmax.sub_mono v hi lo (finite_num _ hv) (finite_num _ hhi) hlo h2
  rw [(FloatSoftmax.sub_self_val lo hlo).2] at a
  refine ⟨?_, a.2, b.2⟩
  rcases num_cases (v - lo) b.1 with h | h
  · exact h.1
  · have f := FloatOrder.finite_lt (hi - lo) hr
    have e1 := units_nonneg (v - lo) a.2
    have e2 := units_nonneg (hi - lo) (a.2.trans b.2)
    omega

/-- Normalizing to a range that is a `float` gives numbers from 0 to 1, 0 and 1 at the ends, in the order of the values. -/
theorem C144_normalized_partial (lo hi : F32) (hlo : Finite lo) (hhi : Finite hi) (hlt : number lo < number hi) (hr : Finite (hi - lo)) :
    (∀ v : F32, Rounding.Finite v → number lo ≤ number v → number v ≤ number hi →
      Finite (normalize lo hi v) ∧ 0 ≤ number (normalize lo hi v) ∧ number (normalize lo hi v) ≤ 1 ∧
      (number v = number lo → number (normalize lo hi v) = 0) ∧ (number v = number hi → number (normalize lo hi v) = 1)) ∧
    ∀ v w : F32, Rounding.Finite v → Rounding.Finite w → number lo ≤ number v → number v ≤ number w → number w ≤ number hi → number (normalize lo hi v) ≤ number (normalize lo hi w) := by
  have hpos : 0 < val (hi - lo) := (FloatDistance.sub_sign hi lo hhi hlo).1 (not_le.1 fun h => absurd ((number_val hi lo).2 h) (not_le.2 hlt))
  constructor
  · intro v hv h1 h2
    obtain ⟨d1, d2, d3⟩ := difference lo hi v hlo hhi hv hr h1 h2
    obtain ⟨q1, q2, q3, q4, q5, -⟩ := quotient_facts (v - lo) (hi - lo) d1 hr d2 d3 hpos
    have z : number (0 : F32) = 0 := number_zero (by decide)
    refine ⟨q1, ?_, ?_, ?_, ?_⟩
    · rw [← z]
      exact (number_val _ _).2 q2
    · rw [← number_one (a := one) rfl]
      exact (number_val _ _).2 q3
    · intro h
      have e : val v = val lo := le_antisymm ((number_val _ _).1 h.le) ((number_val _ _).1 h.ge)
      exact number_zero (q4 ((FloatDistance.sub_sign v lo hv hlo).2.2 e))
    · intro h
      have e1 := (FloatSoftmax.sub_mono hi v lo (finite_num _ hhi) (finite_num _ hv) hlo ((number_val _ _).1 h.ge)).2
      exact number_one (q5 (le_antisymm d3 e1))
  · intro v w hv hw h1 h2 h3
    obtain ⟨d1, d2, -⟩ := difference lo hi v hlo hhi hv hr h1 (h2.trans h3)
    obtain ⟨e1, -, e3⟩ := difference lo hi w hlo hhi hw hr (h1.trans h2) h3
    exact (number_val _ _).2 (quotient_mono _ _ _ d1 e1 hr d2 (FloatSoftmax.sub_mono v w lo (finite_num _ hv) (finite_num _ hw) hlo ((number_val _ _).1 h2)).2 e3 hpos)

/-- What is missing: a column with one value normalizes to NaN... -/
theorem C144_constant_violated (c : F32) (hc : Finite c) : isNaN (normalize c c c).bits = true := by
  obtain ⟨h1, h2⟩ := FloatSoftmax.sub_self_val c hc
  have hf : Finite (c - c) := by
    rcases num_cases (c - c) h1 with h | h
    · exact h.1
    · have e := units_nonneg (c - c) h2.ge
      have : 0 < pattern 0x7F800000 := by decide +kernel
      omega
  obtain ⟨n1, n2⟩ := finite_not _ hf
  have hu : (c - c).units = 0 := by
    have := val_abs (c - c)
    rw [h2] at this
    exact this.symm
  show isNaN (F32.div (c - c) (c - c)).bits = true
  unfold F32.div
  rw [n1, n2, hu]
  simp only [Bool.or_self, Bool.false_eq_true, if_false, if_true]
  decide

/-- ... and if the range is no `float`, values become 0, except the largest, which becomes NaN: here for -3·10^38, 0 and 3·10^38. -/
theorem C144_range_violated : ∃ lo mid hi : F32, Finite lo ∧ Finite mid ∧ Finite hi ∧ number lo < number mid ∧ number mid < number hi ∧
    number (normalize lo hi mid) = number (normalize lo hi lo) ∧ isNaN (normalize lo hi hi).bits = true := by
  refine ⟨⟨0xFF61B1E6#32⟩, ⟨0#32⟩, ⟨0x7F61B1E6#32⟩, by decide, by decide, by decide, ?_, ?_, ?_, by decide +kernel⟩
  · exact not_le.1 fun h => absurd ((number_val _ _).1 h) (by decide +kernel)
  · exact not_le.1 fun h => absurd ((number_val _ _).1 h) (by decide +kernel)
  · unfold number
    rw [show value (normalize ⟨0xFF61B1E6#32⟩ ⟨0x7F61B1E6#32⟩ ⟨0#32⟩).bits = value (normalize ⟨0xFF61B1E6#32⟩ ⟨0x7F61B1E6#32⟩ ⟨0xFF61B1E6#32⟩).bits by decide +kernel]

/-- The errors of subtracting, dividing, multiplying and adding together: `l` and `v` are numbers, `r`, `x`, `p` the rounded range, difference and product. -/
theorem undone_error (l v r x p P M : ℝ) (hM0 : 0 ≤ M) (vM : |v| ≤ M) (hx2 : v - l ≤ 2 * M) (hx : |x - (v - l)| ≤ u * (v - l))
    (hr : r ≤ 2 * M * (1 + u)) (hxr : x ≤ r) (hP : |P - x| ≤ u * x + η * r) (hPr : P ≤ r) (hp : |p - P| ≤ u * P + η) :
    |p + l - v| ≤ 27 / 4 * (M / 2 ^ 24) + η ∧ |p + l| ≤ 2 * M + η ∧ ∀ z, |z - (p + l)| ≤ u * |p + l| → |z - v| ≤ M / 2 ^ 21 + 1 / 2 ^ 149 := by
  have hu := u_pos
  have hη := η_pos
  have hu' : u = 1 / 2 ^ 24 := rfl
  have hη1 : η = 1 / 2 ^ 150 := rfl
  have hη' : η ≤ 1 / 2 ^ 44 := by unfold η; norm_num
  have r3 : r ≤ 2 * M + M / 2 ^ 23 := by rw [hu'] at hr; linarith
  have E1 : |x - (v - l)| ≤ 2 * (M / 2 ^ 24) := by
    refine hx.trans ?_
    rw [hu']
    linarith
  have E2 : |P - x| ≤ 2 * (M / 2 ^ 24) + M / 2 ^ 40 := by
    refine hP.trans ?_
    have h1 : u * x ≤ 2 * (M / 2 ^ 24) + M / 2 ^ 47 := by rw [hu']; linarith
    have h2 : η * r ≤ η * (4 * M) := mul_le_mul_of_nonneg_left (by linarith) hη.le
    have h3 : η * (4 * M) ≤ 1 / 2 ^ 44 * (4 * M) := mul_le_mul_of_nonneg_right hη' (by linarith)
    linarith
  have E3 : |p - P| ≤ 2 * (M / 2 ^ 24) + M / 2 ^ 47 + η := by
    refine hp.trans ?_
    rw [hu']
    linarith
  have E4 : |p + l - v| ≤ 27 / 4 * (M / 2 ^ 24) + η := by
    have e : p + l - v = (p - P) + (P - x) + (x - (v - l)) := by ring
    rw [e]
    have t1 := abs_add_le ((p - P) + (P - x)) (x - (v - l))
    have t2 := abs_add_le (p - P) (P - x)
    linarith
  have E5 : |p + l| ≤ M + (27 / 4 * (M / 2 ^ 24) + η) := by
    have := abs_add_le v (p + l - v)
    rw [add_sub_cancel] at this
    linarith
  refine ⟨E4, by linarith, ?_⟩
  intro z hz
  have t := abs_sub_le z (p + l) v
  have s4 := hz.trans (mul_le_mul_of_nonneg_left E5 hu.le)
  have s5 : u * (M + (27 / 4 * (M / 2 ^ 24) + η)) ≤ M / 2 ^ 24 + 27 / 4 * (M / 2 ^ 48) + η / 2 ^ 24 := by
    rw [hu']
    linarith
  have e149 : (1 : ℝ) / 2 ^ 149 = 2 * η := by rw [hη1]; norm_num
  rw [e149]
  linarith

/-- Undoing gives the value back up to a small error, for values of size at most `M`. -/
theorem C144_undone (lo hi v : F32) (M : ℚ) (hlo : Finite lo) (hhi : Finite hi) (hv : Finite v) (hlt : number lo < number hi) (h1 : number lo ≤ number v)
    (h2 : number v ≤ number hi) (hM : M ≤ 2 ^ 125) (ml : |number lo| ≤ M) (mh : |number hi| ≤ M) :
    Finite (denormalize lo hi (normalize lo hi v)) ∧ |number (denormalize lo hi (normalize lo hi v)) - number v| ≤ M / 2 ^ 21 + 1 / 2 ^ 149 := by
  have ml' : |real lo| ≤ (M : ℝ) := by rw [real_number]; exact_mod_cast ml
  have mh' : |real hi| ≤ (M : ℝ) := by rw [real_number]; exact_mod_cast mh
  have hM' : (M : ℝ) ≤ 2 ^ 125 := by exact_mod_cast hM
  have r1 : real lo ≤ real v := by rw [real_number, real_number]; exact_mod_cast h1
  have r2 : real v ≤ real hi := by rw [real_number, real_number]; exact_mod_cast h2
  have b2 : (2 : ℝ) ^ 127 = 4 * 2 ^ 125 := by norm_num
  have hM0 : (0 : ℝ) ≤ M := (abs_nonneg _).trans ml'
  rw [abs_le] at ml' mh'
  have hRr : 0 ≤ real hi - real lo := by linarith
  have hXr : 0 ≤ real v - real lo := by linarith
  obtain ⟨f1, f2⟩ := sub_spec hi lo hhi hlo (by rw [abs_of_nonneg hRr, b2]; linarith)
  obtain ⟨g1, g2⟩ := sub_spec v lo hv hlo (by rw [abs_of_nonneg hXr, b2]; linarith)
  obtain ⟨d1, d2, d3⟩ := difference lo hi v hlo hhi hv f1 h1 h2
  have hpos : 0 < val (hi - lo) := (FloatDistance.sub_sign hi lo hhi hlo).1 (not_le.1 fun h => absurd ((number_val hi lo).2 h) (not_le.2 hlt))
  obtain ⟨q1, q2, q3, -, -, q6⟩ := quotient_facts (v - lo) (hi - lo) d1 f1 d2 d3 hpos
  have x0 : 0 ≤ real (v - lo) := by rw [real_val]; exact div_nonneg (by exact_mod_cast d2) (by positivity)
  have rp : 0 < real (hi - lo) := by rw [real_val]; exact div_pos (by exact_mod_cast hpos) (by positivity)
  have x1 : real (v - lo) ≤ real (hi - lo) := (real_le_iff _ _).2 d3
  have y0 : 0 ≤ real ((v - lo) / (hi - lo)) := by rw [real_val]; exact div_nonneg (by exact_mod_cast q2) (by positivity)
  have y1 : real ((v - lo) / (hi - lo)) ≤ 1 := by
    have := (real_le_iff _ one).2 q3
    rwa [show real one = 1 by rw [real_number, number_one (a := one) rfl]; simp] at this
  rw [abs_of_nonneg hRr] at f2
  rw [abs_of_nonneg hXr] at g2
  have hq : |real ((v - lo) / (hi - lo)) * real (hi - lo) - real (v - lo)| ≤ u * real (v - lo) + η * real (hi - lo) := by
    have e : real ((v - lo) / (hi - lo)) * real (hi - lo) - real (v - lo) = (real ((v - lo) / (hi - lo)) - real (v - lo) / real (hi - lo)) * real (hi - lo) := by
      field_simp
    rw [e, abs_mul, abs_of_pos rp]
    refine (mul_le_mul_of_nonneg_right q6 rp.le).trans (le_of_eq ?_)
    field_simp
  have R1 : real (hi - lo) ≤ 2 * M * (1 + u) := by
    have h3 := (abs_le.1 f2).2
    have h4 : u * (real hi - real lo) ≤ u * (2 * M) := mul_le_mul_of_nonneg_left (by linarith) u_pos.le
    linarith
  have P0 : 0 ≤ real ((v - lo) / (hi - lo)) * real (hi - lo) := mul_nonneg y0 rp.le
  have P1 : real ((v - lo) / (hi - lo)) * real (hi - lo) ≤ real (hi - lo) := mul_le_of_le_one_left rp.le y1
  have u1 : u ≤ 1 / 2 := by unfold u; norm_num
  have R2 : 2 * M * (1 + u) ≤ 3 * M := by
    have := mul_le_mul_of_nonneg_left u1 hM0
    linarith
  obtain ⟨p1, p2⟩ := mul_spec ((v - lo) / (hi - lo)) (hi - lo) q1 f1 (by
    rw [abs_of_nonneg P0, b2]
    linarith)
  rw [abs_of_nonneg P0] at p2
  obtain ⟨-, E5, E6⟩ := undone_error (real lo) (real v) (real (hi - lo)) (real (v - lo)) (real ((v - lo) / (hi - lo) * (hi - lo))) _ M hM0
    (abs_le.2 ⟨by linarith, by linarith⟩) (by linarith) g2 R1 x1 hq P1 p2
  obtain ⟨s1, s2⟩ := add_spec ((v - lo) / (hi - lo) * (hi - lo)) lo p1 hlo (by
    refine E5.trans ?_
    have : η ≤ 2 ^ 125 := by unfold η; norm_num
    rw [b2]
    linarith)
  refine ⟨s1, ?_⟩
  have s3 := E6 _ s2
  have : ((|number (denormalize lo hi (normalize lo hi v)) - number v| : ℚ) : ℝ) ≤ ((M / 2 ^ 21 + 1 / 2 ^ 149 : ℚ) : ℝ) := by
    rw [real_number, real_number] at s3
    push_cast
    exact s3
  exact_mod_cast this

/-! ### Witnesses -/

/-- 1, 3.5 and -0.1. -/
def sample : Tensor F32 := ⟨1, 3, 1, fun _ c _ => if c = 0 then ⟨0x3F800000#32⟩ else if c = 1 then ⟨0x40600000#32⟩ else ⟨0xBDCCCCCD#32⟩⟩

theorem sample_elements : elements sample = [⟨0x3F800000#32⟩, ⟨0x40600000#32⟩, ⟨0xBDCCCCCD#32⟩] := by decide

theorem sample_bounds : ∀ x ∈ elements sample, Finite x ∧ number ⟨0xBDCCCCCD#32⟩ ≤ number x ∧ number x ≤ number ⟨0x40600000#32⟩ := by
  intro x hx
  rw [number_val, number_val]
  revert x
  rw [sample_elements]
  decide +kernel

/-- The hypotheses of `C144_mean` and `C144_deviation` can be met. -/
example : ∃ m, arithmeticMean sample = some m ∧ Finite m ∧ number ⟨0xBDCCCCCD#32⟩ ≤ number m ∧ number m ≤ number ⟨0x40600000#32⟩ :=
  C144_mean sample _ _ (by rw [sample_elements]; simp) (by decide) (by decide) sample_bounds

example : ∃ w, deviationSquared sample = some w ∧ 0 ≤ w ∧ w ≤ (1 + 2 ^ (-50 : Int)) * (number ⟨0x40600000#32⟩ - number ⟨0xBDCCCCCD#32⟩) ^ 2 :=
  C144_deviation sample _ _ (by rw [sample_elements]; simp) (by decide) (by decide) sample_bounds

theorem sample_size : ∀ x ∈ elements sample, Finite x ∧ |number x| ≤ 4 := by
  intro x hx
  have h : x.units ≤ 4 * 2 ^ 149 ∧ isFinite x.bits = true := by
    revert x
    rw [sample_elements]
    decide +kernel
  refine ⟨h.2, ?_⟩
  rw [units_number, div_le_iff₀ (by positivity)]
  exact_mod_cast h.1

/-- `C144_mean_accurate` for three elements: an error of less than 10^-6. -/
example : ∃ m, arithmeticMean sample = some m ∧ |number m - exactMean (elements sample)| ≤ 1 / 10 ^ 6 := by
  obtain ⟨m, h1, -, h3⟩ := C144_mean_accurate sample 4 (by rw [sample_elements]; simp) (by rw [zpow_neg]; norm_num) (by norm_num) sample_size
  refine ⟨m, h1, h3.trans ?_⟩
  rw [sample_elements, zpow_neg]
  norm_num

/-- A column with different values: its spread is positive. -/
example : ∃ s w, running [sample, sample] = some s ∧ s.total = 6 ∧ s.variance = some w ∧ 0 < w := by
  have e : [sample, sample].flatMap elements = elements sample ++ elements sample := by simp
  obtain ⟨s, h1, h2, -, -, -, -, -, -, w, h3, h4, h5⟩ := C144_running [sample, sample] (by rw [e, sample_elements]; simp) (by rw [e, sample_elements]; decide) (by
    rw [e, sample_elements]
    decide)
  refine ⟨s, w, h1, by rw [h2, e, sample_elements]; rfl, h3, lt_of_le_of_ne h4 fun h0 => ?_⟩
  have := h5.1 h0.symm ⟨0x3F800000#32⟩ (by rw [e, sample_elements]; decide) ⟨0x40600000#32⟩ (by rw [e, sample_elements]; decide)
  exact absurd ((number_val _ _).1 this.ge) (by decide +kernel)

/-- `C144_constant`: a tensor with -0.1 everywhere. -/
example : deviationSquared ⟨2, 2, 1, fun _ _ _ => ⟨0xBDCCCCCD#32⟩⟩ = some 0 :=
  (C144_constant _ ⟨0xBDCCCCCD#32⟩ (by decide) (by decide) (by
    intro x hx
    have : x = ⟨0xBDCCCCCD#32⟩ := by
      revert x
      decide
    rw [this]
    exact ⟨by decide, rfl⟩)).2

/-- `C144_normalized_partial` and `C144_undone` for the range from -0.1 to 3.5. -/
example : Finite (normalize ⟨0xBDCCCCCD#32⟩ ⟨0x40600000#32⟩ ⟨0x3F800000#32⟩) ∧ number (normalize ⟨0xBDCCCCCD#32⟩ ⟨0x40600000#32⟩ ⟨0x3F800000#32⟩) ≤ 1 := by
  have h := (C144_normalized_partial ⟨0xBDCCCCCD#32⟩ ⟨0x40600000#32⟩ (by decide) (by decide) (not_le.1 fun h => absurd ((number_val _ _).1 h) (by decide +kernel))
    (by decide +kernel)).1 ⟨0x3F800000#32⟩ (by decide) ((number_val _ _).2 (by decide +kernel)) ((number_val _ _).2 (by decide +kernel))
  exact ⟨h.1, h.2.2.1⟩

example : |number (denormalize ⟨0xBDCCCCCD#32⟩ ⟨0x40600000#32⟩ (normalize ⟨0xBDCCCCCD#32⟩ ⟨0x40600000#32⟩ ⟨0x3F800000#32⟩)) - number ⟨0x3F800000#32⟩| ≤ 4 / 2 ^ 21 + 1 / 2 ^ 149 :=
  (C144_undone _ _ _ 4 (by decide) (by decide) (by decide) (not_le.1 fun h => absurd ((number_val _ _).1 h) (by decide +kernel)) ((number_val _ _).2 (by decide +kernel))
    ((number_val _ _).2 (by decide +kernel)) (by norm_num) (sample_size _ (by rw [sample_elements]; simp)).2 (sample_size _ (by rw [sample_elements]; simp)).2).2

end Verif.FloatStatistics
