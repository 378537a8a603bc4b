import Verif.Model.FloatNormalization
import Verif.Lemmas.FloatColumn
import Verif.Props.C29_C32_Views

/-!
Lemmas for C146: the normalization layer with rounding.
-/
namespace Verif.FloatNormalization
open Verif Double FloatStatistics FloatColumn Rounding

theorem le_abs_rnd {x : ℚ} {e : Int} (he : -1074 ≤ e) (h : 2 ^ e ≤ |x|) : 2 ^ e ≤ |rnd x| := by
  rcases le_total 0 x with hx0 | hx0
  · rw [abs_of_nonneg hx0] at h
    exact (le_rnd (rep_pow he) h).trans (le_abs_self _)
  · rw [abs_of_nonpos hx0] at h
    have := rnd_le (rep_pow he).neg (by linarith : x ≤ -2 ^ e)
    exact (by linarith : (2 : ℚ) ^ e ≤ -rnd x).trans (neg_le_abs _)

/-- A value far from the mean adds to the sum of squares. -/
theorem product_far {m v : ℚ} {a E : Int} (hm : Rep m) (hv : Rep v) (k : Nat) (hk : 0 < k) (mm : |m| ≤ 2 ^ E) (mv : |v| ≤ 2 ^ E) (hE : -1000 ≤ E) (ha : -500 ≤ a)
    (hEa : E ≤ a + 20) (h : 2 ^ a ≤ |v - m|) : 2 ^ (2 * a - 2) ≤ |rnd (v - m) * rnd (v - next m k v)| := by
  have he := next_error (M := 2 ^ E) k hk hm hv mm mv (zpow_le_zpow_right₀ (by norm_num) hE)
  have hu : 7 * 2 ^ (-53 : Int) * (2 : ℚ) ^ E ≤ 2 ^ a / 8 := by
    have h1 : (2 : ℚ) ^ E ≤ 2 ^ a * 2 ^ (20 : Int) := by
      rw [← zpow_add₀ (by norm_num)]
      exact zpow_le_zpow_right₀ (by norm_num) hEa
    have h2 : (2 : ℚ) ^ (-53 : Int) * 2 ^ (20 : Int) ≤ 1 / 64 := by
      rw [← zpow_add₀ (by norm_num)]
      norm_num
    have h3 := two_zpow_pos (-53)
    have h4 := two_zpow_pos a
    generalize (2 : ℚ) ^ (-53 : Int) = x at *
    generalize (2 : ℚ) ^ (20 : Int) = y at *
    generalize (2 : ℚ) ^ E = z at *
    generalize (2 : ℚ) ^ a = w at *
    have h5 := mul_le_mul_of_nonneg_left h1 h3.le
    have h6 := mul_le_mul_of_nonneg_right h2 h4.le
    nlinarith
  have d0 : |v - m| ≤ 4 * |v - next m k v| := by
    have hK : (2 : ℚ) ≤ ((k + 1 : Nat) : ℚ) := by exact_mod_cast (by omega : 2 ≤ k + 1)
    generalize ((k + 1 : Nat) : ℚ) = K at *
    have hD := abs_nonneg (v - m)
    have e1 : |(v - m) / K| ≤ |v - m| / 2 := by
      rw [abs_div, abs_of_pos (by linarith : 0 < K), div_le_div_iff₀ (by linarith) (by norm_num)]
      nlinarith
    have e3 : v - m = (v - next m k v) + (next m k v - (m + (v - m) / K)) + (v - m) / K := by ring
    have e4 := abs_add_le ((v - next m k v) + (next m k v - (m + (v - m) / K))) ((v - m) / K)
    have e5 := abs_add_le (v - next m k v) (next m k v - (m + (v - m) / K))
    rw [← e3] at e4
    linarith
  have d1 := le_abs_rnd (by omega) h
  have d2 := le_abs_rnd (x := v - next m k v) (e := a - 2) (by omega) (by
    have : (2 : ℚ) ^ a = 4 * 2 ^ (a - 2) := by
      rw [show a = 2 + (a - 2) by ring, zpow_add₀ (by norm_num)]
      norm_num
    rw [this] at h
    linarith)
  rw [abs_mul, show 2 * a - 2 = a + (a - 2) by ring, zpow_add₀ (by norm_num)]
  exact mul_le_mul d1 d2 (two_zpow_pos _).le (abs_nonneg _)

/-- A value near the mean moves it by at most `2^(a - l)`. -/
theorem next_near {m v : ℚ} {a : Int} (n l k : Nat) (hl : 2 ^ l ≤ n + 1) (hl' : l ≤ 53) (hk : k + 1 ≤ 2 ^ 53) (ha : -500 ≤ a) (hm : |m| ≤ k * 2 ^ (a - l)) (hD : |rnd (v - m)| ≤ 2 ^ a) :
    |next m n v| ≤ (k + 1 : Nat) * 2 ^ (a - l) := by
  have h1 : |rnd (v - m) / (n + 1 : Nat)| ≤ 2 ^ (a - l) := by
    have hn : (2 : ℚ) ^ l ≤ ((n + 1 : Nat) : ℚ) := by exact_mod_cast hl
    have hp : (0 : ℚ) < 2 ^ l := by positivity
    rw [abs_div, Nat.abs_cast, div_le_iff₀ (by linarith), zpow_sub₀ (by norm_num), zpow_natCast]
    refine hD.trans ?_
    rw [div_mul_eq_mul_div, le_div_iff₀ hp]
    exact mul_le_mul_of_nonneg_left hn (two_zpow_pos a).le
  have h2 := abs_rnd_le (by omega) h1
  have rep : Rep ((k + 1 : Nat) * 2 ^ (a - l)) := ⟨(k + 1 : Nat), a - l, by rw [Int.cast_natCast], by rw [Nat.abs_cast]; exact_mod_cast hk, by omega⟩
  have h3 : |m + rnd (rnd (v - m) / (n + 1 : Nat))| ≤ (k + 1 : Nat) * 2 ^ (a - l) := by
    refine (abs_add_le _ _).trans ?_
    push_cast at *
    linarith
  unfold next
  rw [abs_le] at h3 ⊢
  exact ⟨le_rnd rep.neg h3.1, rnd_le rep h3.2⟩

/-- The mean and the sum of squares after a list of values. `n + 1` is the number of elements. -/
theorem step_run (n : Nat) (hn : 0 < n) (hn' : n + 1 ≤ 2 ^ 53) (E : Int) (hE : -400 ≤ E) (hE' : E ≤ 128) (vs : List ℚ) : ∀ (m q : ℚ) (k : Nat), Rep m → Rep q →
    |m| ≤ 2 ^ E → 0 ≤ q → q ≤ k * 2 ^ (2 * E + 2) → (∀ v ∈ vs, Rep v ∧ |v| ≤ 2 ^ E) → k + vs.length ≤ n + 1 →
      ∃ m' q', vs.foldlM (step (n + 1)) (m, q) = some (m', q') ∧ |m'| ≤ 2 ^ E ∧ q ≤ q' ∧ q' ≤ (k + vs.length : Nat) * 2 ^ (2 * E + 2) ∧
        ∀ (a : Int) (l : Nat), -500 ≤ a → E ≤ a + 20 → 2 ^ l ≤ n + 1 → n + 1 < 2 ^ (l + 1) → |m| ≤ k * 2 ^ (a - l) → (∃ v ∈ vs, 2 ^ (a + 2) < |v|) → 2 ^ (2 * a - 2) ≤ q' := by
  induction vs with
  | nil => intro m q k _ _ h1 _ h3 _ _; exact ⟨m, q, rfl, h1, le_refl _, by simpa using h3, fun _ _ _ _ _ _ _ h => by simp at h⟩
  | cons v vs ih =>
    intro m q k hm hq mm q0 q1 hv hlen
    rw [List.length_cons] at hlen
    obtain ⟨rv, mv⟩ := hv v (by simp)
    have cap : ∀ x : ℚ, |x| ≤ 2 ^ E → |x| ≤ 2 ^ (128 : Int) := fun x hx => hx.trans (zpow_le_zpow_right₀ (by norm_num) hE')
    obtain ⟨s1, s2, s3⟩ := average_step m v n 128 (by norm_num) (by norm_num) (cap m mm) (cap v mv)
    obtain ⟨-, p0, -, -⟩ := product_bounds hm rv n (by omega) (cap m mm) (cap v mv)
    have mn : |next m n v| ≤ 2 ^ E := by
      obtain ⟨b1, b2⟩ := next_between hm rv n hn
      rw [abs_le] at mm mv ⊢
      exact ⟨le_trans (le_min mm.1 mv.1) b1, b2.trans (max_le mm.2 mv.2)⟩
    have p1 : rnd (v - m) * rnd (v - next m n v) ≤ 2 ^ (2 * E + 2) := by
      have d1 := abs_rnd_le (by omega) (abs_sub_pow mm mv)
      have d2 := abs_rnd_le (by omega) (abs_sub_pow mn mv)
      refine (le_abs_self _).trans ?_
      rw [abs_mul, show 2 * E + 2 = (E + 1) + (E + 1) by ring, zpow_add₀ (by norm_num)]
      exact mul_le_mul d1 d2 (abs_nonneg _) (two_zpow_pos _).le
    have big : ∀ f : Int, f ≤ 1000 → (2 : ℚ) ^ f ≤ 2 ^ (1000 : Int) := fun f hf => zpow_le_zpow_right₀ (by norm_num) hf
    have s4 : op (v - next m n v) = some (rnd (v - next m n v)) := op_some ((abs_sub_pow (cap _ mn) (cap _ mv)).trans (big _ (by norm_num)))
    have s5 : op (rnd (v - m) * rnd (v - next m n v)) = some (rnd (rnd (v - m) * rnd (v - next m n v))) := by
      refine op_some ?_
      rw [abs_of_nonneg p0]
      exact p1.trans (big _ (by omega))
    have r0 := le_rnd rep_zero p0
    have r1 := rnd_le (rep_pow (by omega)) p1
    have far : ∀ a : Int, -500 ≤ a → E ≤ a + 20 → 2 ^ a < |rnd (v - m)| → 2 ^ (2 * a - 2) ≤ rnd (rnd (v - m) * rnd (v - next m n v)) := by
      intro a h1 h2 h3
      have h4 : 2 ^ a ≤ |v - m| := le_of_not_ge fun h => absurd (abs_rnd_le (by omega) h) (not_le.2 h3)
      have := product_far hm rv n hn mm mv (by omega) h1 h2 h4
      rw [abs_of_nonneg p0] at this
      exact le_rnd (rep_pow (by omega)) this
    have near : ∀ (a : Int) (l : Nat), -500 ≤ a → 2 ^ l ≤ n + 1 → n + 1 < 2 ^ (l + 1) → |m| ≤ k * 2 ^ (a - l) → |rnd (v - m)| ≤ 2 ^ a →
        |next m n v| ≤ (k + 1 : Nat) * 2 ^ (a - l) ∧ |v| ≤ 2 ^ (a + 2) := by
      intro a l h1 h2 h3 h4 h5
      have hl : l ≤ 53 := (Nat.pow_le_pow_iff_right (by norm_num : 1 < 2)).1 (h2.trans hn')
      refine ⟨next_near n l k h2 hl (by omega) h1 h4 h5, ?_⟩
      have h6 : |v - m| ≤ 2 ^ (a + 1) := by
        refine le_of_not_ge fun h => ?_
        have := le_abs_rnd (by omega) h
        rw [← half_pow] at this
        have := two_zpow_pos a
        linarith
      have h7 : |m| ≤ 2 ^ (a + 1) := by
        refine h4.trans ?_
        have hk : (k : ℚ) ≤ 2 ^ (l + 1) := by exact_mod_cast (by omega : k ≤ 2 ^ (l + 1))
        refine (mul_le_mul_of_nonneg_right hk (two_zpow_pos _).le).trans (le_of_eq ?_)
        rw [← zpow_natCast, ← zpow_add₀ (by norm_num)]
        congr 1
        push_cast
        ring
      have h8 := abs_add_le (v - m) m
      rw [sub_add_cancel] at h8
      rw [show a + 2 = (a + 1) + 1 by ring, ← half_pow (a + 1)]
      linarith
    have hstep : step (n + 1) (m, q) v = (op (q + rnd (rnd (v - m) * rnd (v - next m n v)))).bind fun x => some (next m n v, x) := by
      unfold step
      dsimp only
      rw [s1]
      show (op (rnd (v - m) / (n + 1 : Nat))).bind _ = _
      rw [s2]
      show (op (m + rnd (rnd (v - m) / (n + 1 : Nat)))).bind _ = _
      rw [s3]
      show (op (v - next m n v)).bind _ = _
      rw [s4]
      show (op (rnd (v - m) * rnd (v - next m n v))).bind _ = _
      rw [s5]
      rfl
    have rn : Rep (next m n v) := next_rep _ _ _
    generalize hp : rnd (rnd (v - m) * rnd (v - next m n v)) = p at *
    have t0 : (0 : ℚ) ≤ q + p := by linarith
    have t1 : q + p ≤ ((k + 1 : Nat) : ℚ) * 2 ^ (2 * E + 2) := by
      rw [Nat.cast_add, Nat.cast_one, add_mul, one_mul]
      exact add_le_add q1 r1
    have s6 : op (q + p) = some (rnd (q + p)) := by
      refine op_some ?_
      rw [abs_of_nonneg t0]
      refine t1.trans ?_
      refine le_trans (mul_le_mul_of_nonneg_right (show ((k + 1 : Nat) : ℚ) ≤ 2 ^ (53 : Int) by
        rw [show (2 : ℚ) ^ (53 : Int) = ((2 ^ 53 : Nat) : ℚ) by norm_cast]
        exact_mod_cast (by omega : k + 1 ≤ 2 ^ 53)) (two_zpow_pos _).le) ?_
      rw [← zpow_add₀ (by norm_num)]
      exact big _ (by omega)
    rw [s6] at hstep
    obtain ⟨m', q', g1, g2, g3, g4, g5⟩ := ih (next m n v) (rnd (q + p)) (k + 1) rn (rep_rnd _) mn (le_rnd rep_zero t0) (rnd_le ⟨(k + 1 : Nat), 2 * E + 2, by rw [Int.cast_natCast], by rw [Nat.abs_cast]; exact_mod_cast (by omega : k + 1 ≤ 2 ^ 53), by omega⟩ t1)
      (fun w hw => hv w (List.mem_cons_of_mem _ hw)) (by omega)
    have more : q ≤ rnd (q + p) := le_rnd hq (by linarith)
    refine ⟨m', q', ?_, g2, more.trans g3, ?_, ?_⟩
    · rw [List.foldlM_cons, hstep]
      exact g1
    · rw [List.length_cons, show k + (vs.length + 1) = k + 1 + vs.length by omega]
      exact g4
    · intro a l h1 h2 h3 h4 h5 h6
      by_cases hD : |rnd (v - m)| ≤ 2 ^ a
      · obtain ⟨n1, n2⟩ := near a l h1 h3 h4 h5 hD
        refine g5 a l h1 h2 h3 h4 n1 ?_
        obtain ⟨w, hw, hw'⟩ := h6
        rcases List.mem_cons.1 hw with rfl | hw
        · exact absurd n2 (not_le.2 hw')
        · exact ⟨w, hw, hw'⟩
      · have h7 := far a h1 h2 (not_le.1 hD)
        exact (le_rnd (rep_pow (by omega)) (by linarith : (2 : ℚ) ^ (2 * a - 2) ≤ q + p)).trans g3

/-! ### Elements -/

theorem offset_bounds (a b k p : Nat) (h : p < a * b * k) : p % (b * a) / b < a ∧ p % (b * a) % b < b ∧ p / (b * a) < k := by
  have hab : 0 < b * a := by
    rcases Nat.eq_zero_or_pos (b * a) with h0 | h0
    · rw [Nat.mul_comm a b, h0, Nat.zero_mul] at h; omega
    · exact h0
  have hb : 0 < b := Nat.pos_of_mul_pos_right hab
  refine ⟨?_, Nat.mod_lt _ hb, ?_⟩
  · rw [Nat.div_lt_iff_lt_mul hb, Nat.mul_comm a b]
    exact Nat.mod_lt _ hab
  · rw [Nat.div_lt_iff_lt_mul hab, Nat.mul_comm k, Nat.mul_comm b a]
    exact h

theorem flat_length (t : Tensor F32) : (flat t).length = t.size := by simp [flat]

/-- The two orders visit the same elements. -/
theorem mem_flat (t : Tensor F32) (x : F32) : x ∈ flat t ↔ x ∈ Statistics.elements t := by
  unfold flat Statistics.elements
  simp only [List.mem_map, List.mem_flatMap, List.mem_range]
  constructor
  · rintro ⟨p, hp, rfl⟩
    obtain ⟨b1, b2, b3⟩ := offset_bounds _ _ _ _ hp
    exact ⟨_, b3, _, b1, _, b2, rfl⟩
  · rintro ⟨k, hk, r, hr, c, hc, rfl⟩
    refine ⟨_, Views.C29_position_lt t.rows t.cols t.chans r c k hr hc hk, Views.C29_offset_get t r c k hr hc⟩

/-! ### Sizes of results in `float` -/

theorem mul_upper {a b : F32} {A B : ℝ} (ha : Finite a) (hb : Finite b) (hA : |real a| ≤ A) (hB : |real b| ≤ B) (h1 : A * B ≤ 2 ^ 126) (h2 : 1 / 2 ^ 100 ≤ A * B) :
    Finite (a * b) ∧ |real (a * b)| ≤ 2 * (A * B) := by
  have h : |real a * real b| ≤ A * B := by
    rw [abs_mul]
    exact mul_le_mul hA hB (abs_nonneg _) ((abs_nonneg _).trans hA)
  obtain ⟨f, e⟩ := mul_spec a b ha hb (h.trans (h1.trans (pow_le_pow_right₀ (by norm_num) (by norm_num))))
  refine ⟨f, ?_⟩
  have h3 := abs_add_le (real (a * b) - real a * real b) (real a * real b)
  rw [sub_add_cancel] at h3
  have hu : u ≤ 1 / 4 := by unfold u; norm_num
  have hη : η ≤ 1 / 2 ^ 100 / 4 := by unfold η; norm_num
  have := mul_le_mul hu h (abs_nonneg _) (by norm_num)
  linarith

theorem add_upper {a b : F32} {A B : ℝ} (ha : Finite a) (hb : Finite b) (hA : |real a| ≤ A) (hB : |real b| ≤ B) (h1 : A + B ≤ 2 ^ 126) :
    Finite (a + b) ∧ |real (a + b)| ≤ 2 * (A + B) := by
  have h : |real a + real b| ≤ A + B := (abs_add_le _ _).trans (add_le_add hA hB)
  obtain ⟨f, e⟩ := add_spec a b ha hb (h.trans (h1.trans (pow_le_pow_right₀ (by norm_num) (by norm_num))))
  refine ⟨f, ?_⟩
  have h3 := abs_add_le (real (a + b) - (real a + real b)) (real a + real b)
  rw [sub_add_cancel] at h3
  have hu : u ≤ 1 / 4 := by unfold u; norm_num
  have := mul_le_mul hu h (abs_nonneg _) (by norm_num)
  linarith [abs_nonneg (real a), abs_nonneg (real b)]

theorem sub_upper {a b : F32} {A B : ℝ} (ha : Finite a) (hb : Finite b) (hA : |real a| ≤ A) (hB : |real b| ≤ B) (h1 : A + B ≤ 2 ^ 127) :
    Finite (a - b) ∧ |real (a - b)| ≤ (1 + u) * (A + B) := by
  have h : |real a - real b| ≤ A + B := (abs_sub _ _).trans (add_le_add hA hB)
  obtain ⟨f, e⟩ := sub_spec a b ha hb (h.trans h1)
  refine ⟨f, ?_⟩
  have h3 := abs_add_le (real (a - b) - (real a - real b)) (real a - real b)
  rw [sub_add_cancel] at h3
  have := mul_le_mul_of_nonneg_left h u_pos.le
  linarith

theorem div_upper {a b : F32} {A B : ℝ} (ha : Finite a) (hb : Finite b) (hA : |real a| ≤ A) (hB0 : 0 < B) (hB : B ≤ |real b|) (h1 : A / B ≤ 2 ^ 126) (h2 : 1 / 2 ^ 100 ≤ A / B) :
    Finite (a / b) ∧ |real (a / b)| ≤ 2 * (A / B) := by
  have h : |real a / real b| ≤ A / B := by
    rw [abs_div]
    exact div_le_div₀ ((abs_nonneg _).trans hA) hA hB0 hB
  have hb0 : real b ≠ 0 := fun h => by rw [h, abs_zero] at hB; linarith
  obtain ⟨f, e⟩ := div_spec a b ha hb hb0 (h.trans (h1.trans (pow_le_pow_right₀ (by norm_num) (by norm_num))))
  refine ⟨f, ?_⟩
  have h3 := abs_add_le (real (a / b) - real a / real b) (real a / real b)
  rw [sub_add_cancel] at h3
  have hu : u ≤ 1 / 4 := by unfold u; norm_num
  have hη : η ≤ 1 / 2 ^ 100 / 4 := by unfold η; norm_num
  have := mul_le_mul hu h (abs_nonneg _) (by norm_num)
  linarith

theorem mul_lower {a b : F32} (ha : Finite a) (hb : Finite b) (h1 : |real a * real b| ≤ 2 ^ 126) (h2 : 1 / 2 ^ 100 ≤ |real a * real b|) :
    |real a * real b| / 2 ≤ |real (a * b)| := by
  obtain ⟨f, e⟩ := mul_spec a b ha hb (h1.trans (pow_le_pow_right₀ (by norm_num) (by norm_num)))
  have h3 := abs_add_le (real a * real b - real (a * b)) (real (a * b))
  rw [sub_add_cancel, abs_sub_comm] at h3
  have hu : u ≤ 1 / 4 := by unfold u; norm_num
  have hη : η ≤ 1 / 2 ^ 100 / 4 := by unfold η; norm_num
  have := mul_le_mul_of_nonneg_right hu (abs_nonneg (real a * real b))
  linarith

/-- The size of a normalized value `z`; `d` is the rounded difference, `p` bounds the input. -/
theorem quotient_bound (d sd p n z : ℝ) (hn : 1 ≤ n) (hsd : 0 < sd) (hd : |d| ≤ 8 * p) (h : p ^ 2 ≤ 2 ^ 12 * (n * sd ^ 2)) (hz : |z - d / sd| ≤ u * |d / sd| + η) :
    (d / sd) ^ 2 ≤ 2 ^ 18 * n ∧ z ^ 2 ≤ 2 ^ 20 * n := by
  have h1 : (d / sd) ^ 2 ≤ 2 ^ 18 * n := by
    rw [div_pow, div_le_iff₀ (by positivity), ← sq_abs]
    have := pow_le_pow_left₀ (abs_nonneg d) hd 2
    nlinarith
  refine ⟨h1, ?_⟩
  have h2 := abs_add_le (z - d / sd) (d / sd)
  rw [sub_add_cancel] at h2
  have hu : u ≤ 1 / 4 := by unfold u; norm_num
  have hη : η ≤ 1 / 4 := by unfold η; norm_num
  have h3 : |z| ≤ 5 / 4 * |d / sd| + 1 / 4 := by nlinarith [abs_nonneg (d / sd)]
  have h4 := pow_le_pow_left₀ (abs_nonneg z) h3 2
  rw [sq_abs] at h4
  have h5 : |d / sd| ^ 2 ≤ 2 ^ 18 * n := by rw [sq_abs]; exact h1
  nlinarith [sq_nonneg (|d / sd| - 1)]

end Verif.FloatNormalization
