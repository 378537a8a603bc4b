import Verif.Lemmas.RoundingReal
import Verif.Lemmas.SamePredictions

/-!
Rounding errors through the layers of a network.
-/
namespace Verif.Rounding
open Verif FloatBits FloatArith Views FloatNetwork

/-- The growth of errors after `n` roundings. -/
noncomputable def g (n : Nat) : ℝ := (1 + u) ^ n

theorem g_succ (n : Nat) : g (n + 1) = g n * (1 + u) := pow_succ _ _
theorem g_add (m n : Nat) : g (m + n) = g m * g n := pow_add _ _ _
theorem g_one_le (n : Nat) : 1 ≤ g n := one_le_pow₀ (by have := u_pos; linarith)
theorem g_mono {m n : Nat} (h : m ≤ n) : g m ≤ g n := pow_le_pow_right₀ (by have := u_pos; linarith) h

theorem g_le (n : Nat) (h : n ≤ 2 ^ 23) : g n ≤ 1 + 2 * n * u := by
  induction n with
  | zero => unfold g; simp
  | succ n ih =>
    have ih := ih (by omega)
    have hn : (n : ℝ) ≤ 2 ^ 23 := by exact_mod_cast (show n ≤ 2 ^ 23 by omega)
    have hu := u_pos
    have h1 : 2 * (n : ℝ) * u ≤ 1 := by unfold u; linarith
    rw [g_succ]
    push_cast
    have := mul_le_mul_of_nonneg_right ih (show 0 ≤ 1 + u by linarith)
    have := mul_le_mul_of_nonneg_right h1 hu.le
    nlinarith

theorem g_le_two (n : Nat) (h : n ≤ 2 ^ 23) : g n ≤ 2 := by
  have h1 := g_le n h
  have hn : (n : ℝ) ≤ 2 ^ 23 := by exact_mod_cast h
  have : 2 * (n : ℝ) * u ≤ 1 := by unfold u; linarith
  linarith

theorem sumLoop_succ {F : Type} [Zero F] [Add F] (n : Nat) (f : Nat → F) : sumLoop (n + 1) f = sumLoop n f + f n := by
  unfold sumLoop
  rw [List.range_succ, List.foldl_append]
  rfl

theorem real_zero : real 0 = 0 := by
  show real ⟨0#32⟩ = 0
  norm_num [real, value, neg, magUnits, expo, frac]

/-- A sum of products. -/
theorem dot_spec (a w : Nat → F32) (n : Nat) (ha : ∀ i, i < n → Finite (a i)) (hw : ∀ i, i < n → Finite (w i))
    (h : g (n + 1) * (∑ i ∈ Finset.range n, |real (a i) * real (w i)| + n * η) ≤ 2 ^ 127) :
    Finite (sumLoop n fun i => a i * w i) ∧
      |real (sumLoop n fun i => a i * w i) - ∑ i ∈ Finset.range n, real (a i) * real (w i)| ≤
        (g (n + 1) - 1) * ∑ i ∈ Finset.range n, |real (a i) * real (w i)| + g (n + 1) * (n * η) := by
  induction n with
  | zero =>
    refine ⟨by show Finite (0 : F32); decide, ?_⟩
    show |real (0 : F32) - _| ≤ _
    rw [real_zero]
    simp
  | succ n ih =>
    have hu := u_pos
    have hη := η_pos
    rw [Finset.sum_range_succ] at h
    have hg1 := g_one_le (n + 1)
    have hgm : g (n + 1) ≤ g (n + 1 + 1) := g_mono (by omega)
    have hS : 0 ≤ ∑ i ∈ Finset.range n, |real (a i) * real (w i)| := Finset.sum_nonneg fun _ _ => abs_nonneg _
    have hs : |∑ i ∈ Finset.range n, real (a i) * real (w i)| ≤ ∑ i ∈ Finset.range n, |real (a i) * real (w i)| := Finset.abs_sum_le_sum_abs _ _
    have hp := abs_nonneg (real (a n) * real (w n))
    have hn : (0 : ℝ) ≤ n := Nat.cast_nonneg n
    have hnη : 0 ≤ (n : ℝ) * η := mul_nonneg hn hη.le
    have e2 : g (n + 1 + 1) = g (n + 1) * (1 + u) := g_succ _
    have hgu : 1 + u ≤ g (n + 1) := by
      have := g_mono (show 1 ≤ n + 1 by omega)
      unfold g at this ⊢
      linarith [pow_one (1 + u)]
    push_cast at h
    obtain ⟨f1, d1⟩ := ih (fun i hi => ha i (by omega)) (fun i hi => hw i (by omega)) (by
      refine le_trans (mul_le_mul hgm ?_ (by linarith) (by linarith)) h
      have : (n : ℝ) * η ≤ (n + 1) * η := by nlinarith
      linarith)
    have hpmax : |real (a n) * real (w n)| ≤ 2 ^ 127 := by
      refine le_trans ?_ h
      have h1 : 0 ≤ ((n : ℝ) + 1) * η := mul_nonneg (by linarith) hη.le
      have h2 : |real (a n) * real (w n)| ≤ ∑ i ∈ Finset.range n, |real (a i) * real (w i)| + |real (a n) * real (w n)| + (↑n + 1) * η := by linarith
      have h3 : 1 ≤ g (n + 1 + 1) := by linarith
      nlinarith
    obtain ⟨f2, d2⟩ := mul_spec (a n) (w n) (ha n (by omega)) (hw n (by omega)) hpmax
    rw [Finset.sum_range_succ, Finset.sum_range_succ, sumLoop_succ]
    push_cast
    generalize (sumLoop n fun i => a i * w i) = s' at *
    generalize a n * w n = p' at *
    generalize ∑ i ∈ Finset.range n, |real (a i) * real (w i)| = S at *
    generalize ∑ i ∈ Finset.range n, real (a i) * real (w i) = s at *
    generalize real (a n) * real (w n) = p at *
    generalize g (n + 1) = G at *
    rw [e2] at h hgm ⊢
    -- the error before the last rounding
    have herr : |(real s' + real p') - (s + p)| ≤ (G - 1) * S + G * (n * η) + (u * |p| + η) := by
      have : (real s' + real p') - (s + p) = (real s' - s) + (real p' - p) := by ring
      rw [this]
      exact le_trans (abs_add_le _ _) (add_le_add d1 d2)
    have hsp : |s + p| ≤ S + |p| := le_trans (abs_add_le _ _) (by linarith)
    have hmag : |real s' + real p'| ≤ G * S + G * (n * η) + ((1 + u) * |p| + η) := by
      have : real s' + real p' = (s + p) + ((real s' + real p') - (s + p)) := by ring
      rw [this]
      refine le_trans (abs_add_le _ _) ?_
      nlinarith
    have hmax : |real s' + real p'| ≤ 2 ^ 127 := by
      refine le_trans hmag (le_trans ?_ h)
      have q1 : G * S ≤ G * (1 + u) * S := by nlinarith
      have q2 : (1 + u) * |p| ≤ G * (1 + u) * |p| := by
        have : (1 + u) ≤ G * (1 + u) := by nlinarith
        exact mul_le_mul_of_nonneg_right this hp
      have q3 : G * (n * η) + η ≤ G * (1 + u) * ((n + 1) * η) := by
        have : G ≤ G * (1 + u) := by nlinarith
        have h1 := mul_le_mul_of_nonneg_right this hnη
        have h2 : η ≤ G * (1 + u) * η := by nlinarith
        calc G * (n * η) + η ≤ G * (1 + u) * (n * η) + G * (1 + u) * η := add_le_add h1 h2
          _ = G * (1 + u) * ((n + 1) * η) := by ring
      calc G * S + G * (n * η) + ((1 + u) * |p| + η) ≤ G * (1 + u) * S + G * (1 + u) * |p| + G * (1 + u) * ((n + 1) * η) := by linarith
        _ = G * (1 + u) * (S + |p| + (n + 1) * η) := by ring
    obtain ⟨f3, d3⟩ := add_spec s' p' f1 f2 hmax
    refine ⟨f3, ?_⟩
    have e : real (s' + p') - (s + p) = (real (s' + p') - (real s' + real p')) + ((real s' + real p') - (s + p)) := by ring
    rw [e]
    refine le_trans (abs_add_le _ _) ?_
    have hm2 : |real s' + real p'| ≤ |s + p| + |(real s' + real p') - (s + p)| := by
      have : real s' + real p' = (s + p) + ((real s' + real p') - (s + p)) := by ring
      calc |real s' + real p'| = |(s + p) + ((real s' + real p') - (s + p))| := by rw [← this]
        _ ≤ _ := abs_add_le _ _
    have k1 : u * |real s' + real p'| ≤ u * (S + |p| + ((G - 1) * S + G * (n * η) + (u * |p| + η))) :=
      mul_le_mul_of_nonneg_left (by linarith) hu.le
    have k2 : (u + u * u + u) * |p| ≤ (G * (1 + u) - 1) * |p| := by
      refine mul_le_mul_of_nonneg_right ?_ hp
      nlinarith
    have k3 : (1 + u) * η ≤ G * (1 + u) * η := by
      have : (1 + u) ≤ G * (1 + u) := by nlinarith
      exact mul_le_mul_of_nonneg_right this hη.le
    calc _ ≤ u * (S + |p| + ((G - 1) * S + G * (n * η) + (u * |p| + η))) + ((G - 1) * S + G * (n * η) + (u * |p| + η)) := by linarith
      _ = (G * (1 + u) - 1) * S + (u + u * u + u) * |p| + G * (1 + u) * (n * η) + (1 + u) * η := by ring
      _ ≤ (G * (1 + u) - 1) * S + (G * (1 + u) - 1) * |p| + G * (1 + u) * (n * η) + G * (1 + u) * η := by linarith
      _ = (G * (1 + u) - 1) * (S + |p|) + G * (1 + u) * ((n + 1) * η) := by ring

/-! ### One element after a layer -/

/-- A float near a number: finite, and within the error of `N` roundings. -/
def Near (N : Nat) (f : F32) (t X B : ℝ) : Prop := Finite f ∧ |t| ≤ X ∧ 0 ≤ B ∧ |real f - t| ≤ (g N - 1) * X + g N * (η * B)

theorem Near.abs {N : Nat} {f : F32} {t X B : ℝ} (h : Near N f t X B) : |real f| ≤ g N * (X + η * B) := by
  obtain ⟨_, h2, _, h4⟩ := h
  have e : real f = t + (real f - t) := by ring
  rw [e]
  refine le_trans (abs_add_le _ _) ?_
  nlinarith

theorem near_dense (N n : Nat) (f w : Nat → F32) (t X B : Nat → ℝ) (h : ∀ i, i < n → Near N (f i) (t i) (X i) (B i)) (hw : ∀ i, i < n → Finite (w i))
    (hN : N + (n + 1) ≤ 2 ^ 23) (hX : ∑ i ∈ Finset.range n, X i * |real (w i)| ≤ 2 ^ 125)
    (hB : ∑ i ∈ Finset.range n, (B i * |real (w i)| + 1) ≤ 2 ^ 125) :
    Near (N + (n + 1)) (sumLoop n fun i => f i * w i) (∑ i ∈ Finset.range n, t i * real (w i)) (∑ i ∈ Finset.range n, X i * |real (w i)|)
      (∑ i ∈ Finset.range n, (B i * |real (w i)| + 1)) := by
  have hη := η_pos
  have hgN := g_one_le N
  have hgn := g_one_le (n + 1)
  have hB' : ∑ i ∈ Finset.range n, (B i * |real (w i)| + 1) = ∑ i ∈ Finset.range n, B i * |real (w i)| + n := by
    rw [Finset.sum_add_distrib]; simp
  have hX0 : 0 ≤ ∑ i ∈ Finset.range n, X i * |real (w i)| :=
    Finset.sum_nonneg fun i hi => mul_nonneg (le_trans (abs_nonneg _) (h i (Finset.mem_range.mp hi)).2.1) (abs_nonneg _)
  have hB0 : 0 ≤ ∑ i ∈ Finset.range n, B i * |real (w i)| :=
    Finset.sum_nonneg fun i hi => mul_nonneg (h i (Finset.mem_range.mp hi)).2.2.1 (abs_nonneg _)
  have hn0 : (0 : ℝ) ≤ n := Nat.cast_nonneg n
  have hS : ∑ i ∈ Finset.range n, |real (f i) * real (w i)| ≤
      g N * (∑ i ∈ Finset.range n, X i * |real (w i)| + η * ∑ i ∈ Finset.range n, B i * |real (w i)|) := by
    rw [Finset.mul_sum, ← Finset.sum_add_distrib, Finset.mul_sum]
    refine Finset.sum_le_sum fun i hi => ?_
    rw [abs_mul]
    have := mul_le_mul_of_nonneg_right (h i (Finset.mem_range.mp hi)).abs (abs_nonneg (real (w i)))
    refine le_trans this (le_of_eq ?_)
    ring
  have hE : |∑ i ∈ Finset.range n, real (f i) * real (w i) - ∑ i ∈ Finset.range n, t i * real (w i)| ≤
      (g N - 1) * ∑ i ∈ Finset.range n, X i * |real (w i)| + g N * (η * ∑ i ∈ Finset.range n, B i * |real (w i)|) := by
    rw [← Finset.sum_sub_distrib, Finset.mul_sum, Finset.mul_sum, Finset.mul_sum, ← Finset.sum_add_distrib]
    refine le_trans (Finset.abs_sum_le_sum_abs _ _) (Finset.sum_le_sum fun i hi => ?_)
    rw [← sub_mul, abs_mul]
    have := mul_le_mul_of_nonneg_right (h i (Finset.mem_range.mp hi)).2.2.2 (abs_nonneg (real (w i)))
    refine le_trans this (le_of_eq ?_)
    ring
  have hT : |∑ i ∈ Finset.range n, t i * real (w i)| ≤ ∑ i ∈ Finset.range n, X i * |real (w i)| := by
    refine le_trans (Finset.abs_sum_le_sum_abs _ _) (Finset.sum_le_sum fun i hi => ?_)
    rw [abs_mul]
    exact mul_le_mul_of_nonneg_right (h i (Finset.mem_range.mp hi)).2.1 (abs_nonneg _)
  rw [hB'] at hB ⊢
  have hg2 := g_le_two _ hN
  rw [g_add] at hg2
  have hη1 : η ≤ 1 := by unfold η; rw [div_le_one (by positivity)]; exact one_le_pow₀ (by norm_num)
  have hmax : g (n + 1) * (∑ i ∈ Finset.range n, |real (f i) * real (w i)| + n * η) ≤ 2 ^ 127 := by
    generalize ∑ i ∈ Finset.range n, |real (f i) * real (w i)| = S at *
    generalize ∑ i ∈ Finset.range n, X i * |real (w i)| = Y at *
    generalize ∑ i ∈ Finset.range n, B i * |real (w i)| = C at *
    generalize g N = a at *
    generalize g (n + 1) = b at *
    generalize (n : ℝ) = m at *
    have hmη : 0 ≤ m * η := mul_nonneg hn0 hη.le
    have k1 : S + m * η ≤ a * (Y + η * C + η * m) := by nlinarith
    have k2 : η * C + η * m ≤ C + m := by nlinarith
    have k3 : 0 ≤ Y + η * C + η * m := by
      have := mul_nonneg hη.le hB0
      linarith
    calc b * (S + m * η) ≤ b * (a * (Y + η * C + η * m)) := mul_le_mul_of_nonneg_left k1 (by linarith)
      _ = (a * b) * (Y + η * C + η * m) := by ring
      _ ≤ 2 * (Y + η * C + η * m) := mul_le_mul_of_nonneg_right hg2 k3
      _ ≤ 2 * (2 ^ 125 + 2 ^ 125) := by linarith
      _ = 2 ^ 127 := by norm_num
  obtain ⟨f1, d1⟩ := dot_spec f w n (fun i hi => (h i hi).1) hw hmax
  refine ⟨f1, hT, by linarith, ?_⟩
  rw [g_add]
  generalize (sumLoop n fun i => f i * w i) = y at *
  generalize ∑ i ∈ Finset.range n, |real (f i) * real (w i)| = S at *
  generalize ∑ i ∈ Finset.range n, X i * |real (w i)| = Y at *
  generalize ∑ i ∈ Finset.range n, B i * |real (w i)| = C at *
  generalize ∑ i ∈ Finset.range n, real (f i) * real (w i) = s at *
  generalize ∑ i ∈ Finset.range n, t i * real (w i) = v at *
  generalize g N = a at *
  generalize g (n + 1) = b at *
  generalize (n : ℝ) = m at *
  have e : real y - v = (real y - s) + (s - v) := by ring
  rw [e]
  refine le_trans (abs_add_le _ _) ?_
  have k1 : (b - 1) * S ≤ (b - 1) * (a * (Y + η * C)) := mul_le_mul_of_nonneg_left hS (by linarith)
  have hmη : 0 ≤ m * η := mul_nonneg hn0 hη.le
  have k2 : b * (m * η) ≤ a * b * (m * η) := mul_le_mul_of_nonneg_right (by nlinarith) hmη
  calc _ ≤ (b - 1) * (a * (Y + η * C)) + a * b * (m * η) + ((a - 1) * Y + a * (η * C)) := by linarith
    _ = (a * b - 1) * Y + a * b * (η * (C + m)) := by ring

theorem near_bias (N : Nat) (f b : F32) (t X B : ℝ) (h : Near N f t X B) (hb : Finite b) (hN : N + 1 ≤ 2 ^ 23) (hX : X + |real b| ≤ 2 ^ 125)
    (hB : B ≤ 2 ^ 125) : Near (N + 1) (f + b) (t + real b) (X + |real b|) B := by
  have hu := u_pos
  have hη := η_pos
  have hη1 : η ≤ 1 := by unfold η; rw [div_le_one (by positivity)]; exact one_le_pow₀ (by norm_num)
  have habs := h.abs
  obtain ⟨h1, h2, h3, h4⟩ := h
  have hg1 := g_one_le N
  have hg2 : g N ≤ 2 := g_le_two N (by omega)
  have hX0 : 0 ≤ X := le_trans (abs_nonneg _) h2
  have hb0 := abs_nonneg (real b)
  have hηB : η * B ≤ 2 ^ 125 := by nlinarith
  have hηB0 : 0 ≤ η * B := mul_nonneg hη.le h3
  have hsum : |real f + real b| ≤ g N * (X + η * B) + |real b| := le_trans (abs_add_le _ _) (by linarith)
  have hmax : |real f + real b| ≤ 2 ^ 127 := by
    refine le_trans hsum ?_
    have : g N * (X + η * B) ≤ 2 * (X + η * B) := mul_le_mul_of_nonneg_right hg2 (by linarith)
    rw [show (2 : ℝ) ^ 127 = 4 * 2 ^ 125 by norm_num]
    linarith
  obtain ⟨f1, d1⟩ := add_spec f b h1 hb hmax
  have ht : |t + real b| ≤ X + |real b| := le_trans (abs_add_le _ _) (by linarith)
  refine ⟨f1, ht, h3, ?_⟩
  have e : real (f + b) - (t + real b) = (real (f + b) - (real f + real b)) + (real f - t) := by ring
  rw [e, g_succ]
  refine le_trans (abs_add_le _ _) ?_
  have k0 : |real f + real b| ≤ |t + real b| + |real f - t| := by
    have : real f + real b = (t + real b) + (real f - t) := by ring
    rw [this]; exact abs_add_le _ _
  have k1 : u * |real f + real b| ≤ u * (X + |real b| + ((g N - 1) * X + g N * (η * B))) := mul_le_mul_of_nonneg_left (by linarith) hu.le
  have k2 : u * |real b| ≤ (g N * (1 + u) - 1) * |real b| := mul_le_mul_of_nonneg_right (by nlinarith) hb0
  calc _ ≤ u * (X + |real b| + ((g N - 1) * X + g N * (η * B))) + ((g N - 1) * X + g N * (η * B)) := by linarith
    _ = (g N * (1 + u) - 1) * X + u * |real b| + g N * (1 + u) * (η * B) := by ring
    _ ≤ (g N * (1 + u) - 1) * (X + |real b|) + g N * (1 + u) * (η * B) := by linarith

/-! ### Operations without rounding -/

/-- Rounding a float gives the float. -/
theorem rounded_exact (b : Bool) (q : F32) (hq : Finite q) (den : Nat) (hden : 0 < den) :
    Finite (F32.rounded b (q.units * den) den) ∧ (F32.rounded b (q.units * den) den).units = q.units ∧ neg (F32.rounded b (q.units * den) den).bits = b := by
  have hf : frac q.bits < 2 ^ 23 := Nat.mod_lt _ (by norm_num)
  have he : expo q.bits < 255 := by
    have h1 : expo q.bits < 256 := Nat.mod_lt _ (by norm_num)
    have h2 : expo q.bits ≠ 255 := by simpa [Finite, isFinite] using hq
    omega
  -- a representation as `k * 2 ^ e`
  obtain ⟨k, e, hv, hk, hke, he'⟩ : ∃ k e, q.units = k * 2 ^ e ∧ k < 2 ^ 24 ∧ (k < 2 ^ 23 → e = 0) ∧ e ≤ 253 := by
    unfold F32.units magUnits
    by_cases h0 : expo q.bits = 0
    · exact ⟨frac q.bits, 0, by rw [if_pos h0]; simp, by omega, fun _ => rfl, by omega⟩
    · exact ⟨2 ^ 23 + frac q.bits, expo q.bits - 1, by rw [if_neg h0], by omega, fun h => by omega, by omega⟩
  have hmax : q.units * den ≤ den * top := by
    rw [Nat.mul_comm]
    refine Nat.mul_le_mul_left den ?_
    rw [hv]
    unfold top
    exact Nat.mul_le_mul (by omega) (Nat.pow_le_pow_right (by omega) he')
  obtain ⟨m, s, h1, h2, h3, h4, h5, h6, h7, -⟩ := roundUnits_spec (q.units * den) den hden hmax
  obtain ⟨g1, g2, g3⟩ := units_of _ s m b h2 h3 h4 (toNat_of s m b h4)
  have hunits : (F32.rounded b (q.units * den) den).units = m * 2 ^ s := by
    unfold F32.rounded
    rw [h1]
    exact g1
  refine ⟨?_, ?_, ?_⟩
  · unfold Finite F32.rounded isFinite
    rw [h1]
    simpa using g2
  · rw [hunits]
    have hse : s ≤ e := by
      by_contra hne
      have h7 := h7 (by omega)
      have h8 : 2 ^ 23 * 2 ^ s ≤ q.units := by
        have : 2 ^ 23 * 2 ^ s * den ≤ q.units * den := by
          rw [show 2 ^ 23 * 2 ^ s * den = 2 ^ 23 * (den * 2 ^ s) by ring]; exact h7
        exact Nat.le_of_mul_le_mul_right this hden
      rw [hv] at h8
      have h9 : 2 ^ (e + 1) ≤ 2 ^ s := Nat.pow_le_pow_right (by omega) (by omega)
      rw [pow_succ] at h9
      have hp := Nat.two_pow_pos e
      have : k * 2 ^ e < 2 ^ 24 * 2 ^ e := (Nat.mul_lt_mul_right hp).mpr hk
      generalize 2 ^ s = a at *
      generalize 2 ^ e = c at *
      generalize k * c = d at *
      omega
    obtain ⟨d, rfl⟩ := Nat.exists_eq_add_of_le hse
    have hv' : q.units = k * 2 ^ d * 2 ^ s := by rw [hv, pow_add]; ring
    rw [hv'] at h5 h6 ⊢
    have hw : 0 < den * 2 ^ s := Nat.mul_pos hden (Nat.two_pow_pos s)
    have e1 : k * 2 ^ d * 2 ^ s * den = k * 2 ^ d * (den * 2 ^ s) := by ring
    rw [e1] at h5 h6
    congr 1
    generalize k * 2 ^ d = K at *
    generalize den * 2 ^ s = w at *
    rcases Nat.lt_trichotomy m K with h | h | h
    · have : (m + 1) * w ≤ K * w := Nat.mul_le_mul_right w h
      rw [Nat.add_mul] at this
      generalize m * w = x at *
      generalize K * w = y at *
      omega
    · exact h
    · have : (K + 1) * w ≤ m * w := Nat.mul_le_mul_right w h
      rw [Nat.add_mul] at this
      generalize m * w = x at *
      generalize K * w = y at *
      omega
  · unfold F32.rounded
    rw [h1]
    exact g3

theorem one_mul_real (q : F32) (hq : Finite q) : Finite (F32.flag true * q) ∧ real (F32.flag true * q) = real q := by
  obtain ⟨b1, b2⟩ := finite_not q hq
  have hu : F32.units ⟨FloatArith.one⟩ = 2 ^ 149 := by decide +kernel
  have e : F32.flag true * q = F32.rounded (neg q.bits) (q.units * 2 ^ 149) (2 ^ 149) := by
    show F32.mul ⟨FloatArith.one⟩ q = _
    unfold F32.mul
    rw [b1, b2, hu, Nat.mul_comm (2 ^ 149)]
    have h1 : isNaN FloatArith.one = false := by decide
    have h2 : isInf FloatArith.one = false := by decide
    have h3 : neg FloatArith.one = false := by decide
    simp only [h1, h2, h3, Bool.or_self, Bool.false_eq_true, if_false, Bool.false_bne]
  obtain ⟨g1, g2, g3⟩ := rounded_exact (neg q.bits) q hq (2 ^ 149) (Nat.two_pow_pos _)
  rw [e]
  refine ⟨g1, ?_⟩
  rw [real_units, real_units q, g2, g3]

theorem zero_mul_real (q : F32) (hq : Finite q) : Finite (F32.flag false * q) ∧ real (F32.flag false * q) = 0 := by
  obtain ⟨b1, b2⟩ := finite_not q hq
  have hu : F32.units ⟨0#32⟩ = 0 := by decide
  have e : F32.flag false * q = F32.rounded (neg q.bits) (F32.units 0 * 2 ^ 149) (2 ^ 149) := by
    show F32.mul ⟨0#32⟩ q = _
    unfold F32.mul
    rw [b1, b2, hu, Nat.zero_mul, show F32.units 0 = 0 from hu, Nat.zero_mul]
    have h1 : isNaN 0#32 = false := by decide
    have h2 : isInf 0#32 = false := by decide
    have h3 : neg 0#32 = false := by decide
    simp only [h1, h2, h3, Bool.or_self, Bool.false_eq_true, if_false, Bool.false_bne]
  obtain ⟨g1, g2, -⟩ := rounded_exact (neg q.bits) 0 (by decide) (2 ^ 149) (Nat.two_pow_pos _)
  rw [e]
  refine ⟨g1, ?_⟩
  rw [real_units, g2, show F32.units 0 = 0 from hu]
  simp

theorem add_exact (a b q : F32) (ha : Finite a) (hb : Finite b) (hq : Finite q) (h : real a + real b = real q) :
    Finite (a + b) ∧ real (a + b) = real q := by
  obtain ⟨a1, a2⟩ := finite_not a ha
  obtain ⟨b1, b2⟩ := finite_not b hb
  have hz : value a.bits + value b.bits = value q.bits := by
    have h' : ((value a.bits + value b.bits : Int) : ℝ) / 2 ^ 149 = (value q.bits : ℝ) / 2 ^ 149 := by
      rw [show (value q.bits : ℝ) / 2 ^ 149 = real q from rfl, ← h]; unfold real; push_cast; ring
    have := (div_left_inj' (show (2 : ℝ) ^ 149 ≠ 0 by positivity)).mp h'
    exact_mod_cast this
  show Finite (F32.add a b) ∧ real (F32.add a b) = real q
  unfold F32.add
  rw [a1, a2, b1, b2, hz]
  simp only [Bool.or_self, Bool.false_eq_true, if_false]
  by_cases h0 : value q.bits = 0
  · rw [if_pos h0]
    have hq0 : real q = 0 := by unfold real; rw [h0]; simp
    rw [hq0]
    split <;> refine ⟨by decide, ?_⟩ <;> norm_num [real, value, neg, magUnits, expo, frac]
  · rw [if_neg h0, abs_value]
    obtain ⟨g1, g2, g3⟩ := rounded_exact (decide (value q.bits < 0)) q hq 1 (by omega)
    rw [Nat.mul_one] at g1 g2 g3
    refine ⟨g1, ?_⟩
    rw [real_units, g2, g3]
    have e := value_units q
    rw [real_units q]
    have hpos : (0 : Int) ≤ (q.units : Int) := Int.natCast_nonneg _
    congr 1
    by_cases hn : neg q.bits = true
    · rw [if_pos hn] at e
      have : value q.bits < 0 := by
        generalize value q.bits = v at *
        omega
      simp [hn, this]
    · rw [if_neg hn] at e
      have : ¬ value q.bits < 0 := by
        generalize value q.bits = v at *
        omega
      simp [hn, this]

/-! ### Activations -/

theorem lt_zero (f : F32) (hf : Finite f) : F32.lt f 0 = decide (real f < 0) := by
  obtain ⟨b1, -⟩ := finite_not f hf
  have h0 : isNaN (0 : F32).bits = false := by decide
  have h1 : value (0 : F32).bits = 0 := by decide
  unfold F32.lt flt real
  rw [b1, h0, h1]
  have : (value f.bits < 0) ↔ ((value f.bits : ℝ) / 2 ^ 149 < 0) := by
    rw [div_neg_iff]
    have hp : (0 : ℝ) < 2 ^ 149 := by positivity
    constructor
    · intro h; right; exact ⟨by exact_mod_cast h, hp⟩
    · rintro (⟨_, h⟩ | ⟨h, _⟩)
      · exact absurd h (not_lt.mpr hp.le)
      · exact_mod_cast h
  simp [this]

theorem ge_zero (f : F32) (hf : Finite f) : F32.ge f 0 = decide (0 ≤ real f) := by
  obtain ⟨b1, -⟩ := finite_not f hf
  have h0 : isNaN (0 : F32).bits = false := by decide
  have h1 : value (0 : F32).bits = 0 := by decide
  unfold F32.ge real
  rw [b1, h0, h1]
  have : (0 ≤ value f.bits) ↔ (0 ≤ (value f.bits : ℝ) / 2 ^ 149) := by
    rw [le_div_iff₀ (by positivity), zero_mul]
    exact_mod_cast Iff.rfl
  simp [this]

/-- An activation that rounds `d` times: its error on one float, and its steepness. -/
theorem near_act (N d : Nat) (f f' : F32) (t X B e : ℝ) (v : ℝ → ℝ) (h : Near N f t X B) (hf : Finite f') (he : 0 ≤ e)
    (h1 : |real f' - v (real f)| ≤ (g d - 1) * |real f| + η * e) (hl : |v (real f) - v t| ≤ |real f - t|) (hv : |v t| ≤ |t|) :
    Near (N + d) f' (v t) X (B + e) := by
  have habs := h.abs
  obtain ⟨h2, h3, h4, h5⟩ := h
  have hη := η_pos
  have hg := g_one_le d
  have hgN := g_one_le N
  refine ⟨hf, le_trans hv h3, by linarith, ?_⟩
  rw [g_add]
  have e' : real f' - v t = (real f' - v (real f)) + (v (real f) - v t) := by ring
  rw [e']
  refine le_trans (abs_add_le _ _) ?_
  have k1 : (g d - 1) * |real f| ≤ (g d - 1) * (g N * (X + η * B)) := mul_le_mul_of_nonneg_left habs (by linarith)
  have k2 : η * e ≤ g N * g d * (η * e) := by
    have : 1 ≤ g N * g d := by nlinarith
    have h0 := mul_nonneg hη.le he
    nlinarith
  calc _ ≤ (g d - 1) * (g N * (X + η * B)) + g N * g d * (η * e) + ((g N - 1) * X + g N * (η * B)) := by linarith
    _ = (g N * g d - 1) * X + g N * g d * (η * (B + e)) := by ring

theorem near_relu (N : Nat) (f : F32) (t X B : ℝ) (h : Near N f t X B) : Near N (Act.relu.value f) (Activation.value .relu t) X B := by
  have hr : Finite (Act.relu.value f) ∧ real (Act.relu.value f) = Activation.value .relu (real f) := by
    show Finite (if F32.lt f 0 = true then 0 else f) ∧ real (if F32.lt f 0 = true then 0 else f) = if real f < 0 then 0 else real f
    rw [lt_zero f h.1]
    by_cases hn : real f < 0
    · simp only [hn, decide_true, if_true, real_zero]
      exact ⟨by decide, trivial⟩
    · simp only [hn, decide_false, Bool.false_eq_true, if_false]
      exact ⟨h.1, trivial⟩
  have := near_act N 0 f (Act.relu.value f) t X B 0 (Activation.value .relu) h hr.1 (le_refl _) (by rw [hr.2]; simp [g]) (by
    unfold Activation.value
    dsimp only
    split <;> split <;> rw [abs_le] <;> constructor <;> rcases abs_cases (real f - t) with ⟨q, _⟩ | ⟨q, _⟩ <;> linarith) (by
    unfold Activation.value
    dsimp only
    split
    · simp
    · exact le_refl _)
  simpa using this

/-- `0.01f` -/
theorem real_slope : real ⟨0x3C23D70A#32⟩ = 10737418 / 2 ^ 30 := by
  have : value 0x3C23D70A#32 = 10737418 * 2 ^ 119 := by decide +kernel
  unfold real
  rw [this]
  rw [Int.cast_mul, Int.cast_pow, show (149 : Nat) = 30 + 119 by rfl, pow_add]
  rw [show ((2 : Int) : ℝ) = 2 by norm_num, mul_div_mul_right _ _ (by positivity)]
  norm_num

theorem leaky_eq (f : F32) :
    Act.leaky.value f = F32.flag (F32.lt f 0) * ((⟨0x3C23D70A#32⟩ : F32) * f) + F32.flag (F32.ge f 0) * f := rfl

theorem near_leaky (N : Nat) (f : F32) (t X B : ℝ) (h : Near N f t X B) (hN : N ≤ 2 ^ 23) (hX : X ≤ 2 ^ 125) (hB : B ≤ 2 ^ 125) :
    Near (N + 2) (Act.leaky.value f) (Activation.value .leaky t) X (B + 1) := by
  have hη := η_pos
  have hu := u_pos
  have hη1 : η ≤ 1 := by unfold η; rw [div_le_one (by positivity)]; exact one_le_pow₀ (by norm_num)
  have hval : ∀ x, Activation.value .leaky x = if x < 0 then x / 100 else x := by
    intro x
    unfold Activation.value Activation.flag
    by_cases hx : x < 0
    · simp only [hx, not_le.mpr hx, if_true, if_false]; ring
    · simp only [hx, not_lt.mp hx, if_true, if_false]; ring
  have habs : |real f| ≤ 2 ^ 127 := by
    refine le_trans h.abs ?_
    have h0 : 0 ≤ X := le_trans (abs_nonneg _) h.2.1
    have h1 : η * B ≤ B := by nlinarith [h.2.2.1]
    have h2 : g N * (X + η * B) ≤ 2 * (X + η * B) := mul_le_mul_of_nonneg_right (g_le_two N hN) (by
      have := mul_nonneg hη.le h.2.2.1
      linarith)
    rw [show (2 : ℝ) ^ 127 = 4 * 2 ^ 125 by norm_num]
    linarith
  have hc : Finite ⟨0x3C23D70A#32⟩ := by decide
  have hslope := real_slope
  have hc1 : real ⟨0x3C23D70A#32⟩ ≤ 1 / 100 := by rw [hslope]; norm_num
  have hc0 : 0 ≤ real ⟨0x3C23D70A#32⟩ := by rw [hslope]; norm_num
  have hc2 : 1 / 100 - real ⟨0x3C23D70A#32⟩ ≤ u / 100 := by rw [hslope]; unfold u; norm_num
  generalize hcc : (⟨0x3C23D70A#32⟩ : F32) = c at hc hc0 hc1 hc2
  have hprod : |real c * real f| ≤ 1 / 100 * |real f| := by
    rw [abs_mul, abs_of_nonneg hc0]
    exact mul_le_mul_of_nonneg_right hc1 (abs_nonneg _)
  have habs0 := abs_nonneg (real f)
  obtain ⟨p1, p2⟩ := mul_spec c f hc h.1 (by linarith)
  have hr : Finite (Act.leaky.value f) ∧ |real (Act.leaky.value f) - Activation.value .leaky (real f)| ≤ (g 2 - 1) * |real f| + η * 1 := by
    have hg2 : g 2 - 1 = 2 * u + u * u := by unfold g; ring
    rw [leaky_eq, hcc, lt_zero f h.1, ge_zero f h.1, hval, hg2]
    by_cases hn : real f < 0
    · have hn' : ¬ 0 ≤ real f := not_le.mpr hn
      simp only [hn, hn', decide_true, decide_false, if_true]
      obtain ⟨q1, q2⟩ := one_mul_real (c * f) p1
      obtain ⟨q3, q4⟩ := zero_mul_real f h.1
      obtain ⟨q5, q6⟩ := add_exact _ _ (c * f) q1 q3 p1 (by rw [q2, q4, add_zero])
      refine ⟨q5, ?_⟩
      rw [q6]
      have e : real (c * f) - real f / 100 = (real (c * f) - real c * real f) + (real c - 1 / 100) * real f := by ring
      rw [e]
      refine le_trans (abs_add_le _ _) ?_
      have k1 : |(real c - 1 / 100) * real f| ≤ u / 100 * |real f| := by
        rw [abs_mul]
        refine mul_le_mul_of_nonneg_right ?_ habs0
        rw [abs_le]; constructor <;> linarith
      have k2 : u * |real c * real f| ≤ u * (1 / 100 * |real f|) := mul_le_mul_of_nonneg_left hprod hu.le
      have k3 : 0 ≤ u * |real f| := mul_nonneg hu.le habs0
      have k4 : 0 ≤ u * u * |real f| := mul_nonneg (mul_nonneg hu.le hu.le) habs0
      nlinarith
    · have hn' : 0 ≤ real f := not_lt.mp hn
      simp only [hn, hn', decide_true, decide_false, if_false]
      obtain ⟨q1, q2⟩ := one_mul_real f h.1
      obtain ⟨q3, q4⟩ := zero_mul_real (c * f) p1
      obtain ⟨q5, q6⟩ := add_exact _ _ f q3 q1 h.1 (by rw [q2, q4, zero_add])
      refine ⟨q5, ?_⟩
      rw [q6, sub_self, abs_zero]
      have k3 : 0 ≤ u * |real f| := mul_nonneg hu.le habs0
      have k4 : 0 ≤ u * u * |real f| := mul_nonneg (mul_nonneg hu.le hu.le) habs0
      linarith
  refine near_act N 2 f _ t X B 1 (Activation.value .leaky) h hr.1 (by norm_num) hr.2 ?_ ?_
  · rw [hval, hval]
    split <;> split <;> rw [abs_le] <;> constructor <;> rcases abs_cases (real f - t) with ⟨q, _⟩ | ⟨q, _⟩ <;> linarith
  · rw [hval]
    split
    · rename_i hx
      rw [abs_of_neg (by linarith), abs_of_neg hx]; linarith
    · exact le_refl _

end Verif.Rounding
