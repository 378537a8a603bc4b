import Verif.Model.Double
import Verif.Spec.Double
import Mathlib.Tactic.Linarith
import Mathlib.Tactic.Ring
import Mathlib.Tactic.Positivity
import Mathlib.Tactic.NormNum
import Mathlib.Tactic.FieldSimp

/-!
Rounding to a `double` gives the nearest number a `double` can hold; so it is monotone, leaves such numbers alone, and is off by at most half a unit in the last place.
-/
namespace Verif.Double

theorem two_zpow_pos (e : Int) : (0 : ℚ) < 2 ^ e := zpow_pos (by norm_num) e

theorem zpow_split {a b : Int} (h : a ≤ b) : (2 : ℚ) ^ b = (2 ^ (b - a).toNat : Int) * 2 ^ a := by
  push_cast
  rw [← zpow_natCast, ← zpow_add₀ (by norm_num)]
  congr 1
  omega

theorem nearest_spec (x : ℚ) : |x - nearest x| ≤ 1 / 2 := by
  have h1 := Int.floor_le x
  have h2 := Int.lt_floor_add_one x
  unfold nearest
  rw [abs_le]
  split_ifs <;> push_cast <;> constructor <;> linarith

theorem nearest_best (x : ℚ) (n : Int) : |x - nearest x| ≤ |x - n| := by
  have h := nearest_spec x
  by_cases hn : n = nearest x
  · rw [hn]
  · have h1 : (1 : ℚ) ≤ |(n : ℚ) - nearest x| := by
      have : (1 : Int) ≤ |n - nearest x| := Int.one_le_abs (sub_ne_zero.2 hn)
      exact_mod_cast this
    have h2 : |(n : ℚ) - nearest x| ≤ |x - n| + |x - nearest x| := by
      rw [show (n : ℚ) - nearest x = (x - nearest x) - (x - n) by ring]
      exact (abs_sub _ _).trans (by linarith [le_refl |x - (n:ℚ)|])
    linarith

theorem nearest_int (n : Int) : nearest n = n := by
  have h := nearest_best n n
  rw [sub_self, abs_zero] at h
  have := abs_nonpos_iff.1 h
  have : (n : ℚ) = nearest n := by linarith
  exact_mod_cast this.symm

theorem last_ge (x : ℚ) : -1074 ≤ last x := le_max_left _ _

/-- The exact error. -/
theorem rnd_near (x : ℚ) : |x - rnd x| ≤ 2 ^ last x / 2 := by
  unfold rnd
  have hp := two_zpow_pos (last x)
  have h := nearest_spec (x / 2 ^ last x)
  have e : x - nearest (x / 2 ^ last x) * 2 ^ last x = (x / 2 ^ last x - nearest (x / 2 ^ last x)) * 2 ^ last x := by
    field_simp
  rw [e, abs_mul, abs_of_pos hp]
  nlinarith

theorem rnd_zero : rnd 0 = 0 := by
  unfold rnd
  rw [zero_div, show (0 : ℚ) = ((0 : Int) : ℚ) by simp, nearest_int]
  simp

/-- Off by at most half a unit in the last place. -/
theorem rnd_error (x : ℚ) : |x - rnd x| ≤ 2 ^ (-53 : Int) * |x| + 2 ^ (-1075 : Int) := by
  have h0 := two_zpow_pos (-1075)
  rcases eq_or_ne x 0 with rfl | hx
  · rw [rnd_zero, sub_zero, abs_zero]
    linarith
  refine (rnd_near x).trans ?_
  have hx' : 0 < |x| := abs_pos.2 hx
  have hl := Int.zpow_log_le_self (b := 2) (by norm_num) hx'
  unfold last
  rcases le_total (Int.log 2 |x| - 52) (-1074) with h | h
  · rw [max_eq_left h]
    have : (2 : ℚ) ^ (-1074 : Int) / 2 = 2 ^ (-1075 : Int) := by
      rw [show (-1074 : Int) = -1075 + 1 by norm_num, zpow_add_one₀ (by norm_num)]
      ring
    rw [this]
    have := two_zpow_pos (-53)
    nlinarith
  · rw [max_eq_right h]
    have e : (2 : ℚ) ^ (Int.log 2 |x| - 52) / 2 = 2 ^ (-53 : Int) * 2 ^ Int.log 2 |x| := by
      rw [← zpow_add₀ (by norm_num), show Int.log 2 |x| - 52 = (-53 + Int.log 2 |x|) + 1 by ring, zpow_add_one₀ (by norm_num)]
      ring
    rw [e]
    have h2 : (2 : ℚ) ^ Int.log 2 |x| ≤ |x| := by exact_mod_cast hl
    have := two_zpow_pos (-53)
    nlinarith

/-! ### The nearest -/

theorem abs_nearest_le (x : ℚ) (n : Nat) (h : |x| ≤ n) : |nearest x| ≤ n := by
  have h1 := nearest_best x n
  have h2 := nearest_best x (-n)
  push_cast at h1 h2
  rw [abs_le] at h ⊢
  by_contra hc
  rw [not_and_or, not_le, not_le] at hc
  rcases hc with hc | hc
  · have hc' : ((nearest x : Int) : ℚ) ≤ -n - 1 := by exact_mod_cast Int.le_sub_one_of_lt hc
    rw [abs_of_nonneg (by linarith : (0 : ℚ) ≤ x - -(n : ℚ)), abs_of_nonneg (by linarith)] at h2
    linarith
  · have hc' : (n : ℚ) + 1 ≤ ((nearest x : Int) : ℚ) := by exact_mod_cast Int.add_one_le_of_lt hc
    rw [abs_of_nonpos (by linarith : x - (n : ℚ) ≤ 0), abs_of_nonpos (by linarith)] at h1
    linarith

theorem lt_last (x : ℚ) : |x| < 2 ^ (last x + 53) := by
  rcases eq_or_ne x 0 with rfl | hx
  · rw [abs_zero]; exact two_zpow_pos _
  have h := Int.lt_zpow_succ_log_self (b := 2) (by norm_num) |x|
  have h' : |x| < (2 : ℚ) ^ (Int.log 2 |x| + 1) := by exact_mod_cast h
  refine lt_of_lt_of_le h' (zpow_le_zpow_right₀ (by norm_num) ?_)
  unfold last
  have := le_max_right (-1074) (Int.log 2 |x| - 52)
  omega

theorem rep_rnd (x : ℚ) : Rep (rnd x) := by
  refine ⟨nearest (x / 2 ^ last x), last x, rfl, ?_, last_ge x⟩
  have hp := two_zpow_pos (last x)
  have : |x / 2 ^ last x| ≤ ((2 ^ 53 : Nat) : ℚ) := by
    rw [abs_div, abs_of_pos hp, div_le_iff₀ hp]
    refine (lt_last x).le.trans_eq ?_
    rw [zpow_add₀ (by norm_num), mul_comm]
    norm_num
  have := abs_nearest_le _ (2 ^ 53) this
  exact_mod_cast this

theorem rnd_best (x z : ℚ) (hz : Rep z) : |x - rnd x| ≤ |x - z| := by
  rcases eq_or_ne x 0 with rfl | hx
  · rw [rnd_zero, sub_zero, abs_zero]; exact abs_nonneg _
  have hp := two_zpow_pos (last x)
  have key : ∀ n : Int, |x - rnd x| ≤ |x - n * 2 ^ last x| := by
    intro n
    have h := nearest_best (x / 2 ^ last x) n
    have e : ∀ m : Int, x - m * 2 ^ last x = (x / 2 ^ last x - m) * 2 ^ last x := by intro m; field_simp
    unfold rnd
    rw [e, e, abs_mul, abs_mul]
    exact mul_le_mul_of_nonneg_right h (abs_nonneg _)
  obtain ⟨m, e, rfl, hm, he⟩ := hz
  rcases le_or_gt (last x) e with h | h
  · rw [zpow_split h, ← mul_assoc]
    have := key (m * 2 ^ (e - last x).toNat)
    push_cast at this ⊢
    exact this
  · -- the step is larger than that of `z`, so a power of two lies between
    have hl : last x = Int.log 2 |x| - 52 := by
      unfold last at h ⊢
      rcases le_total (Int.log 2 |x| - 52) (-1074) with h' | h'
      · rw [max_eq_left h'] at h; omega
      · exact max_eq_right h'
    have h1 : (2 : ℚ) ^ (last x + 52) ≤ |x| := by
      have := Int.zpow_log_le_self (b := 2) (by norm_num) (abs_pos.2 hx)
      rw [show last x + 52 = Int.log 2 |x| by omega]
      exact_mod_cast this
    have h2 : |(m : ℚ) * 2 ^ e| ≤ 2 ^ (last x + 52) := by
      have hm' : |(m : ℚ)| ≤ 2 ^ 53 := by exact_mod_cast hm
      rw [abs_mul, abs_of_pos (two_zpow_pos e)]
      calc |(m : ℚ)| * 2 ^ e ≤ 2 ^ 53 * 2 ^ e := mul_le_mul_of_nonneg_right hm' (two_zpow_pos e).le
        _ = 2 ^ (e + 53) := by rw [zpow_add₀ (by norm_num), mul_comm]; norm_num
        _ ≤ 2 ^ (last x + 52) := zpow_le_zpow_right₀ (by norm_num) (by omega)
    have h3 : (2 : ℚ) ^ (last x + 52) = ((2 ^ 52 : Int) : ℚ) * 2 ^ last x := by
      rw [zpow_add₀ (by norm_num), mul_comm]; norm_num
    rw [abs_le] at h2
    rcases lt_or_gt_of_ne hx with hneg | hpos
    · rw [abs_of_neg hneg] at h1
      have := key (-2 ^ 52)
      refine this.trans ?_
      push_cast at this h3 ⊢
      rw [neg_mul, ← h3, abs_of_nonpos (by linarith), abs_of_nonpos (by linarith)]
      linarith
    · rw [abs_of_pos hpos] at h1
      have := key (2 ^ 52)
      refine this.trans ?_
      rw [← h3, abs_of_nonneg (by linarith), abs_of_nonneg (by linarith)]
      linarith

theorem rnd_rep {x : ℚ} (h : Rep x) : rnd x = x := by
  have := rnd_best x x h
  rw [sub_self, abs_zero] at this
  have := abs_nonpos_iff.1 this
  linarith

theorem rnd_mono {x y : ℚ} (h : x ≤ y) : rnd x ≤ rnd y := by
  by_contra hc
  rw [not_le] at hc
  have h1 := rnd_best x _ (rep_rnd y)
  have h2 := rnd_best y _ (rep_rnd x)
  have hxy : x = y := by
    refine le_antisymm h ?_
    have h1 := sq_le_sq.2 h1
    have h2 := sq_le_sq.2 h2
    nlinarith
  rw [hxy] at hc
  exact lt_irrefl _ hc

theorem le_rnd {x z : ℚ} (hz : Rep z) (h : z ≤ x) : z ≤ rnd x := by rw [← rnd_rep hz]; exact rnd_mono h
theorem rnd_le {x z : ℚ} (hz : Rep z) (h : x ≤ z) : rnd x ≤ z := by rw [← rnd_rep hz]; exact rnd_mono h

/-! ### What can be held -/

theorem rep_zero : Rep 0 := ⟨0, 0, by simp, by norm_num, by norm_num⟩

theorem rep_pow {e : Int} (h : -1074 ≤ e) : Rep (2 ^ e) := ⟨1, e, by simp, by norm_num, h⟩

theorem Rep.neg {x : ℚ} (h : Rep x) : Rep (-x) := by
  obtain ⟨m, e, rfl, hm, he⟩ := h
  exact ⟨-m, e, by push_cast; ring, by rwa [abs_neg], he⟩

/-- Different numbers are at least 2^-1074 apart. -/
theorem Rep.apart {x y : ℚ} (hx : Rep x) (hy : Rep y) (h : x < y) : (2 : ℚ) ^ (-1074 : Int) ≤ y - x := by
  obtain ⟨m, e, rfl, _, he⟩ := hx
  obtain ⟨m', e', rfl, _, he'⟩ := hy
  rw [zpow_split he, zpow_split he'] at h ⊢
  rw [← mul_assoc, ← mul_assoc] at h ⊢
  rw [← sub_mul]
  have hp := two_zpow_pos (-1074)
  have h' := lt_of_mul_lt_mul_right h hp.le
  have : (1 : ℚ) ≤ (m' : ℚ) * ((2 ^ (e' - -1074).toNat : Int) : ℚ) - m * ((2 ^ (e - -1074).toNat : Int) : ℚ) := by
    have h2 : m * (2 ^ (e - -1074).toNat : Int) < m' * (2 ^ (e' - -1074).toNat : Int) := by exact_mod_cast h'
    have h3 : (1 : Int) ≤ m' * (2 ^ (e' - -1074).toNat : Int) - m * (2 ^ (e - -1074).toNat : Int) := by omega
    exact_mod_cast h3
  nlinarith

/-- A power of two below a difference. -/
theorem exists_pow {x : ℚ} (h : (2 : ℚ) ^ (-1074 : Int) ≤ x) : ∃ e : Int, -1074 ≤ e ∧ (2 : ℚ) ^ e ≤ x ∧ x < 2 ^ (e + 1) := by
  have hx : 0 < x := lt_of_lt_of_le (two_zpow_pos _) h
  have h1 : (2 : ℚ) ^ Int.log 2 x ≤ x := by exact_mod_cast Int.zpow_log_le_self (b := 2) (by norm_num) hx
  have h2 : x < (2 : ℚ) ^ (Int.log 2 x + 1) := by exact_mod_cast Int.lt_zpow_succ_log_self (b := 2) (by norm_num) x
  refine ⟨Int.log 2 x, ?_, h1, h2⟩
  have h3 : (2 : ℚ) ^ (-1074 : Int) < 2 ^ (Int.log 2 x + 1) := lt_of_le_of_lt h h2
  have := (zpow_lt_zpow_iff_right₀ (by norm_num : (1 : ℚ) < 2)).1 h3
  omega

/-- The step from an average towards the next value does not reach beyond it. -/
theorem step_between {a v : ℚ} (ha : Rep a) (hv : Rep v) (k : Nat) (hk : 2 ≤ k) :
    min a v ≤ a + rnd (rnd (v - a) / k) ∧ a + rnd (rnd (v - a) / k) ≤ max a v := by
  have hk' : (2 : ℚ) ≤ k := by exact_mod_cast hk
  have hk0 : (0 : ℚ) < k := by linarith
  rcases lt_trichotomy a v with h | h | h
  · rw [min_eq_left h.le, max_eq_right h.le]
    obtain ⟨e, he, h1, h2⟩ := exists_pow (ha.apart hv h)
    have d0 : 0 ≤ rnd (v - a) := le_rnd rep_zero (by linarith)
    have d1 : rnd (v - a) ≤ 2 ^ (e + 1) := rnd_le (rep_pow (by omega)) h2.le
    rw [zpow_add_one₀ (by norm_num)] at d1
    have q0 : 0 ≤ rnd (rnd (v - a) / k) := le_rnd rep_zero (by positivity)
    have q1 : rnd (rnd (v - a) / k) ≤ 2 ^ e := by
      refine rnd_le (rep_pow he) ?_
      rw [div_le_iff₀ hk0]
      have := two_zpow_pos e
      nlinarith
    constructor <;> linarith
  · subst h
    rw [sub_self, rnd_zero, zero_div, rnd_zero]
    simp
  · rw [min_eq_right h.le, max_eq_left h.le]
    obtain ⟨e, he, h1, h2⟩ := exists_pow (hv.apart ha h)
    have d0 : rnd (v - a) ≤ 0 := rnd_le rep_zero (by linarith)
    have d1 : -2 ^ (e + 1) ≤ rnd (v - a) := le_rnd (rep_pow (by omega)).neg (by linarith)
    rw [zpow_add_one₀ (by norm_num)] at d1
    have q0 : rnd (rnd (v - a) / k) ≤ 0 := rnd_le rep_zero (div_nonpos_of_nonpos_of_nonneg d0 hk0.le)
    have q1 : -2 ^ e ≤ rnd (rnd (v - a) / k) := by
      refine le_rnd (rep_pow he).neg ?_
      rw [le_div_iff₀ hk0]
      have := two_zpow_pos e
      nlinarith
    constructor <;> linarith

end Verif.Double
