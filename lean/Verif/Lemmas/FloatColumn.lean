import Verif.Model.FloatColumn
import Verif.Lemmas.FloatNormalize
import Verif.Lemmas.FloatUpdate

/-!
Lemmas for dataset columns in 32-bit floats.
-/
namespace Verif.FloatColumn
open Verif Double Statistics FloatStatistics FloatBits Rounding FloatOrder FloatActivation

/-! ### The root -/

theorem root_mantissa (x : ℚ) (hx : 0 < x) : ∃ r : Nat, root x = some ((r : ℚ) * 2 ^ rootLast x) ∧ 2 ^ 52 ≤ r ∧ r ≤ 2 ^ 53 ∧
    ((r : ℚ) - 1 / 2) ^ 2 ≤ x / 4 ^ rootLast x ∧ x / 4 ^ rootLast x ≤ ((r : ℚ) + 1 / 2) ^ 2 := by
  have h4 : ∀ e : Int, (4 : ℚ) ^ e = 2 ^ (2 * e) := fun e => by
    rw [zpow_mul]
    norm_num
  have hp : (0 : ℚ) < 4 ^ rootLast x := zpow_pos (by norm_num) _
  have l1 : (2 : ℚ) ^ Int.log 2 x ≤ x := by exact_mod_cast Int.zpow_log_le_self (b := 2) (by norm_num) hx
  have l2 : x < (2 : ℚ) ^ (Int.log 2 x + 1) := by exact_mod_cast Int.lt_zpow_succ_log_self (b := 2) (by norm_num) x
  have y1 : (2 : ℚ) ^ 104 ≤ x / 4 ^ rootLast x := by
    rw [le_div_iff₀ hp, h4]
    refine le_trans ?_ l1
    rw [← zpow_natCast, ← zpow_add₀ (by norm_num)]
    refine zpow_le_zpow_right₀ (by norm_num) ?_
    unfold rootLast
    push_cast
    omega
  have y2 : x / 4 ^ rootLast x < (2 : ℚ) ^ 106 := by
    rw [div_lt_iff₀ hp, h4]
    refine lt_of_lt_of_le l2 ?_
    rw [← zpow_natCast, ← zpow_add₀ (by norm_num)]
    refine zpow_le_zpow_right₀ (by norm_num) ?_
    unfold rootLast
    push_cast
    omega
  unfold root
  generalize hy : x / 4 ^ rootLast x = y at *
  have y0 : 0 ≤ y := le_trans (by positivity) y1
  have f1 : (⌊y⌋₊ : ℚ) ≤ y := Nat.floor_le y0
  have f2 : y < ⌊y⌋₊ + 1 := Nat.lt_floor_add_one y
  have n1 : 2 ^ 104 ≤ ⌊y⌋₊ := Nat.le_floor (by exact_mod_cast y1)
  have n2 : ⌊y⌋₊ < 2 ^ 106 := (Nat.floor_lt y0).2 (by exact_mod_cast y2)
  generalize ⌊y⌋₊ = n at *
  have q1 : Nat.sqrt n * Nat.sqrt n ≤ n := Nat.sqrt_le n
  have q2 : n < (Nat.sqrt n + 1) * (Nat.sqrt n + 1) := Nat.sqrt_lt.1 (Nat.lt_succ_self _)
  have m1 : 2 ^ 52 ≤ Nat.sqrt n := Nat.le_sqrt.2 (le_trans (by norm_num) n1)
  have m2 : Nat.sqrt n < 2 ^ 53 := Nat.sqrt_lt.2 (lt_of_lt_of_le n2 (by norm_num))
  generalize Nat.sqrt n = m at *
  have q1' : (m : ℚ) * m ≤ y := le_trans (by exact_mod_cast q1) f1
  have q2' : y < ((m : ℚ) + 1) * (m + 1) := by
    refine lt_of_lt_of_le f2 ?_
    exact_mod_cast q2
  have m0 : (0 : ℚ) ≤ m := Nat.cast_nonneg m
  have m1' : (1 : ℚ) ≤ m := by exact_mod_cast (le_trans (by norm_num) m1 : 1 ≤ m)
  clear y1 y2 n1 n2
  rw [if_neg (not_lt.2 hx.le)]
  by_cases h : ((m : ℚ) + 1 / 2) ^ 2 < y
  · refine ⟨m + 1, by simp only [h, if_true]; push_cast; rfl, by omega, by omega, ?_, ?_⟩
    · push_cast
      nlinarith
    · push_cast
      nlinarith
  · refine ⟨m, by simp only [h, if_false], m1, by omega, ?_, not_lt.1 h⟩
    nlinarith

/-- The root is positive, its square is the number up to a small error, and it does not pass a power of 2. -/
theorem root_facts (x : ℚ) (hx : 0 < x) : ∃ d, root x = some d ∧ 0 < d ∧ |d ^ 2 - x| ≤ d ^ 2 / 2 ^ 51 ∧ ∀ k : Int, x ≤ 2 ^ (2 * k) → d ≤ 2 ^ k := by
  obtain ⟨r, h1, h2, -, h4, h5⟩ := root_mantissa x hx
  have hp : (0 : ℚ) < 2 ^ rootLast x := two_zpow_pos _
  have e4 : (4 : ℚ) ^ rootLast x = (2 ^ rootLast x) ^ 2 := by rw [← zpow_natCast, ← zpow_mul, mul_comm, zpow_mul]; norm_num
  rw [e4] at h4 h5
  have r52 : ((2 : ℚ) ^ 52) ≤ r := by exact_mod_cast h2
  have r1 : (1 : ℚ) ≤ r := le_trans (by norm_num) r52
  refine ⟨r * 2 ^ rootLast x, h1, mul_pos (by linarith) hp, ?_, ?_⟩
  · clear h1
    generalize rootLast x = e at *
    have hq : (0 : ℚ) < (2 ^ e) ^ 2 := by positivity
    have hxy : x = x / (2 ^ e) ^ 2 * (2 ^ e) ^ 2 := by field_simp
    generalize x / (2 ^ e) ^ 2 = y at *
    rw [hxy, mul_pow]
    generalize ((2 : ℚ) ^ e) ^ 2 = q at *
    rw [← sub_mul, abs_mul, abs_of_pos hq, mul_div_right_comm]
    refine mul_le_mul_of_nonneg_right ?_ hq.le
    have rr : (r : ℚ) ≤ r ^ 2 / 2 ^ 52 := by
      rw [le_div_iff₀ (by positivity), pow_two]
      exact mul_le_mul_of_nonneg_left r52 (by linarith)
    rw [abs_le]
    constructor <;> nlinarith
  · intro k hk
    by_contra hc
    rw [not_le] at hc
    have hke : rootLast x ≤ k := by
      by_contra hlt
      have l1 : (2 : ℚ) ^ Int.log 2 x ≤ x := by exact_mod_cast Int.zpow_log_le_self (b := 2) (by norm_num) hx
      have := (zpow_le_zpow_iff_right₀ (by norm_num : (1 : ℚ) < 2)).1 (l1.trans hk)
      unfold rootLast at hlt
      omega
    obtain ⟨j, hj⟩ := Int.eq_ofNat_of_zero_le (sub_nonneg.2 hke)
    have ek : (2 : ℚ) ^ k = ((2 ^ j : Nat) : ℚ) * 2 ^ rootLast x := by
      rw [show k = (j : Int) + rootLast x by omega, zpow_add₀ (by norm_num), zpow_natCast]
      push_cast
      rfl
    rw [ek] at hc
    have hlt : 2 ^ j < r := by exact_mod_cast lt_of_mul_lt_mul_right hc hp.le
    have hlt' : (((2 ^ j : Nat) : ℚ)) + 1 ≤ r := by exact_mod_cast hlt
    have e2k : (2 : ℚ) ^ (2 * k) = ((2 ^ j : Nat) : ℚ) ^ 2 * (2 ^ rootLast x) ^ 2 := by
      rw [← mul_pow, ← ek, mul_comm, zpow_mul, zpow_ofNat]
    rw [e2k] at hk
    have hj0 : (0 : ℚ) ≤ ((2 ^ j : Nat) : ℚ) := Nat.cast_nonneg _
    generalize ((2 ^ j : Nat) : ℚ) = J at *
    rw [← div_le_iff₀ (by positivity)] at hk
    nlinarith

theorem root_zero : root 0 = some 0 := by
  unfold root
  rw [if_neg (lt_irrefl _), zero_div]
  simp

/-! ### The variance of a column is at most the square of its range -/

/-- The sum of squares, for values in a range. -/
theorem squares_le (lo hi : ℚ) (e : Int) (he : -500 ≤ e) (hR : hi - lo ≤ 2 ^ e) (vs : List ℚ) : ∀ s s' : Running, Rep s.mean → (s.total = 0 → s.mean = 0) →
    (0 < s.total → lo ≤ s.mean ∧ s.mean ≤ hi) → s.m2 ≤ s.total * 2 ^ (2 * e) → (∀ v ∈ vs, Rep v ∧ lo ≤ v ∧ v ≤ hi) → s.total + vs.length ≤ 2 ^ 53 →
      vs.foldlM Running.step s = some s' → s'.m2 ≤ s'.total * 2 ^ (2 * e) := by
  induction vs with
  | nil =>
    intro s s' _ _ _ h _ _ hs
    obtain rfl : s = s' := Option.some.inj hs
    exact h
  | cons v vs ih =>
    intro s s' hrep h0 hb hm hv hlen hs
    rw [List.length_cons] at hlen
    obtain ⟨rv, v1, v2⟩ := hv v (by simp)
    rw [List.foldlM_cons] at hs
    cases hst : s.step v with
    | none => rw [hst] at hs; simp at hs
    | some t =>
      rw [hst] at hs
      have hop : ∀ x y, op x = some y → y = rnd x := by
        intro x y h
        unfold op at h
        split at h
        · exact (Option.some.inj h).symm
        · cases h
      have ht : t.mean = next s.mean s.total v ∧ t.total = s.total + 1 ∧ t.m2 = rnd (s.m2 + rnd (rnd (v - s.mean) * rnd (v - next s.mean s.total v))) := by
        unfold Running.step at hst
        cases h1 : op (v - s.mean) with
        | none => rw [h1] at hst; cases hst
        | some delta =>
        rw [h1] at hst
        simp only [Option.bind_eq_bind, Option.bind_some] at hst
        cases h2 : op (delta / (s.total + 1 : Nat)) with
        | none => rw [h2] at hst; cases hst
        | some q =>
        rw [h2, Option.bind_some] at hst
        cases h3 : op (s.mean + q) with
        | none => rw [h3] at hst; cases hst
        | some mean =>
        rw [h3, Option.bind_some] at hst
        cases h4 : op (v - mean) with
        | none => rw [h4] at hst; cases hst
        | some delta2 =>
        rw [h4, Option.bind_some] at hst
        cases h5 : op (delta * delta2) with
        | none => rw [h5] at hst; cases hst
        | some p =>
        rw [h5, Option.bind_some] at hst
        cases h6 : op (s.m2 + p) with
        | none => rw [h6] at hst; cases hst
        | some m2 =>
        rw [h6, Option.bind_some] at hst
        obtain rfl := Option.some.inj hst
        have k1 := hop _ _ h1
        have k2 := hop _ _ h2
        have k3 := hop _ _ h3
        have k4 := hop _ _ h4
        have k5 := hop _ _ h5
        have k6 := hop _ _ h6
        subst k1 k2
        have k3' : mean = next s.mean s.total v := k3
        subst k3'
        subst k4 k5
        exact ⟨rfl, rfl, k6⟩
      obtain ⟨t1, t2, t3⟩ := ht
      have hn : lo ≤ next s.mean s.total v ∧ next s.mean s.total v ≤ hi := by
        rcases Nat.eq_zero_or_pos s.total with h | h
        · rw [h0 h, h, next_zero v rv]
          exact ⟨v1, v2⟩
        · obtain ⟨b1, b2⟩ := hb h
          obtain ⟨n1, n2⟩ := next_between hrep rv s.total h
          exact ⟨(le_min b1 v1).trans n1, n2.trans (max_le b2 v2)⟩
      have hprod : rnd (rnd (v - s.mean) * rnd (v - next s.mean s.total v)) ≤ 2 ^ (2 * e) := by
        refine rnd_le (rep_pow (by omega)) ?_
        rcases Nat.eq_zero_or_pos s.total with h | h
        · rw [h0 h, h, next_zero v rv, sub_self, rnd_zero, mul_zero]
          exact (two_zpow_pos _).le
        · obtain ⟨b1, b2⟩ := hb h
          have a1 : |rnd (v - s.mean)| ≤ 2 ^ e := abs_rnd_le (by omega) (abs_le.2 ⟨by linarith, by linarith⟩)
          have a2 : |rnd (v - next s.mean s.total v)| ≤ 2 ^ e := abs_rnd_le (by omega) (abs_le.2 ⟨by linarith, by linarith⟩)
          refine (le_abs_self _).trans ?_
          rw [abs_mul, two_mul, zpow_add₀ (by norm_num)]
          exact mul_le_mul a1 a2 (abs_nonneg _) (two_zpow_pos _).le
      refine ih t s' (t1 ▸ next_rep _ _ _) (fun h => absurd h (by omega)) (fun _ => t1 ▸ hn) ?_ (fun w hw => hv w (List.mem_cons_of_mem _ hw)) (by omega) hs
      rw [t3, t2]
      refine rnd_le ⟨(s.total + 1 : Nat), 2 * e, by rw [Int.cast_natCast], ?_, by omega⟩ ?_
      · rw [Nat.abs_cast]
        exact_mod_cast (by omega : s.total + 1 ≤ 2 ^ 53)
      · push_cast
        linarith

/-! ### Quotients of floats -/

theorem div_spec (a b : F32) (ha : Finite a) (hb : Finite b) (hb0 : real b ≠ 0) (h : |real a / real b| ≤ 2 ^ 127) :
    Finite (a / b) ∧ |real (a / b) - real a / real b| ≤ u * |real a / real b| + η := by
  obtain ⟨a1, a2⟩ := finite_not a ha
  obtain ⟨b1, b2⟩ := finite_not b hb
  have hbu : 0 < b.units := by
    rcases Nat.eq_zero_or_pos b.units with h0 | h0
    · exact absurd (abs_eq_zero.1 (by rw [abs_real, h0]; simp)) hb0
    · exact h0
  have e : a / b = F32.rounded (neg a.bits != neg b.bits) (a.units * 2 ^ 149) b.units := by
    show F32.div a b = _
    unfold F32.div
    rw [a1, a2, b1, b2]
    simp only [Bool.or_self, Bool.false_eq_true, if_false]
    rw [if_neg (by omega)]
  have hq : ((a.units * 2 ^ 149 : Nat) : ℝ) / (b.units : Nat) / 2 ^ 149 = |real a / real b| := by
    rw [abs_div, abs_real, abs_real]
    have : (0 : ℝ) < (b.units : ℝ) := by exact_mod_cast hbu
    rw [Nat.cast_mul, Nat.cast_pow, Nat.cast_ofNat]
    have hp : (0 : ℝ) < 2 ^ 149 := by positivity
    generalize (2 : ℝ) ^ 149 = p at *
    field_simp
  have hs : (if (neg a.bits != neg b.bits) = true then (-1 : ℝ) else 1) * |real a / real b| = real a / real b := by
    rw [abs_div, abs_real, abs_real, real_units a, real_units b]
    cases neg a.bits <;> cases neg b.bits <;> simp [neg_div, div_neg]
  obtain ⟨r1, r2⟩ := rounded_real (neg a.bits != neg b.bits) (a.units * 2 ^ 149) b.units hbu (by rw [hq]; exact h)
  rw [hq, hs, ← e] at r2
  rw [← e] at r1
  refine ⟨r1, r2.trans ?_⟩
  have hη : (if b.units = 1 then (0 : ℝ) else η) ≤ η := by split <;> [exact η_pos.le; exact le_refl _]
  linarith

/-! ### Errors -/

/-- Standardizing: `d` and `z` are the rounded difference and quotient. -/
theorem standardize_error (v m sd M d z : ℝ) (hM : 1 / 2 ≤ M) (hsd : 1 ≤ sd) (hsd' : sd ≤ 6 * M) (hv : |v - m| ≤ 2 * M) (hd : |d - (v - m)| ≤ u * |v - m|)
    (hz : |z - d / sd| ≤ u * |d / sd| + η) : |z * sd - (v - m)| ≤ 17 / 4 * (u * M) ∧ |z| * sd ≤ 2 * M + 17 / 4 * (u * M) ∧ |z| ≤ 2 * M + 17 / 4 * (u * M) := by
  have hu := u_pos
  have hη := η_pos
  have hu' : u ≤ 1 / 1000 := by unfold u; norm_num
  have hη' : η ≤ u / 100 := by unfold η u; norm_num
  have uM : 0 < u * M := mul_pos hu (by linarith)
  have d1 : |d - (v - m)| ≤ 2 * (u * M) := hd.trans (by nlinarith)
  have d2 : |d| ≤ 2 * M + 2 * (u * M) := by
    have := abs_add_le (d - (v - m)) (v - m)
    rw [sub_add_cancel] at this
    linarith
  have z1 : |z * sd - d| ≤ u * |d| + η * sd := by
    have e : z * sd - d = (z - d / sd) * sd := by field_simp
    rw [e, abs_mul, abs_of_pos (by linarith : 0 < sd)]
    refine (mul_le_mul_of_nonneg_right hz (by linarith)).trans (le_of_eq ?_)
    rw [abs_div, abs_of_pos (by linarith : 0 < sd)]
    field_simp
  have z2 : u * |d| ≤ 2 * (u * M) + 2 / 1000 * (u * M) := by
    have h1 := mul_le_mul_of_nonneg_left d2 hu.le
    have h2 : u * (u * M) ≤ 1 / 1000 * (u * M) := mul_le_mul_of_nonneg_right hu' uM.le
    linarith
  have z3 : η * sd ≤ 6 / 100 * (u * M) := by
    have h1 := mul_le_mul_of_nonneg_left hsd' hη.le
    have h2 := mul_le_mul_of_nonneg_right hη' (by linarith : 0 ≤ 6 * M)
    linarith
  have E : |z * sd - (v - m)| ≤ 17 / 4 * (u * M) := by
    have := abs_sub_le (z * sd) d (v - m)
    linarith
  have F : |z| * sd ≤ 2 * M + 17 / 4 * (u * M) := by
    have := abs_add_le (z * sd - (v - m)) (v - m)
    rw [sub_add_cancel, abs_mul, abs_of_pos (by linarith : 0 < sd)] at this
    linarith
  refine ⟨E, F, le_trans ?_ F⟩
  exact le_mul_of_one_le_right (abs_nonneg z) hsd

/-- Normalizing with a range that has nothing to do with the number, and undoing it. -/
theorem normalize_error (z l r M x y p : ℝ) (hM : 1 / 2 ≤ M) (hl : |l| ≤ M) (hr : 0 < r) (hr' : r ≤ 4 * M) (hx : |x - (z - l)| ≤ u * |z - l|)
    (hy : |y - x / r| ≤ u * |x / r| + η) (hp : |p - y * r| ≤ u * |y * r| + η) :
    |p + l - z| ≤ 301 / 100 * (u * |z|) + 302 / 100 * (u * M) ∧ ∀ w, |w - (p + l)| ≤ u * |p + l| → |w - z| ≤ 402 / 100 * (u * |z|) + 303 / 100 * (u * M) := by
  have hu := u_pos
  have hη := η_pos
  have hu' : u ≤ 1 / 1000 := by unfold u; norm_num
  have hη' : η ≤ u / 10000 := by unfold η u; norm_num
  have uM : 0 < u * M := mul_pos hu (by linarith)
  have hX : |z - l| ≤ |z| + M := (abs_sub z l).trans (by linarith)
  obtain ⟨X, hXe⟩ : ∃ X, X = |z - l| := ⟨_, rfl⟩
  have X0 : 0 ≤ X := by rw [hXe]; exact abs_nonneg _
  rw [← hXe] at hX hx
  have uX : 0 ≤ u * X := mul_nonneg hu.le X0
  have small : ∀ t, 0 ≤ t → u * (u * t) ≤ 1 / 1000 * (u * t) := fun t ht => mul_le_mul_of_nonneg_right hu' (mul_nonneg hu.le ht)
  have uX' := small X X0
  have uz' := small |z| (abs_nonneg z)
  have uM' := small M (by linarith)
  have uXM : u * X ≤ u * |z| + u * M := by
    have := mul_le_mul_of_nonneg_left hX hu.le
    linarith
  have hηr : η * r ≤ 4 / 10000 * (u * M) := by
    have h1 := mul_le_mul_of_nonneg_left hr' hη.le
    have h2 := mul_le_mul_of_nonneg_right hη' (by linarith : 0 ≤ 4 * M)
    linarith
  have hη2 : η ≤ 2 / 10000 * (u * M) := by
    have h1 := mul_le_mul_of_nonneg_left hM hu.le
    linarith
  have hxX : u * |x| ≤ u * X + 1 / 1000 * (u * X) := by
    have h1 : |x| ≤ X + u * X := by
      have := abs_add_le (x - (z - l)) (z - l)
      rw [sub_add_cancel, ← hXe] at this
      linarith
    have := mul_le_mul_of_nonneg_left h1 hu.le
    linarith
  have y1 : |y * r - x| ≤ u * |x| + η * r := by
    have e : y * r - x = (y - x / r) * r := by field_simp
    rw [e, abs_mul, abs_of_pos hr]
    refine (mul_le_mul_of_nonneg_right hy hr.le).trans (le_of_eq ?_)
    rw [abs_div, abs_of_pos hr]
    field_simp
  have y2 : |y * r - (z - l)| ≤ 2001 / 1000 * (u * X) + 4 / 10000 * (u * M) := by
    have := abs_sub_le (y * r) x (z - l)
    linarith
  have y3 : u * |y * r| ≤ u * X + 3 / 1000 * (u * X) + 1 / 10000 * (u * M) := by
    have h1 := abs_add_le (y * r - (z - l)) (z - l)
    rw [sub_add_cancel, ← hXe] at h1
    have h2 := mul_le_mul_of_nonneg_left (h1.trans (add_le_add_left y2 X)) hu.le
    linarith
  have uz : 0 ≤ u * |z| := mul_nonneg hu.le (abs_nonneg z)
  have p1 : |p + l - z| ≤ 301 / 100 * (u * |z|) + 302 / 100 * (u * M) := by
    have h1 := abs_sub_le p (y * r) (z - l)
    rw [show p + l - z = p - (z - l) by ring]
    linarith
  refine ⟨p1, fun w hw => ?_⟩
  have h1 := abs_sub_le w (p + l) z
  have h2 := abs_add_le (p + l - z) z
  rw [sub_add_cancel] at h2
  have h3 := mul_le_mul_of_nonneg_left (h2.trans (add_le_add_left p1 |z|)) hu.le
  linarith

/-- Everything: standardizing, normalizing, and undoing both; `w` is the number after undoing the second, `q` its product with the deviation. -/
theorem column_error (v m sd M z w q : ℝ) (hM : 1 / 2 ≤ M) (hsd : 1 ≤ sd) (hv : |v| ≤ M) (h1 : |z * sd - (v - m)| ≤ 17 / 4 * (u * M))
    (h2 : |z| * sd ≤ 2 * M + 17 / 4 * (u * M)) (h3 : |w - z| ≤ 402 / 100 * (u * |z|) + 303 / 100 * (u * M)) :
    |w * sd| ≤ 3 * M + 4 * (u * (M * sd)) ∧ (|q - w * sd| ≤ u * |w * sd| + η → |q + m| ≤ 2 * M + 4 * (u * (M * sd)) ∧
      ∀ r, |r - (q + m)| ≤ u * |q + m| → |r - v| ≤ (4 + sd) * M / 2 ^ 22) := by
  have hu := u_pos
  have hη := η_pos
  have hu' : u ≤ 1 / 1000 := by unfold u; norm_num
  have hη' : η ≤ u / 10000 := by unfold η u; norm_num
  have uM : 0 < u * M := mul_pos hu (by linarith)
  have uMM : u * M ≤ 1 / 1000 * M := mul_le_mul_of_nonneg_right hu' (by linarith)
  have small : ∀ t, 0 ≤ t → u * (u * t) ≤ 1 / 1000 * (u * t) := fun t ht => mul_le_mul_of_nonneg_right hu' (mul_nonneg hu.le ht)
  have Msd : 0 ≤ M * sd := mul_nonneg (by linarith) (by linarith)
  have uM' := small M (by linarith)
  have uMs := small (M * sd) Msd
  have hη2 : η ≤ 2 / 10000 * (u * M) := by
    have h1 := mul_le_mul_of_nonneg_left hM hu.le
    linarith
  have w1 : |w * sd - z * sd| ≤ 81 / 10 * (u * M) + 303 / 100 * (u * (M * sd)) := by
    rw [← sub_mul, abs_mul, abs_of_pos (by linarith : 0 < sd)]
    refine (mul_le_mul_of_nonneg_right h3 (by linarith)).trans ?_
    have := mul_le_mul_of_nonneg_left h2 hu.le
    have e : (402 / 100 * (u * |z|) + 303 / 100 * (u * M)) * sd = 402 / 100 * (u * (|z| * sd)) + 303 / 100 * (u * (M * sd)) := by ring
    rw [e]
    linarith
  have w2 : |w * sd| ≤ 2 * M + 13 * (u * M) + 303 / 100 * (u * (M * sd)) := by
    have h5 := abs_add_le (w * sd - z * sd) (z * sd)
    rw [sub_add_cancel, abs_mul z sd, abs_of_pos (by linarith : 0 < sd)] at h5
    linarith
  have uMs0 : 0 ≤ u * (M * sd) := mul_nonneg hu.le Msd
  refine ⟨by linarith, fun hq => ?_⟩
  have q1 : |q - w * sd| ≤ 202 / 100 * (u * M) + 1 / 100 * (u * (M * sd)) := by
    have := mul_le_mul_of_nonneg_left w2 hu.le
    linarith
  have q2 : |q + m - v| ≤ 144 / 10 * (u * M) + 304 / 100 * (u * (M * sd)) := by
    have e : q + m - v = (q - w * sd) + (w * sd - z * sd) + (z * sd - (v - m)) := by ring
    rw [e]
    have t1 := abs_add_le ((q - w * sd) + (w * sd - z * sd)) (z * sd - (v - m))
    have t2 := abs_add_le (q - w * sd) (w * sd - z * sd)
    linarith
  have q3 : |q + m| ≤ M + (144 / 10 * (u * M) + 304 / 100 * (u * (M * sd))) := by
    have := abs_add_le (q + m - v) v
    rw [sub_add_cancel] at this
    linarith
  refine ⟨by linarith, fun r hr => ?_⟩
  have h5 := abs_sub_le r (q + m) v
  have h6 := mul_le_mul_of_nonneg_left q3 hu.le
  have e : (4 + sd) * M / 2 ^ 22 = 16 * (u * M) + 4 * (u * (M * sd)) := by
    unfold u
    ring
  rw [e]
  linarith

/-! ### Numbers that vanish -/

theorem val_inj_neg (a b : F32) (h : val a = val b) (h0 : val b ≠ 0) : a = b := by
  rcases lt_or_gt_of_ne h0 with h1 | h1
  · have := val_inj a.negate b.negate (by rw [negate_val, negate_val, h]) (by rw [negate_val]; omega)
    have e : ∀ x : F32, x.negate.negate = x := by
      intro x
      show (⟨(x.bits ^^^ 0x80000000#32) ^^^ 0x80000000#32⟩ : F32) = x
      rw [BitVec.xor_assoc, BitVec.xor_self, BitVec.xor_zero]
    rw [← e a, this, e b]
  · exact val_inj a b h h1

/-- A number that is small against another one vanishes when this is subtracted. -/
theorem vanish (z l : F32) (hz : Finite z) (hl : Finite l) (h : |real z| * 2 ^ 26 < |real l|) (hb : |real l| ≤ 2 ^ 126) : z - l = F32.negate l := by
  obtain ⟨n1, n2⟩ := negate_spec l hl
  have hsum : |real z - real l| ≤ 2 ^ 127 := by
    refine (abs_sub _ _).trans ?_
    have e : (2 : ℝ) ^ 127 = 2 ^ 126 + 2 ^ 126 := by norm_num
    rw [e]
    have : |real z| ≤ |real l| := by
      have := abs_nonneg (real z)
      linarith
    linarith
  have near := sub_nearest z l l.negate hz hl n1 hsum
  rw [n2, show -real l - (real z - real l) = -real z by ring, abs_neg] at near
  have dist : |real (z - l) - real l.negate| ≤ 2 * |real z| := by
    rw [n2, show real (z - l) - -real l = (real (z - l) - (real z - real l)) + real z by ring]
    have := abs_add_le (real (z - l) - (real z - real l)) (real z)
    linarith
  by_contra hne
  have hv : val l.negate ≠ 0 := by
    intro h0
    have : real l.negate = 0 := by rw [real_val, h0]; simp
    rw [n2, neg_eq_zero] at this
    rw [this, abs_zero] at h
    have := abs_nonneg (real z)
    linarith
  have hval : value l.negate.bits ≠ value (z - l).bits := fun he => hne (val_inj_neg _ _ he.symm hv)
  have g := gap l.negate (z - l) hval
  have g' : |real l.negate| ≤ 2 ^ 25 * |real l.negate - real (z - l)| := by
    rw [abs_real, real_val, real_val, ← sub_div, abs_div, abs_of_pos (show (0 : ℝ) < 2 ^ 149 by positivity), ← mul_div_assoc]
    refine div_le_div_of_nonneg_right ?_ (by positivity)
    have e : |(val l.negate : ℝ) - (val (z - l) : ℝ)| = (((val l.negate - val (z - l)).natAbs : Nat) : ℝ) := by
      rw [← Int.cast_sub, ← Int.cast_abs, ← Int.cast_natCast, Int.natCast_natAbs]
    rw [e]
    exact_mod_cast g
  rw [n2, abs_neg] at g'
  rw [n2, abs_sub_comm] at dist
  have : (2 : ℝ) ^ 25 * |-real l - real (z - l)| ≤ 2 ^ 25 * (2 * |real z|) := mul_le_mul_of_nonneg_left dist (by positivity)
  have e : (2 : ℝ) ^ 25 * (2 * |real z|) = |real z| * 2 ^ 26 := by ring
  linarith

end Verif.FloatColumn
