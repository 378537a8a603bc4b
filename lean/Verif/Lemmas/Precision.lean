import Verif.Spec.Precision
import Verif.Lemmas.FloatElement
import Verif.Lemmas.Materialize
import Verif.Props.C68_Activation
import Mathlib.Analysis.Calculus.MeanValue

/-! Helper lemmas for C130. -/
namespace Verif.Precision
open Verif Rounding FloatBits QuarterFloat

/-! ### 8 bits -/

theorem expo_units (x : BitVec 32) (h : expo x ≠ 0) : 2 ^ 23 * 2 ^ (expo x - 1) ≤ (value x).natAbs := by
  rw [natAbs_value, ← magUnits_eq]
  unfold magUnits
  rw [if_neg h]
  exact Nat.mul_le_mul_right _ (by omega)

theorem small_roundTrip (x : BitVec 32) (b : Nat) (hb1 : 1 ≤ b) (hb : b ≤ 15) (hx : isFinite x = true)
    (hlo : (value x).natAbs < 17 * 2 ^ (145 - b)) : 0 ≤ value (roundTrip x b) ∧ (value (roundTrip x b)).natAbs ≤ 2 ^ (150 - b) := by
  have hup : magOf ((128 - b) * 2 ^ 23) = 2 ^ (150 - b) := by interval_cases b <;> decide
  obtain ⟨hx1, hmag, hf, he, hs⟩ := fields x
  have hrt := roundTrip_finite x b hb1 hb hx
  have hr := rnd_le _ hf
  rw [natAbs_value, ← magOf_low b hb, ← not_le, magOf_le_iff, not_le, hmag] at hlo
  have key : (roundTrip x b).toNat ≤ (128 - b) * 2 ^ 23 := by
    rw [hrt]
    rcases (by omega : sgn x = 0 ∨ sgn x = 1) with h0 | h0
    · rw [h0]
      have h1 := encN_cases b (x ≠ 0) 0 (expo x) (frac x) (by omega) hf hb1 hb
      have h2 := decN_cases b (encN b (x ≠ 0) 0 (expo x) (frac x)) (encN_not_special b _ _ _ _ hb1 hb (by omega) hf).1
      have h3 := rnd_cases (frac x)
      generalize encN b (x ≠ 0) 0 (expo x) (frac x) = q at *
      generalize decN b q = d at *
      generalize rnd (frac x) = m at *
      rcases h1 with ⟨a1, a2⟩ | ⟨a1, a2⟩ | ⟨a1, a3, _, a4, a2⟩ | ⟨a1, a3, _, a2⟩ | ⟨a1, a3, _, a4, a5, a2⟩ <;>
      rcases h2 with ⟨c1, c2⟩ | ⟨c1, c2⟩ | ⟨c1, c3, c2⟩ <;> rw [c2] <;> omega
    · rw [h0]
      have := decN_of_neg b (x ≠ 0) (expo x) (frac x) hf hb1 hb
      generalize decN b (encN b (x ≠ 0) 1 (expo x) (frac x)) = d at *
      omega
  have hm : mag (roundTrip x b) ≤ (128 - b) * 2 ^ 23 := by unfold mag; omega
  constructor
  · have hn : neg (roundTrip x b) = false := by unfold neg; simp only [decide_eq_false_iff_not]; omega
    rw [value_eq, hn]
    simp
  · rw [natAbs_value, ← hup]
    exact magOf_mono hm

theorem quarter_error (x : BitVec 32) (b : Nat) (hb1 : 1 ≤ b) (hb : b ≤ 15) (hx : isFinite x = true) (hhi : (value x).natAbs < 15 * 2 ^ (160 - b)) :
    8 * |value (roundTrip x b) - value x| ≤ |value x| + 32 * 2 ^ (149 - b) := by
  have p1 : (2 : Nat) ^ (150 - b) = 32 * 2 ^ (145 - b) := by rw [show 150 - b = 145 - b + 5 by omega, pow_add]; ring
  have p2 : (2 : Nat) ^ (160 - b) = 2 ^ 15 * 2 ^ (145 - b) := by rw [show 160 - b = 145 - b + 15 by omega, pow_add]; ring
  have p3 : (2 : Nat) ^ (149 + 15 - b) = 2 ^ 19 * 2 ^ (145 - b) := by rw [show 149 + 15 - b = 145 - b + 19 by omega, pow_add]; ring
  have p4 : (2 : Int) ^ (149 - b) = 16 * ((2 ^ (145 - b) : Nat) : Int) := by
    rw [show 149 - b = 145 - b + 4 by omega, pow_add]; push_cast; ring
  by_cases hlo : (value x).natAbs < 17 * 2 ^ (145 - b)
  · obtain ⟨h1, h2⟩ := small_roundTrip x b hb1 hb hx hlo
    rw [p4]
    rw [p1] at h2
    generalize 2 ^ (145 - b) = P at *
    generalize value (roundTrip x b) = v at *
    generalize value x = w at *
    clear p1 p2 p3 p4 hhi
    simp only [Int.abs_eq_natAbs]
    omega
  · have hlo := not_lt.mp hlo
    obtain ⟨h1, h2, h3, h4, -⟩ := C05_rounds_partial x b hb1 hb hx hlo (by rw [p3]; rw [p2] at hhi; generalize 2 ^ (145 - b) = P at *; omega)
    have he : expo x ≠ 0 := by
      obtain ⟨hx1, hmag, hf, he, hs⟩ := fields x
      rw [natAbs_value, ← magOf_low b hb, magOf_le_iff] at hlo
      omega
    have h5 := expo_units x he
    have e1 : value (roundTrip x b) = (if neg x then -1 else 1) * ((value (roundTrip x b)).natAbs : Int) := by
      rw [natAbs_value, value_eq, h1]
      split <;> simp
    have e2 : value x = (if neg x then -1 else 1) * ((value x).natAbs : Int) := by
      rw [natAbs_value, value_eq]
      split <;> simp
    have hp : (0 : Int) ≤ 32 * 2 ^ (149 - b) := by positivity
    generalize (32 : Int) * 2 ^ (149 - b) = Q at *
    have e3 : |value (roundTrip x b) - value x| = |((value (roundTrip x b)).natAbs : Int) - ((value x).natAbs : Int)| := by
      generalize value (roundTrip x b) = v at *
      generalize value x = w at *
      by_cases hn : neg x = true
      · rw [if_pos hn] at e1 e2
        rw [abs_sub_comm]
        congr 1
        omega
      · rw [if_neg hn] at e1 e2
        congr 1
        omega
    rw [e3]
    generalize value (roundTrip x b) = v at *
    generalize value x = w at *
    generalize 2 ^ (expo x - 1) = P at *
    clear e1 e2 e3 p1 p2 p3 p4 hlo hhi
    have e4 : |((v.natAbs : Nat) : Int) - ((w.natAbs : Nat) : Int)| ≤ 2 ^ 20 * (P : Int) := by
      rw [abs_le]; omega
    have e5 : |w| = (w.natAbs : Int) := Int.abs_eq_natAbs w
    rw [e5]
    omega

theorem abs_value_real (a : F32) : |real a| = ((value a.bits).natAbs : ℝ) / 2 ^ 149 := by
  unfold real
  rw [abs_div, abs_of_pos (show (0 : ℝ) < 2 ^ 149 by positivity)]
  congr 1
  rw [Nat.cast_natAbs, Int.cast_abs]

theorem quarter_real (a : F32) (b : Nat) (hb1 : 1 ≤ b) (hb : b ≤ 15) (hx : Rounding.Finite a) (hhi : (value a.bits).natAbs < 15 * 2 ^ (160 - b)) :
    |real ⟨roundTrip a.bits b⟩ - real a| ≤ 1 / 8 * (|real a| + 32 / 2 ^ b) := by
  have h := quarter_error a.bits b hb1 hb hx hhi
  unfold real
  have hb' : (2 : ℝ) ^ 149 = 2 ^ b * 2 ^ (149 - b) := by rw [← pow_add]; congr 1; omega
  have h' : 8 * |(value (roundTrip a.bits b) : ℝ) - value a.bits| ≤ |(value a.bits : ℝ)| + 32 * 2 ^ (149 - b) := by exact_mod_cast h
  rw [← sub_div, abs_div, abs_div, abs_of_pos (show (0 : ℝ) < 2 ^ 149 by positivity)]
  have e : (32 : ℝ) / 2 ^ b = 32 * 2 ^ (149 - b) / 2 ^ 149 := by rw [hb']; field_simp
  rw [e, ← add_div, mul_div_assoc', div_le_div_iff_of_pos_right (by positivity)]
  linarith

/-! ### The largest element -/

theorem foldr_max_le (l : List ℝ) : ∀ v ∈ l, v ≤ l.foldr max 0 := by
  induction l with
  | nil => intro v hv; cases hv
  | cons a l ih =>
    intro v hv
    rw [List.foldr_cons]
    rcases List.mem_cons.mp hv with rfl | h
    · exact le_max_left _ _
    · exact le_trans (ih v h) (le_max_right _ _)

theorem foldr_max_nonneg (l : List ℝ) : 0 ≤ l.foldr max 0 := by
  induction l with
  | nil => exact le_refl _
  | cons a l ih => rw [List.foldr_cons]; exact le_trans ih (le_max_right _ _)

theorem largest_nonneg (t : Tensor F32) : 0 ≤ largest t := foldr_max_nonneg _

/-! ### One element -/

/-- The bits of a tensor. -/
def bitsOf (t : Tensor F32) : Tensor (BitVec 32) := ⟨t.rows, t.cols, t.chans, fun r c k => (t.get r c k).bits⟩

theorem elements_bits (t : Tensor F32) : Statistics.elements (bitsOf t) = (Statistics.elements t).map F32.bits := by
  unfold Statistics.elements bitsOf
  simp [List.map_flatMap, Function.comp_def]

theorem mem_elements (t : Tensor F32) (v : F32) : v ∈ Statistics.elements t ↔ ∃ r c k, r < t.rows ∧ c < t.cols ∧ k < t.chans ∧ t.get r c k = v := by
  unfold Statistics.elements
  simp only [List.mem_flatMap, List.mem_map, List.mem_range]
  constructor
  · rintro ⟨k, hk, r, hr, c, hc, h⟩
    exact ⟨r, c, k, hr, hc, hk, h⟩
  · rintro ⟨r, c, k, hr, hc, hk, h⟩
    exact ⟨k, hk, r, hr, c, hc, h⟩

/-- What is kept of one element. -/
def conv (bits : Nat) (t : Tensor F32) (v : BitVec 32) : BitVec 32 :=
  if bits = 32 then v else if bits = 16 then Materialize.halfConv v else Materialize.quarterConv (Materialize.bias (bitsOf t)) v

theorem keep_spec (bits : Nat) (t : Tensor F32) (hr : 0 < t.rows) (hk : 0 < t.chans) :
    (keep bits t).rows = t.rows ∧ (keep bits t).cols = t.cols ∧ (keep bits t).chans = t.chans ∧
      ∀ r c k, r < t.rows → c < t.cols → k < t.chans → (keep bits t).get r c k = ⟨conv bits t (t.get r c k).bits⟩ := by
  have key : ∀ f, (Materialize.stored f (bitsOf t)).tensor.rows = t.rows ∧ (Materialize.stored f (bitsOf t)).tensor.cols = t.cols ∧
      (Materialize.stored f (bitsOf t)).tensor.chans = t.chans ∧
      ∀ r c k, r < t.rows → c < t.cols → k < t.chans → (Materialize.stored f (bitsOf t)).tensor.get r c k = f (t.get r c k).bits := by
    intro f
    obtain ⟨s1, s2, s3, s4⟩ := Materialize.stored_same f (bitsOf t) hk hr
    have s1 : (Materialize.stored f (bitsOf t)).tensor.rows = t.rows := s1
    have s2 : (Materialize.stored f (bitsOf t)).tensor.cols = t.cols := s2
    have s3 : (Materialize.stored f (bitsOf t)).tensor.chans = t.chans := s3
    exact ⟨s1, s2, s3, fun r c k h1 h2 h3 => s4 r c k (by omega) (by omega) (by omega)⟩
  have hkeep : keep bits t = ⟨(Materialize.materialize false (bitsOf t) bits).rows, (Materialize.materialize false (bitsOf t) bits).cols,
    (Materialize.materialize false (bitsOf t) bits).chans, fun r c k => ⟨(Materialize.materialize false (bitsOf t) bits).get r c k⟩⟩ := rfl
  rw [hkeep]
  unfold Materialize.materialize conv
  by_cases h1 : bits = 32
  · simp only [h1, if_true, Bool.false_eq_true, if_false]
    obtain ⟨k1, k2, k3, k4⟩ := key id
    exact ⟨k1, k2, k3, fun r c k a b d => congrArg F32.mk (k4 r c k a b d)⟩
  by_cases h2 : bits = 16
  · simp only [h1, h2, if_true, if_false]
    obtain ⟨k1, k2, k3, k4⟩ := key Materialize.halfConv
    exact ⟨k1, k2, k3, fun r c k a b d => congrArg F32.mk (k4 r c k a b d)⟩
  · simp only [h1, h2, if_false]
    obtain ⟨k1, k2, k3, k4⟩ := key (Materialize.quarterConv (Materialize.bias (bitsOf t)))
    exact ⟨k1, k2, k3, fun r c k a b d => congrArg F32.mk (k4 r c k a b d)⟩

/-- The numbers of a tensor fit a bias as real numbers. -/
theorem fits_iff (v : F32) (b : Nat) (hb : b ≤ 15) : mag v.bits < Materialize.top b ↔ |real v| < 15 * 2 ^ (160 - b) / 2 ^ 149 := by
  rw [← not_le, ← magOf_le_iff, not_le, Materialize.magOf_top b hb, ← natAbs_value, abs_value_real, div_lt_div_iff_of_pos_right (by positivity)]
  constructor
  · intro h
    exact_mod_cast h
  · intro h
    exact_mod_cast h

theorem pow_ratio (b : Nat) (hb : b ≤ 15) : (15 : ℝ) * 2 ^ (160 - b) / 2 ^ 149 = 15 * 2048 / 2 ^ b := by
  have h : (2 : ℝ) ^ (160 - b) * 2 ^ b = 2048 * 2 ^ 149 := by
    rw [← pow_add, show 160 - b + b = 160 by omega]
    norm_num
  rw [div_eq_div_iff (by positivity) (by positivity)]
  linear_combination 15 * h

/-- With 8 bits: the number of the format is small against the largest element, or the format is the finest. -/
theorem bias_small (t : Tensor F32) (ht : Storable 8 t) : ∃ b : Nat, Materialize.bias (bitsOf t) = b ∧ 1 ≤ b ∧ b ≤ 15 ∧
    (∀ r c k, r < t.rows → c < t.cols → k < t.chans → (value (t.get r c k).bits).natAbs < 15 * 2 ^ (160 - b)) ∧ 32 / 2 ^ b ≤ largest t / 480 + 1 / 1024 := by
  obtain ⟨h1, h2, h3⟩ := ht
  have hel : ∀ x ∈ Statistics.elements (bitsOf t), ∃ r c k, r < t.rows ∧ c < t.cols ∧ k < t.chans ∧ x = (t.get r c k).bits := by
    intro x hx
    rw [elements_bits] at hx
    obtain ⟨v, hv, rfl⟩ := List.mem_map.mp hx
    obtain ⟨r, c, k, a1, a2, a3, rfl⟩ := (mem_elements t v).mp hv
    exact ⟨r, c, k, a1, a2, a3, rfl⟩
  obtain ⟨b, e, b1, b2, b3, b4⟩ := Materialize.bias_spec (bitsOf t) (by
    intro x hx
    obtain ⟨r, c, k, a1, a2, a3, rfl⟩ := hel x hx
    exact (h3 r c k a1 a2 a3).1)
  refine ⟨b, e, by omega, b2, ?_, ?_⟩
  · have hf : Materialize.Fits (bitsOf t) b := by
      rcases b4 with rfl | h
      · intro x hx
        obtain ⟨r, c, k, a1, a2, a3, rfl⟩ := hel x hx
        rw [fits_iff _ _ (by omega), pow_ratio 4 (by omega)]
        have := (h3 r c k a1 a2 a3).2 rfl
        norm_num at this ⊢
        exact this
      · exact h
    intro r c k a1 a2 a3
    have hm := hf (t.get r c k).bits (by rw [elements_bits]; exact List.mem_map.mpr ⟨_, (mem_elements t _).mpr ⟨r, c, k, a1, a2, a3, rfl⟩, rfl⟩)
    rw [← not_le, ← magOf_le_iff, not_le, Materialize.magOf_top b b2, ← natAbs_value] at hm
    exact hm
  · have hL := largest_nonneg t
    by_cases hb : b = 15
    · rw [hb]
      have : (32 : ℝ) / 2 ^ 15 = 1 / 1024 := by norm_num
      rw [this]
      linarith
    · have hn := b3 (by omega)
      unfold Materialize.Fits at hn
      push Not at hn
      obtain ⟨x, hx, hm⟩ := hn
      rw [elements_bits] at hx
      obtain ⟨v, hv, rfl⟩ := List.mem_map.mp hx
      have hge : 15 * 2048 / 2 ^ (b + 1) ≤ |real v| := by
        rw [← pow_ratio (b + 1) (by omega)]
        by_contra hc
        rw [not_le, ← fits_iff v (b + 1) (by omega)] at hc
        omega
      have hle : |real v| ≤ largest t := foldr_max_le _ _ (List.mem_map.mpr ⟨v, hv, rfl⟩)
      have e1 : (15 : ℝ) * 2048 / 2 ^ (b + 1) = 480 * (32 / 2 ^ b) := by rw [pow_succ]; field_simp; norm_num
      rw [e1] at hge
      linarith

theorem half_real (a : F32) (h : Rounding.Finite a) : |real ⟨Materialize.halfConv a.bits⟩ - real a| ≤ 1 / 128 * (|real a| + 1 / 2 ^ 126) := by
  obtain ⟨h1, h2, h3⟩ := stored16_real a h
  have h4 := real_units a
  have e : (1 : ℝ) / 128 * (|real a| + 1 / 2 ^ 126) = |real a| / 2 ^ 7 + 1 / 2 ^ 133 := by
    rw [show (2 : ℝ) ^ 133 = 2 ^ 126 * 128 by norm_num]
    ring
  rw [e]
  change |real (stored16 a) - real a| ≤ _
  rw [← abs_real] at h4
  generalize |real (stored16 a)| = S at *
  generalize real (stored16 a) = s at *
  generalize |real a| = A at *
  generalize real a = x at *
  rw [h1, h4]
  rw [abs_le]
  by_cases hn : neg a.bits = true
  · rw [if_pos hn]
    constructor <;> linarith
  · rw [if_neg hn]
    constructor <;> linarith

/-- How much an element changes. -/
theorem keep_error (bits : Nat) (hb : bits = 32 ∨ bits = 16 ∨ bits = 8) (t : Tensor F32) (ht : Storable bits t) (r c k : Nat) (hr : r < t.rows) (hc : c < t.cols)
    (hk : k < t.chans) : |real ((keep bits t).get r c k) - real (t.get r c k)| ≤ grain bits * (|real (t.get r c k)| + slack bits t) := by
  rw [(keep_spec bits t ht.1 ht.2.1).2.2.2 r c k hr hc hk]
  obtain ⟨hf, h8⟩ := ht.2.2 r c k hr hc hk
  rcases hb with rfl | rfl | rfl
  · unfold conv grain
    simp
  · have := half_real (t.get r c k) hf
    unfold conv grain slack
    simpa using this
  · obtain ⟨b, e, b1, b2, b3, b4⟩ := bias_small t ht
    have := quarter_real (t.get r c k) b b1 b2 hf (b3 r c k hr hc hk)
    unfold conv grain slack
    simp only [show ¬ (8 = 32) by decide, show ¬ (8 = 16) by decide, if_false]
    rw [e]
    refine le_trans this ?_
    have : (0:ℝ) ≤ 1 / 8 := by norm_num
    exact mul_le_mul_of_nonneg_left (by linarith) this

theorem keep_finite (bits : Nat) (hb : bits = 32 ∨ bits = 16 ∨ bits = 8) (t : Tensor F32) (ht : Storable bits t) : Every Rounding.Finite (keep bits t) := by
  obtain ⟨k1, k2, k3, k4⟩ := keep_spec bits t ht.1 ht.2.1
  intro r c k hr hc hk
  rw [k1] at hr
  rw [k2] at hc
  rw [k3] at hk
  rw [k4 r c k hr hc hk]
  obtain ⟨hf, h8⟩ := ht.2.2 r c k hr hc hk
  rcases hb with rfl | rfl | rfl
  · exact hf
  · exact stored16_finite _ hf
  · obtain ⟨b, e, b1, b2, -⟩ := bias_small t ht
    unfold conv
    simp only [show ¬ (8 = 32) by decide, show ¬ (8 = 16) by decide, if_false]
    rw [e]
    exact C05_finite _ b b1 b2 hf

theorem slack_nonneg (bits : Nat) (t : Tensor F32) : 0 ≤ slack bits t := by
  unfold slack
  split_ifs
  · exact le_refl _
  · positivity
  · have := largest_nonneg t
    positivity

theorem grain_nonneg (bits : Nat) : 0 ≤ grain bits := by
  unfold grain
  split_ifs <;> norm_num

/-! ### Activations -/

theorem lipschitz_of_deriv (f : ℝ → ℝ) (f' : ℝ → ℝ) (h : ∀ x, HasDerivAt f (f' x) x) (hb : ∀ x, |f' x| ≤ 1) (x y : ℝ) : |f x - f y| ≤ |x - y| := by
  have := Convex.norm_image_sub_le_of_norm_hasDerivWithin_le (f := f) (f' := f') (C := 1) (s := Set.univ) (x := y) (y := x)
    (fun z _ => (h z).hasDerivWithinAt) (fun z _ => hb z) convex_univ (Set.mem_univ _) (Set.mem_univ _)
  simpa using this

/-- No activation moves two numbers apart. -/
theorem value_lipschitz (k : Activation.Kind) (x y : ℝ) : |Activation.value k x - Activation.value k y| ≤ |x - y| := by
  cases k with
  | relu =>
    unfold Activation.value
    dsimp only
    split_ifs with h1 h2 h2
    · simp
    · rw [abs_sub_comm, abs_sub_comm x, abs_of_nonneg (by linarith), abs_of_nonneg (by linarith)]; linarith
    · rw [abs_of_nonneg (by linarith), abs_of_nonneg (by linarith)]; linarith
    · exact le_refl _
  | leaky =>
    unfold Activation.value Activation.flag
    dsimp only
    rcases lt_or_ge x 0 with h1 | h1 <;> rcases lt_or_ge y 0 with h2 | h2
    · rw [if_pos h1, if_pos h2, if_neg (not_le.mpr h1), if_neg (not_le.mpr h2)]
      rw [abs_le]
      have := neg_abs_le (x - y)
      have := le_abs_self (x - y)
      have := abs_nonneg (x - y)
      constructor <;> linarith
    · rw [if_pos h1, if_neg (not_lt.mpr h2), if_neg (not_le.mpr h1), if_pos h2]
      rw [abs_of_nonpos (by linarith), abs_of_nonpos (by linarith)]; linarith
    · rw [if_neg (not_lt.mpr h1), if_pos h2, if_pos h1, if_neg (not_le.mpr h2)]
      rw [abs_of_nonneg (by linarith), abs_of_nonneg (by linarith)]; linarith
    · rw [if_neg (not_lt.mpr h1), if_neg (not_lt.mpr h2), if_pos h1, if_pos h2]
      simp
  | linear => exact le_refl _
  | sigmoid =>
    refine lipschitz_of_deriv _ _ Activation.sigmoid_deriv (fun z => ?_) x y
    unfold Activation.slope
    dsimp only
    have h := Real.exp_pos (-1 * z)
    have h1 : 0 < 1 / (1 + Real.exp (-1 * z)) := by positivity
    have h2 : 1 / (1 + Real.exp (-1 * z)) < 1 := by rw [div_lt_one (by linarith)]; linarith
    rw [abs_of_nonneg (mul_nonneg h1.le (by linarith))]
    nlinarith
  | sigmoidApprox =>
    refine lipschitz_of_deriv _ _ Activation.approx_deriv (fun z => ?_) x y
    have h := abs_nonneg z
    rw [abs_of_nonneg (by positivity), div_le_one (by positivity)]
    nlinarith
  | tanh =>
    refine lipschitz_of_deriv _ _ Activation.tanh_deriv (fun z => ?_) x y
    unfold Activation.slope
    dsimp only
    have h1 := Real.tanh_lt_one z
    have h2 := Real.neg_one_lt_tanh z
    rw [abs_of_nonneg (by nlinarith)]
    nlinarith
  | tanhApprox =>
    rw [Activation.tanhApprox_eq, Activation.tanhApprox_eq]
    refine lipschitz_of_deriv _ _ (fun z => Activation.tanh_deriv z) (fun z => ?_) x y
    unfold Activation.slope
    dsimp only
    have h1 := Real.tanh_lt_one z
    have h2 := Real.neg_one_lt_tanh z
    rw [abs_of_nonneg (by nlinarith)]
    nlinarith

end Verif.Precision
