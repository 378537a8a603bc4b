import Verif.Model.FloatStatistics
import Verif.Spec.FloatStatistics
import Verif.Lemmas.Double
import Verif.Lemmas.FloatSoftmax
import Verif.Lemmas.FloatUpdate

/-!
Lemmas for the statistics in floating point.
-/
namespace Verif.FloatStatistics
open Verif Double Statistics FloatBits Rounding FloatOrder

theorem ofFloat_some (a : F32) (h : Finite a) : ofFloat a = some (number a) := by
  unfold ofFloat
  rw [if_pos (show isFinite a.bits = true from h)]
  rfl

theorem real_number (a : F32) : real a = ((number a : ℚ) : ℝ) := by
  unfold real number
  push_cast
  rfl

theorem units_number (a : F32) : |number a| = a.units / 2 ^ 149 := by
  unfold number
  rw [abs_div, abs_of_pos (show (0 : ℚ) < 2 ^ 149 by positivity), value_units]
  congr 1
  split <;> simp

theorem number_lt (a : F32) (h : Finite a) : |number a| ≤ 2 ^ (128 : Int) := by
  have h1 := FloatOrder.finite_lt a h
  rw [show pattern 0x7F800000 = 2 ^ 277 by decide +kernel] at h1
  have h2 : ((a.units : Nat) : ℚ) ≤ 2 ^ 277 := by exact_mod_cast h1.le
  rw [units_number, div_le_iff₀ (by positivity)]
  refine h2.trans_eq ?_
  rw [show (2 : ℚ) ^ (128 : Int) = 2 ^ 128 by norm_cast, ← pow_add]

theorem number_rep (a : F32) : Rep (number a) := by
  have hf : frac a.bits < 2 ^ 23 := Nat.mod_lt _ (by norm_num)
  have key : ∃ m : Int, ∃ s : Nat, (value a.bits : ℚ) = m * 2 ^ s ∧ |m| ≤ 2 ^ 53 := by
    have hu : ∃ m s : Nat, a.units = m * 2 ^ s ∧ m ≤ 2 ^ 53 := by
      unfold F32.units magUnits
      split
      · exact ⟨frac a.bits, 0, by simp, by omega⟩
      · exact ⟨2 ^ 23 + frac a.bits, expo a.bits - 1, rfl, by omega⟩
    obtain ⟨m, s, hu, hm⟩ := hu
    have hm' : (m : Int) ≤ 2 ^ 53 := by exact_mod_cast hm
    rw [value_units, hu]
    split
    · exact ⟨-m, s, by push_cast; ring, by rw [abs_neg, Nat.abs_cast]; exact hm'⟩
    · exact ⟨m, s, by push_cast; ring, by rw [Nat.abs_cast]; exact hm'⟩
  obtain ⟨m, s, hv, hm⟩ := key
  refine ⟨m, s - 149, ?_, hm, by omega⟩
  unfold number
  rw [hv, zpow_sub₀ (by norm_num), zpow_natCast, mul_div_assoc]
  norm_num

theorem number_le_iff (a b : F32) : number a ≤ number b ↔ value a.bits ≤ value b.bits := by
  unfold number
  rw [div_le_div_iff_of_pos_right (by positivity)]
  exact Int.cast_le

/-- Converting a number between two floats to `float` gives a float between them. -/
theorem toFloat_between (x : ℚ) (lo hi : F32) (hlo : Finite lo) (hhi : Finite hi) (h1 : number lo ≤ x) (h2 : x ≤ number hi) :
    Finite (toFloat x) ∧ number lo ≤ number (toFloat x) ∧ number (toFloat x) ≤ number hi := by
  obtain ⟨hb1, hb2, hb3⟩ := rounded_bits (decide (x < 0)) (x.num.natAbs * 2 ^ 149) x.den
  have hden : 0 < x.den := x.den_pos
  have hden' : (0 : ℚ) < x.den := by exact_mod_cast hden
  have hx : x = x.num / x.den := (Rat.num_div_den x).symm
  have finite : ∀ q : F32, Finite q → (toFloat x).units ≤ q.units → Finite (toFloat x) := by
    intro q hq hle
    rcases num_cases (toFloat x) hb3 with h | h
    · exact h.1
    · have := FloatOrder.finite_lt q hq
      omega
  have hv : value (toFloat x).bits = if x < 0 then -((toFloat x).units : Int) else (toFloat x).units := by
    rw [value_units]
    unfold toFloat
    rw [hb2]
    simp
  have habs : ((x.num.natAbs * 2 ^ 149 : Nat) : ℚ) = |x| * 2 ^ 149 * x.den := by
    have e : |x| * x.den = |(x.num : ℚ)| := by
      rw [← abs_of_pos hden', ← abs_mul]
      congr 1
      exact Rat.mul_den_eq_num x
    push_cast
    rw [Nat.cast_natAbs, Int.cast_abs, ← e]
    ring
  have up : ∀ q : F32, Finite q → |x| ≤ |number q| → (toFloat x).units ≤ q.units := by
    intro q hq hle
    refine rounded_le _ _ _ hden q hq ?_
    rw [units_number, le_div_iff₀ (by positivity)] at hle
    have : ((x.num.natAbs * 2 ^ 149 : Nat) : ℚ) ≤ ((q.units * x.den : Nat) : ℚ) := by
      rw [habs]
      push_cast
      exact mul_le_mul_of_nonneg_right hle hden'.le
    exact_mod_cast this
  have down : ∀ q : F32, Finite q → |number q| ≤ |x| → q.units ≤ (toFloat x).units := by
    intro q hq hle
    refine le_rounded _ _ _ hden q hq ?_
    rw [units_number, div_le_iff₀ (by positivity)] at hle
    have : ((q.units * x.den : Nat) : ℚ) ≤ ((x.num.natAbs * 2 ^ 149 : Nat) : ℚ) := by
      rw [habs]
      push_cast
      exact mul_le_mul_of_nonneg_right hle hden'.le
    exact_mod_cast this
  rcases lt_or_ge x 0 with hneg | hpos
  · have hlo0 : number lo < 0 := lt_of_le_of_lt h1 hneg
    have hu := up lo hlo (by rw [abs_of_neg hneg, abs_of_neg hlo0]; linarith)
    have hval : number (toFloat x) = -(((toFloat x).units : ℚ) / 2 ^ 149) := by
      unfold number
      rw [hv, if_pos hneg]
      push_cast
      ring
    have hlo' : number lo = -((lo.units : ℚ) / 2 ^ 149) := by rw [← units_number, abs_of_neg hlo0]; ring
    refine ⟨finite lo hlo hu, ?_, ?_⟩
    · rw [hval, hlo']
      have : ((toFloat x).units : ℚ) ≤ lo.units := by exact_mod_cast hu
      have := div_le_div_of_nonneg_right this (show (0 : ℚ) ≤ 2 ^ 149 by positivity)
      linarith
    · rcases lt_or_ge (number hi) 0 with hh | hh
      · have hd := down hi hhi (by rw [abs_of_neg hneg, abs_of_neg hh]; linarith)
        have hhi' : number hi = -((hi.units : ℚ) / 2 ^ 149) := by rw [← units_number, abs_of_neg hh]; ring
        rw [hval, hhi']
        have : (hi.units : ℚ) ≤ (toFloat x).units := by exact_mod_cast hd
        have := div_le_div_of_nonneg_right this (show (0 : ℚ) ≤ 2 ^ 149 by positivity)
        linarith
      · rw [hval]
        refine le_trans ?_ hh
        have : (0 : ℚ) ≤ ((toFloat x).units : ℚ) / 2 ^ 149 := by positivity
        linarith
  · have hhi0 : 0 ≤ number hi := le_trans hpos h2
    have hu := up hi hhi (by rw [abs_of_nonneg hpos, abs_of_nonneg hhi0]; exact h2)
    have hval : number (toFloat x) = ((toFloat x).units : ℚ) / 2 ^ 149 := by
      unfold number
      rw [hv, if_neg (by linarith)]
      push_cast
      ring
    have hhi' : number hi = (hi.units : ℚ) / 2 ^ 149 := by rw [← units_number, abs_of_nonneg hhi0]
    refine ⟨finite hi hhi hu, ?_, ?_⟩
    · rcases lt_or_ge (number lo) 0 with hh | hh
      · rw [hval]
        refine hh.le.trans ?_
        positivity
      · have hd := down lo hlo (by rw [abs_of_nonneg hh, abs_of_nonneg hpos]; exact h1)
        have hlo' : number lo = (lo.units : ℚ) / 2 ^ 149 := by rw [← units_number, abs_of_nonneg hh]
        rw [hval, hlo']
        have : (lo.units : ℚ) ≤ (toFloat x).units := by exact_mod_cast hd
        exact div_le_div_of_nonneg_right this (by positivity)
    · rw [hval, hhi']
      have : ((toFloat x).units : ℚ) ≤ hi.units := by exact_mod_cast hu
      exact div_le_div_of_nonneg_right this (by positivity)

/-! ### One step -/

/-- No overflow. -/
theorem op_some {x : ℚ} (h : |x| ≤ 2 ^ (1000 : Int)) : op x = some (rnd x) := by
  unfold op
  rw [if_pos]
  rw [abs_le] at h
  have h1 := le_rnd (rep_pow (by norm_num : (-1074 : Int) ≤ 1000)).neg h.1
  have h2 := rnd_le (rep_pow (by norm_num : (-1074 : Int) ≤ 1000)) h.2
  refine lt_of_le_of_lt (abs_le.2 ⟨h1, h2⟩) ?_
  rw [show (2 : ℚ) ^ 1024 = 2 ^ (1024 : Int) from (zpow_natCast 2 1024).symm]
  exact zpow_lt_zpow_right₀ (by norm_num) (by norm_num)

theorem abs_rnd_le {x : ℚ} {e : Int} (he : -1074 ≤ e) (h : |x| ≤ 2 ^ e) : |rnd x| ≤ 2 ^ e := by
  rw [abs_le] at h ⊢
  exact ⟨le_rnd (rep_pow he).neg h.1, rnd_le (rep_pow he) h.2⟩

theorem half_pow (e : Int) : (2 : ℚ) ^ e + 2 ^ e = 2 ^ (e + 1) := by rw [zpow_add_one₀ (by norm_num)]; ring

/-- The average after one more value. -/
def next (a : ℚ) (k : Nat) (v : ℚ) : ℚ := rnd (a + rnd (rnd (v - a) / (k + 1 : Nat)))

theorem next_rep (a : ℚ) (k : Nat) (v : ℚ) : Rep (next a k v) := rep_rnd _

theorem next_zero (v : ℚ) (hv : Rep v) : next 0 0 v = v := by
  unfold next
  rw [sub_zero, rnd_rep hv, Nat.zero_add, Nat.cast_one, div_one, rnd_rep hv, zero_add, rnd_rep hv]

theorem next_between {a v : ℚ} (ha : Rep a) (hv : Rep v) (k : Nat) (hk : 0 < k) : min a v ≤ next a k v ∧ next a k v ≤ max a v := by
  obtain ⟨h1, h2⟩ := step_between ha hv (k + 1) (by omega)
  unfold next
  refine ⟨le_rnd ?_ h1, rnd_le ?_ h2⟩
  · rcases min_choice a v with h | h <;> rw [h] <;> assumption
  · rcases max_choice a v with h | h <;> rw [h] <;> assumption

theorem abs_sub_pow {a v : ℚ} {e : Int} (ma : |a| ≤ 2 ^ e) (mv : |v| ≤ 2 ^ e) : |v - a| ≤ 2 ^ (e + 1) := by
  rw [← half_pow]
  exact (abs_sub _ _).trans (add_le_add mv ma)

theorem quotient_pow {x : ℚ} {e : Int} (h : |x| ≤ 2 ^ e) (k : Nat) : |x / (k + 1 : Nat)| ≤ 2 ^ e := by
  have hk : (1 : ℚ) ≤ ((k + 1 : Nat) : ℚ) := by exact_mod_cast Nat.le_add_left 1 k
  rw [abs_div, abs_of_nonneg (by linarith : (0 : ℚ) ≤ ((k + 1 : Nat) : ℚ)), div_le_iff₀ (by linarith)]
  have := two_zpow_pos e
  nlinarith

/-- A step does not overflow. -/
theorem average_step (a v : ℚ) (k : Nat) (e : Int) (he : 0 ≤ e) (he' : e ≤ 900) (ma : |a| ≤ 2 ^ e) (mv : |v| ≤ 2 ^ e) :
    op (v - a) = some (rnd (v - a)) ∧ op (rnd (v - a) / (k + 1 : Nat)) = some (rnd (rnd (v - a) / (k + 1 : Nat))) ∧
      op (a + rnd (rnd (v - a) / (k + 1 : Nat))) = some (next a k v) := by
  have big : ∀ f : Int, f ≤ 1000 → (2 : ℚ) ^ f ≤ 2 ^ (1000 : Int) := fun f hf => zpow_le_zpow_right₀ (by norm_num) hf
  have h1 := abs_sub_pow ma mv
  have h2 := abs_rnd_le (by omega) h1
  have h3 := quotient_pow h2 k
  have h4 := abs_rnd_le (by omega) h3
  refine ⟨op_some (h1.trans (big _ (by omega))), op_some (h3.trans (big _ (by omega))), op_some (le_trans ?_ (big (e + 2) (by omega)))⟩
  refine (abs_add_le _ _).trans ?_
  rw [show e + 2 = (e + 1) + 1 by ring, ← half_pow (e + 1)]
  refine add_le_add (ma.trans ?_) h4
  exact zpow_le_zpow_right₀ (by norm_num) (by omega)

/-! ### All values -/

/-- The averages of a list. -/
theorem average_run (lo hi : ℚ) (e : Int) (he : 0 ≤ e) (he' : e ≤ 900) (ml : |lo| ≤ 2 ^ e) (mh : |hi| ≤ 2 ^ e) (vs : List ℚ) :
    ∀ (a : ℚ) (k : Nat), Rep a → (∀ v ∈ vs, Rep v ∧ lo ≤ v ∧ v ≤ hi) → (k = 0 → a = 0) → (0 < k → lo ≤ a ∧ a ≤ hi) →
      ∃ a', vs.foldlM average (a, k) = some (a', k + vs.length) ∧ Rep a' ∧ (0 < k + vs.length → lo ≤ a' ∧ a' ≤ hi) := by
  induction vs with
  | nil => intro a k ha _ _ h; exact ⟨a, rfl, ha, h⟩
  | cons v vs ih =>
    intro a k ha hv h0 h1
    obtain ⟨rv, v1, v2⟩ := hv v (by simp)
    have hin : ∀ x, lo ≤ x → x ≤ hi → |x| ≤ 2 ^ e := by
      intro x h3 h4
      rw [abs_le] at ml mh ⊢
      exact ⟨ml.1.trans h3, h4.trans mh.2⟩
    have ma : |a| ≤ 2 ^ e := by
      rcases Nat.eq_zero_or_pos k with hk | hk
      · rw [h0 hk, abs_zero]; exact (two_zpow_pos e).le
      · exact hin a (h1 hk).1 (h1 hk).2
    obtain ⟨s1, s2, s3⟩ := average_step a v k e he he' ma (hin v v1 v2)
    have hn : lo ≤ next a k v ∧ next a k v ≤ hi := by
      rcases Nat.eq_zero_or_pos k with hk | hk
      · subst hk
        rw [h0 rfl, next_zero v rv]
        exact ⟨v1, v2⟩
      · obtain ⟨b1, b2⟩ := next_between ha rv k hk
        exact ⟨(le_min (h1 hk).1 v1).trans b1, b2.trans (max_le (h1 hk).2 v2)⟩
    obtain ⟨a', h2, h3, h4⟩ := ih (next a k v) (k + 1) (next_rep _ _ _) (fun w hw => hv w (List.mem_cons_of_mem _ hw)) (fun h => absurd h (by omega)) (fun _ => hn)
    refine ⟨a', ?_, h3, fun _ => h4 (by omega)⟩
    have hs : average (a, k) v = some (next a k v, k + 1) := by
      unfold average
      dsimp only
      rw [s1]
      show (op (rnd (v - a) / (k + 1 : Nat))).bind _ = _
      rw [s2]
      show (op (a + rnd (rnd (v - a) / (k + 1 : Nat)))).bind _ = _
      rw [s3]
      rfl
    rw [List.foldlM_cons, hs]
    show List.foldlM average (next a k v, k + 1) vs = _
    rw [h2, List.length_cons]
    congr 2
    omega

theorem mapM_floats (l : List F32) (h : ∀ x ∈ l, Finite x) : l.mapM ofFloat = some (l.map number) := by
  induction l with
  | nil => rfl
  | cons x l ih =>
    rw [List.mapM_cons, ofFloat_some x (h x (by simp)), ih fun y hy => h y (List.mem_cons_of_mem _ hy)]
    rfl

/-! ### The error of the mean -/

theorem next_error {a v M : ℚ} (k : Nat) (hk : 0 < k) (ha : Rep a) (hv : Rep v) (ma : |a| ≤ M) (mv : |v| ≤ M) (hM : 2 ^ (-1000 : Int) ≤ M) :
    |next a k v - (a + (v - a) / (k + 1 : Nat))| ≤ 7 * 2 ^ (-53 : Int) * M := by
  obtain ⟨b1, b2⟩ := step_between ha hv (k + 1) (by omega)
  have hK : (1 : ℚ) ≤ ((k + 1 : Nat) : ℚ) := by exact_mod_cast Nat.le_add_left 1 k
  unfold next
  generalize ((k + 1 : Nat) : ℚ) = K at *
  have hu : (2 : ℚ) ^ (-53 : Int) = 1 / 2 ^ 53 := by rw [zpow_neg]; norm_num
  have hh : (2 : ℚ) ^ (-1075 : Int) ≤ 2 ^ (-53 : Int) * M / 16 := by
    have e : (2 : ℚ) ^ (-1075 : Int) = 2 ^ (-53 : Int) * 2 ^ (-22 : Int) * 2 ^ (-1000 : Int) := by
      rw [← zpow_add₀ (by norm_num), ← zpow_add₀ (by norm_num)]; norm_num
    have e2 : (2 : ℚ) ^ (-22 : Int) ≤ 1 / 16 := by rw [zpow_neg]; norm_num
    have p1 := two_zpow_pos (-53)
    have p2 := two_zpow_pos (-1000)
    have p3 := two_zpow_pos (-22)
    rw [e]
    calc (2 : ℚ) ^ (-53 : Int) * 2 ^ (-22 : Int) * 2 ^ (-1000 : Int) ≤ 2 ^ (-53 : Int) * (1 / 16) * M := by gcongr
      _ = _ := by ring
  have e1 := rnd_error (v - a)
  have e2 := rnd_error (rnd (v - a) / K)
  have e3 := rnd_error (a + rnd (rnd (v - a) / K))
  have hM0 : 0 < M := lt_of_lt_of_le (two_zpow_pos _) hM
  have hva : |v - a| ≤ 2 * M := (abs_sub _ _).trans (by linarith)
  have haq : |a + rnd (rnd (v - a) / K)| ≤ M := by
    rw [abs_le] at ma mv ⊢
    refine ⟨le_trans (le_min ma.1 mv.1) b1, b2.trans (max_le ma.2 mv.2)⟩
  generalize hu' : (2 : ℚ) ^ (-53 : Int) = U at *
  generalize (2 : ℚ) ^ (-1075 : Int) = H at *
  generalize hd : rnd (v - a) = d at *
  generalize hq : rnd (d / K) = q at *
  generalize rnd (a + q) = n at *
  have hU : 0 < U := by rw [hu]; norm_num
  have hU1 : U ≤ 1 / 16 := by rw [hu]; norm_num
  have hUM : U * M ≤ M / 16 := by nlinarith
  have f1 : |v - a - d| ≤ U * (2 * M) + H := e1.trans (by nlinarith)
  have f2 : |d| ≤ 3 * M := by
    have : |d| ≤ |v - a| + |v - a - d| := by
      have := abs_sub (v - a) (v - a - d)
      rwa [sub_sub_cancel] at this
    linarith
  have f3 : |d / K| ≤ 3 * M := by
    rw [abs_div, abs_of_pos (by linarith : 0 < K), div_le_iff₀ (by linarith)]
    nlinarith
  have f4 : |d / K - q| ≤ U * (3 * M) + H := e2.trans (by nlinarith)
  have f5 : |a + q - n| ≤ U * M + H := e3.trans (by nlinarith)
  have f6 : |(v - a - d) / K| ≤ U * (2 * M) + H := by
    rw [abs_div, abs_of_pos (by linarith : 0 < K), div_le_iff₀ (by linarith)]
    have : 0 ≤ U * (2 * M) + H := le_trans (abs_nonneg _) f1
    nlinarith
  have e : n - (a + (v - a) / K) = -(a + q - n) - (d / K - q) - (v - a - d) / K := by ring
  rw [e]
  have g1 := abs_sub (-(a + q - n) - (d / K - q)) ((v - a - d) / K)
  have g2 := abs_sub (-(a + q - n)) (d / K - q)
  rw [abs_neg] at g2
  have : 0 < U * M := by positivity
  linarith

/-- How far the running average is from the exact one. -/
theorem average_error (M : ℚ) (hM : 2 ^ (-1000 : Int) ≤ M) (hM' : M ≤ 2 ^ (900 : Int)) (vs : List ℚ) :
    ∀ (a S : ℚ) (k : Nat), Rep a → (∀ v ∈ vs, Rep v ∧ |v| ≤ M) → (k = 0 → a = 0 ∧ S = 0) → |a| ≤ M → |k * a - S| ≤ 7 * 2 ^ (-53 : Int) * M * (k * (k + 1) / 2) →
      ∃ a', vs.foldlM average (a, k) = some (a', k + vs.length) ∧
        |((k + vs.length : Nat) : ℚ) * a' - (S + vs.sum)| ≤ 7 * 2 ^ (-53 : Int) * M * (((k + vs.length : Nat) : ℚ) * (((k + vs.length : Nat) : ℚ) + 1) / 2) := by
  induction vs with
  | nil =>
    intro a S k _ _ _ _ h
    refine ⟨a, rfl, ?_⟩
    simpa using h
  | cons v vs ih =>
    intro a S k ha hv h0 ma h
    obtain ⟨rv, mv⟩ := hv v (by simp)
    obtain ⟨s1, s2, s3⟩ := average_step a v k 900 (by norm_num) (by norm_num) (ma.trans hM') (mv.trans hM')
    have hs : average (a, k) v = some (next a k v, k + 1) := by
      unfold average
      dsimp only
      rw [s1]
      show (op (rnd (v - a) / (k + 1 : Nat))).bind _ = _
      rw [s2]
      show (op (a + rnd (rnd (v - a) / (k + 1 : Nat)))).bind _ = _
      rw [s3]
      rfl
    have hM0 : 0 < M := lt_of_lt_of_le (two_zpow_pos _) hM
    have hu := two_zpow_pos (-53)
    have mn : |next a k v| ≤ M := by
      rcases Nat.eq_zero_or_pos k with hk | hk
      · subst hk
        rw [(h0 rfl).1, next_zero v rv]
        exact mv
      · obtain ⟨b1, b2⟩ := next_between ha rv k hk
        rw [abs_le] at ma mv ⊢
        exact ⟨le_trans (le_min ma.1 mv.1) b1, b2.trans (max_le ma.2 mv.2)⟩
    have step : |((k + 1 : Nat) : ℚ) * next a k v - (S + v)| ≤ 7 * 2 ^ (-53 : Int) * M * (((k + 1 : Nat) : ℚ) * (((k + 1 : Nat) : ℚ) + 1) / 2) := by
      rcases Nat.eq_zero_or_pos k with hk | hk
      · subst hk
        rw [(h0 rfl).1, (h0 rfl).2, next_zero v rv]
        simp
        positivity
      · have he := next_error k hk ha rv ma mv hM
        have hK : (0 : ℚ) < ((k + 1 : Nat) : ℚ) := by exact_mod_cast Nat.succ_pos k
        have e : ((k + 1 : Nat) : ℚ) * next a k v - (S + v) = (k * a - S) + ((k + 1 : Nat) : ℚ) * (next a k v - (a + (v - a) / (k + 1 : Nat))) := by
          field_simp
          push_cast
          ring
        rw [e]
        refine (abs_add_le _ _).trans ?_
        rw [abs_mul, abs_of_pos hK]
        have := mul_le_mul_of_nonneg_left he hK.le
        push_cast at this h ⊢
        clear hM hM' he
        generalize 7 * (2 : ℚ) ^ (-53 : Int) * M = C at *
        refine (add_le_add h this).trans (le_of_eq ?_)
        ring
    obtain ⟨a', h2, h3⟩ := ih (next a k v) (S + v) (k + 1) (next_rep _ _ _) (fun w hw => hv w (List.mem_cons_of_mem _ hw)) (fun h => absurd h (by omega)) mn (by
      push_cast at step ⊢
      exact step)
    refine ⟨a', ?_, ?_⟩
    · rw [List.foldlM_cons, hs]
      show List.foldlM average (next a k v, k + 1) vs = _
      rw [h2, List.length_cons]
      exact congrArg (fun n => some (a', n)) (show k + 1 + vs.length = k + (vs.length + 1) by omega)
    · rw [List.length_cons, List.sum_cons, show k + (vs.length + 1) = k + 1 + vs.length by omega, ← add_assoc]
      exact h3

/-! ### The running values of a column -/

/-- The smaller number, as `std::min` picks it. -/
def lower (m v : ℚ) : ℚ := if v < m then v else m
/-- The larger number, as `std::max` picks it. -/
def upper (m v : ℚ) : ℚ := if m < v then v else m

theorem lower_fold (vs : List ℚ) : ∀ m, vs.foldl lower m ≤ m ∧ (∀ v ∈ vs, vs.foldl lower m ≤ v) ∧ (vs.foldl lower m = m ∨ vs.foldl lower m ∈ vs) := by
  induction vs with
  | nil => intro m; exact ⟨le_refl _, by simp, Or.inl rfl⟩
  | cons v vs ih =>
    intro m
    obtain ⟨h1, h2, h3⟩ := ih (lower m v)
    have l1 : lower m v ≤ m ∧ lower m v ≤ v ∧ (lower m v = m ∨ lower m v = v) := by
      unfold lower
      split
      · next h => exact ⟨h.le, le_refl _, Or.inr rfl⟩
      · next h => exact ⟨le_refl _, not_lt.1 h, Or.inl rfl⟩
    rw [List.foldl_cons]
    refine ⟨h1.trans l1.1, ?_, ?_⟩
    · intro w hw
      rcases List.mem_cons.1 hw with rfl | hw
      · exact h1.trans l1.2.1
      · exact h2 w hw
    · rcases h3 with h3 | h3
      · rcases l1.2.2 with h | h
        · exact Or.inl (h3.trans h)
        · exact Or.inr (by rw [h3, h]; simp)
      · exact Or.inr (List.mem_cons_of_mem _ h3)

theorem upper_fold (vs : List ℚ) : ∀ m, m ≤ vs.foldl upper m ∧ (∀ v ∈ vs, v ≤ vs.foldl upper m) ∧ (vs.foldl upper m = m ∨ vs.foldl upper m ∈ vs) := by
  induction vs with
  | nil => intro m; exact ⟨le_refl _, by simp, Or.inl rfl⟩
  | cons v vs ih =>
    intro m
    obtain ⟨h1, h2, h3⟩ := ih (upper m v)
    have l1 : m ≤ upper m v ∧ v ≤ upper m v ∧ (upper m v = m ∨ upper m v = v) := by
      unfold upper
      split
      · next h => exact ⟨h.le, le_refl _, Or.inr rfl⟩
      · next h => exact ⟨le_refl _, not_lt.1 h, Or.inl rfl⟩
    rw [List.foldl_cons]
    refine ⟨l1.1.trans h1, ?_, ?_⟩
    · intro w hw
      rcases List.mem_cons.1 hw with rfl | hw
      · exact l1.2.1.trans h1
      · exact h2 w hw
    · rcases h3 with h3 | h3
      · rcases l1.2.2 with h | h
        · exact Or.inl (h3.trans h)
        · exact Or.inr (by rw [h3, h]; simp)
      · exact Or.inr (List.mem_cons_of_mem _ h3)

theorem rep_multiple (k : Nat) (hk : k ≤ 2 ^ 53) : Rep (k * 2 ^ (258 : Int)) :=
  ⟨k, 258, by rw [Int.cast_natCast], by rw [Nat.abs_cast]; exact_mod_cast hk, by norm_num⟩

/-- What one step of the running values adds to the sum of squares. -/
theorem product_bounds {a v : ℚ} (ha : Rep a) (hv : Rep v) (k : Nat) (h0 : k = 0 → a = 0) (ma : |a| ≤ 2 ^ (128 : Int)) (mv : |v| ≤ 2 ^ (128 : Int)) :
    |next a k v| ≤ 2 ^ (128 : Int) ∧ 0 ≤ rnd (v - a) * rnd (v - next a k v) ∧ rnd (v - a) * rnd (v - next a k v) ≤ 2 ^ (258 : Int) ∧ (v = a → next a k v = a) := by
  have mn : |next a k v| ≤ 2 ^ (128 : Int) := by
    rcases Nat.eq_zero_or_pos k with hk | hk
    · subst hk
      rw [h0 rfl, next_zero v hv]
      exact mv
    · obtain ⟨b1, b2⟩ := next_between ha hv k hk
      rw [abs_le] at ma mv ⊢
      exact ⟨le_trans (le_min ma.1 mv.1) b1, b2.trans (max_le ma.2 mv.2)⟩
  have d1 := abs_rnd_le (by norm_num) (abs_sub_pow ma mv)
  have d2 := abs_rnd_le (by norm_num) (abs_sub_pow mn mv)
  refine ⟨mn, ?_, ?_, ?_⟩
  · rcases Nat.eq_zero_or_pos k with hk | hk
    · subst hk
      rw [h0 rfl, next_zero v hv, sub_self v, rnd_zero, mul_zero]
    · obtain ⟨b1, b2⟩ := next_between ha hv k hk
      rcases le_total a v with h | h
      · rw [max_eq_right h] at b2
        exact mul_nonneg (le_rnd rep_zero (by linarith)) (le_rnd rep_zero (by linarith))
      · rw [min_eq_right h] at b1
        exact mul_nonneg_of_nonpos_of_nonpos (rnd_le rep_zero (by linarith)) (rnd_le rep_zero (by linarith))
  · refine (le_abs_self _).trans ?_
    rw [abs_mul, show (2 : ℚ) ^ (258 : Int) = 2 ^ ((128 : Int) + 1) * 2 ^ ((128 : Int) + 1) by rw [← zpow_add₀ (by norm_num)]; norm_num]
    exact mul_le_mul d1 d2 (abs_nonneg _) (two_zpow_pos _).le
  · rintro rfl
    rcases Nat.eq_zero_or_pos k with hk | hk
    · subst hk
      rw [h0 rfl, next_zero 0 rep_zero]
    · obtain ⟨b1, b2⟩ := next_between ha hv k hk
      rw [min_self] at b1
      rw [max_self] at b2
      exact le_antisymm b2 b1

/-- Different from `c` by enough to be seen. -/
def Apart (c v : ℚ) : Prop := 2 ^ (-149 : Int) ≤ |v - c| ∧ |v| ≤ 2 ^ (25 : Int) * |v - c| ∧ |c| ≤ 2 ^ (25 : Int) * |v - c|

/-- A value that differs from all before adds to the sum of squares. -/
theorem product_pos {c v : ℚ} (hc : Rep c) (hv : Rep v) (k : Nat) (hk : 0 < k) (h : Apart c v) : 2 ^ (-300 : Int) ≤ |rnd (v - c) * rnd (v - next c k v)| := by
  obtain ⟨h1, h2, h3⟩ := h
  have lower : ∀ x : ℚ, ∀ e : Int, -1074 ≤ e → 2 ^ e ≤ |x| → 2 ^ e ≤ |rnd x| := by
    intro x e he hx
    rcases le_total 0 x with hx0 | hx0
    · rw [abs_of_nonneg hx0] at hx
      exact (le_rnd (rep_pow he) hx).trans (le_abs_self _)
    · rw [abs_of_nonpos hx0] at hx
      have := rnd_le (rep_pow he).neg (by linarith : x ≤ -2 ^ e)
      exact (by linarith : (2 : ℚ) ^ e ≤ -rnd x).trans (neg_le_abs _)
  have d1 := lower _ _ (by norm_num) h1
  have he := next_error (M := 2 ^ (25 : Int) * |v - c|) k hk hc hv h3 h2 (by
    refine le_trans ?_ (mul_le_mul_of_nonneg_left h1 (two_zpow_pos 25).le)
    rw [← zpow_add₀ (by norm_num)]
    exact zpow_le_zpow_right₀ (by norm_num) (by norm_num))
  have hu : (2 : ℚ) ^ (-53 : Int) * 2 ^ (25 : Int) ≤ 1 / 64 := by
    rw [← zpow_add₀ (by norm_num)]
    norm_num
  have d0 : |v - c| ≤ 4 * |v - next c k v| := by
    have hK : (2 : ℚ) ≤ ((k + 1 : Nat) : ℚ) := by exact_mod_cast (by omega : 2 ≤ k + 1)
    generalize ((k + 1 : Nat) : ℚ) = K at *
    have hD := abs_nonneg (v - c)
    have e1 : |(v - c) / K| ≤ |v - c| / 2 := by
      rw [abs_div, abs_of_pos (by linarith : 0 < K), div_le_div_iff₀ (by linarith) (by norm_num)]
      nlinarith
    have e2 : 7 * 2 ^ (-53 : Int) * (2 ^ (25 : Int) * |v - c|) ≤ |v - c| / 8 := by
      have := mul_le_mul_of_nonneg_right hu hD
      nlinarith
    have e3 : v - c = (v - next c k v) + (next c k v - (c + (v - c) / K)) + (v - c) / K := by ring
    have e4 := abs_add_le ((v - next c k v) + (next c k v - (c + (v - c) / K))) ((v - c) / K)
    have e5 := abs_add_le (v - next c k v) (next c k v - (c + (v - c) / K))
    rw [← e3] at e4
    linarith
  have d2 := lower (v - next c k v) (-151) (by norm_num) (by
    have : (2 : ℚ) ^ (-149 : Int) = 4 * 2 ^ (-151 : Int) := by
      rw [show (-149 : Int) = 2 + -151 by norm_num, zpow_add₀ (by norm_num)]
      norm_num
    rw [this] at h1
    linarith)
  rw [abs_mul, show (-300 : Int) = -149 + -151 by norm_num, zpow_add₀ (by norm_num)]
  exact mul_le_mul d1 d2 (two_zpow_pos _).le (abs_nonneg _)

/-- The running values after a list. -/
theorem running_run (vs : List ℚ) : ∀ s : Running, Rep s.mean → |s.mean| ≤ 2 ^ (128 : Int) → (s.total = 0 → s.mean = 0) → 0 ≤ s.m2 → s.m2 ≤ s.total * 2 ^ (258 : Int) →
    Rep s.m2 → (∀ v ∈ vs, Rep v ∧ |v| ≤ 2 ^ (128 : Int)) → s.total + vs.length ≤ 2 ^ 53 →
      ∃ s', vs.foldlM Running.step s = some s' ∧ vs.foldlM average (s.mean, s.total) = some (s'.mean, s'.total) ∧ s'.total = s.total + vs.length ∧ 0 ≤ s'.m2 ∧
        s'.m2 ≤ s'.total * 2 ^ (258 : Int) ∧ s'.min = vs.foldl lower s.min ∧ s'.max = vs.foldl upper s.max ∧
        (∀ c, (s.total = 0 ∨ s.mean = c) → (∀ v ∈ vs, v = c) → s'.m2 = s.m2) ∧ s.m2 ≤ s'.m2 ∧
        ∀ c, (s.total = 0 ∧ vs.head? = some c ∨ 0 < s.total ∧ s.mean = c) → (∀ v ∈ vs, v ≠ c → Apart c v) → (∃ v ∈ vs, v ≠ c) → 2 ^ (-300 : Int) ≤ s'.m2 := by
  induction vs with
  | nil => intro s _ _ _ h1 h2 _ _ _; exact ⟨s, rfl, rfl, rfl, h1, h2, rfl, rfl, fun _ _ _ => rfl, le_refl _, fun _ _ _ h => by simp at h⟩
  | cons v vs ih =>
    intro s hs ms h0 q0 q1 hq hv hlen
    rw [List.length_cons] at hlen
    obtain ⟨rv, mv⟩ := hv v (by simp)
    obtain ⟨s1, s2, s3⟩ := average_step s.mean v s.total 128 (by norm_num) (by norm_num) ms mv
    obtain ⟨mn, p0, p1, p2⟩ := product_bounds hs rv s.total h0 ms mv
    have big : ∀ f : Int, f ≤ 1000 → (2 : ℚ) ^ f ≤ 2 ^ (1000 : Int) := fun f hf => zpow_le_zpow_right₀ (by norm_num) hf
    have s4 : op (v - next s.mean s.total v) = some (rnd (v - next s.mean s.total v)) :=
      op_some ((abs_sub_pow mn mv).trans (big _ (by norm_num)))
    have s5 : op (rnd (v - s.mean) * rnd (v - next s.mean s.total v)) = some (rnd (rnd (v - s.mean) * rnd (v - next s.mean s.total v))) := by
      refine op_some ?_
      rw [abs_of_nonneg p0]
      exact p1.trans (big _ (by norm_num))
    have r0 := le_rnd rep_zero p0
    have r1 := rnd_le (rep_pow (by norm_num)) p1
    have zero : v = s.mean → rnd (rnd (v - s.mean) * rnd (v - next s.mean s.total v)) = 0 := by
      intro h
      rw [h, sub_self, rnd_zero, zero_mul, rnd_zero]
    have first : s.total = 0 → rnd (rnd (v - s.mean) * rnd (v - next s.mean s.total v)) = 0 := by
      intro h
      rw [h0 h, h, next_zero v rv, sub_self, rnd_zero, mul_zero, rnd_zero]
    have n1 : s.total = 0 → next s.mean s.total v = v := by
      intro h
      rw [h0 h, h, next_zero v rv]
    have pos : 0 < s.total → Apart s.mean v → 2 ^ (-300 : Int) ≤ rnd (rnd (v - s.mean) * rnd (v - next s.mean s.total v)) := by
      intro hk h
      have := product_pos hs rv s.total hk h
      rw [abs_of_nonneg p0] at this
      exact le_rnd (rep_pow (by norm_num)) this
    generalize hd : rnd (v - s.mean) = d at *
    generalize hn : next s.mean s.total v = n at *
    generalize hd2 : rnd (v - n) = d2 at *
    generalize hp : rnd (d * d2) = p at *
    have t0 : (0 : ℚ) ≤ s.m2 + p := by linarith
    have t1 : s.m2 + p ≤ ((s.total + 1 : Nat) : ℚ) * 2 ^ (258 : Int) := by
      rw [Nat.cast_add, Nat.cast_one, add_mul, one_mul]
      exact add_le_add q1 r1
    have s6 : op (s.m2 + p) = some (rnd (s.m2 + p)) := by
      refine op_some ?_
      rw [abs_of_nonneg t0]
      refine t1.trans ?_
      refine le_trans (mul_le_mul_of_nonneg_right (show ((s.total + 1 : Nat) : ℚ) ≤ 2 ^ (53 : Int) by
        rw [show (2 : ℚ) ^ (53 : Int) = ((2 ^ 53 : Nat) : ℚ) by norm_cast]
        exact_mod_cast (by omega : s.total + 1 ≤ 2 ^ 53)) (two_zpow_pos _).le) ?_
      rw [← zpow_add₀ (by norm_num)]
      exact big _ (by norm_num)
    have ha : average (s.mean, s.total) v = some (n, s.total + 1) := by
      unfold average
      dsimp only
      rw [s1]
      show (op (d / (s.total + 1 : Nat))).bind _ = _
      rw [s2]
      show (op (s.mean + rnd (d / (s.total + 1 : Nat)))).bind _ = _
      rw [s3]
      rfl
    have hstep : Running.step s v = some ⟨n, rnd (s.m2 + p), s.total + 1, lower s.min v, upper s.max v⟩ := by
      unfold Running.step
      rw [s1]
      show (op (d / (s.total + 1 : Nat))).bind _ = _
      rw [s2]
      show (op (s.mean + rnd (d / (s.total + 1 : Nat)))).bind _ = _
      rw [s3]
      show (op (v - n)).bind _ = _
      rw [s4]
      show (op (d * d2)).bind _ = _
      rw [s5]
      show (op (s.m2 + p)).bind _ = _
      rw [s6]
      rfl
    obtain ⟨s', g1, g2, g3, g4, g5, g6, g7, g8, g9, g10⟩ := ih ⟨n, rnd (s.m2 + p), s.total + 1, lower s.min v, upper s.max v⟩ (hn ▸ next_rep _ _ _) mn
      (fun h => absurd h (Nat.succ_ne_zero _)) (le_rnd rep_zero t0) (rnd_le (rep_multiple (s.total + 1) (by omega)) t1) (rep_rnd _)
      (fun w hw => hv w (List.mem_cons_of_mem _ hw)) (by show s.total + 1 + vs.length ≤ _; omega)
    have more : s.m2 ≤ rnd (s.m2 + p) := le_rnd hq (by linarith)
    refine ⟨s', ?_, ?_, ?_, g4, g5, g6, g7, ?_, more.trans g9, ?_⟩
    · rw [List.foldlM_cons, hstep]
      exact g1
    · rw [List.foldlM_cons, ha]
      exact g2
    · rw [g3, List.length_cons]
      show s.total + 1 + vs.length = _
      omega
    · intro c hc hall
      have hvc := hall v (by simp)
      have hp0 : p = 0 ∧ n = c := by
        rcases hc with h | h
        · exact ⟨first h, (n1 h).trans hvc⟩
        · exact ⟨zero (hvc.trans h.symm), (p2 (hvc.trans h.symm)).trans h⟩
      rw [g8 c (Or.inr hp0.2) (fun w hw => hall w (List.mem_cons_of_mem _ hw))]
      show rnd (s.m2 + p) = _
      rw [hp0.1, add_zero, rnd_rep hq]
    · intro c hc hap hex
      by_cases hvc : v = c
      · refine g10 c (Or.inr ⟨Nat.succ_pos _, ?_⟩) (fun w hw => hap w (List.mem_cons_of_mem _ hw)) ?_
        · show n = c
          rcases hc with h | h
          · exact (n1 h.1).trans hvc
          · exact (p2 (hvc.trans h.2.symm)).trans h.2
        · obtain ⟨w, hw, hwc⟩ := hex
          rcases List.mem_cons.1 hw with rfl | hw
          · exact absurd hvc hwc
          · exact ⟨w, hw, hwc⟩
      · rcases hc with h | h
        · simp at h
          exact absurd h.2 hvc
        · have := pos h.1 (h.2 ▸ hap v (by simp) hvc)
          have h2 : (2 : ℚ) ^ (-300 : Int) ≤ rnd (s.m2 + p) := le_rnd (rep_pow (by norm_num)) (by linarith)
          exact h2.trans g9

/-- Different floats differ by enough. -/
theorem gap (a b : F32) (h : value a.bits ≠ value b.bits) : a.units ≤ 2 ^ 25 * (value a.bits - value b.bits).natAbs := by
  have form : ∀ x : F32, ∃ m s : Nat, x.units = m * 2 ^ s ∧ m < 2 ^ 24 ∧ (s = 0 ∨ 2 ^ 23 ≤ m) := by
    intro x
    have hf : frac x.bits < 2 ^ 23 := Nat.mod_lt _ (by norm_num)
    unfold F32.units magUnits
    split
    · exact ⟨frac x.bits, 0, by simp, by omega, Or.inl rfl⟩
    · exact ⟨2 ^ 23 + frac x.bits, expo x.bits - 1, rfl, by omega, Or.inr (by omega)⟩
  obtain ⟨m, s, ha, hm, hs⟩ := form a
  obtain ⟨m', s', hb, hm', -⟩ := form b
  have hva := value_units a
  have hvb := value_units b
  generalize value a.bits = x at *
  generalize value b.bits = y at *
  have hx : x.natAbs = a.units := by rw [hva]; split <;> omega
  have hy : y.natAbs = b.units := by rw [hvb]; split <;> omega
  have hD : 1 ≤ (x - y).natAbs := by omega
  rcases Nat.eq_zero_or_pos s with h0 | h0
  · rw [ha, h0]
    omega
  · have hs' : 2 ^ 23 ≤ m := by omega
    obtain ⟨r, rfl⟩ : ∃ r, s = r + 1 := ⟨s - 1, by omega⟩
    rcases Nat.lt_or_ge s' r with hr | hr
    · obtain ⟨q, rfl⟩ : ∃ q, r = s' + 1 + q := ⟨r - s' - 1, by omega⟩
      have e1 : a.units = m * 4 * 2 ^ q * 2 ^ s' := by
        rw [ha, show s' + 1 + q + 1 = q + s' + 2 by omega, pow_add, pow_add]
        ring
      have hq := Nat.one_le_two_pow (n := q)
      have hp := Nat.one_le_two_pow (n := s')
      have e2 : 2 * b.units ≤ a.units := by
        rw [e1, hb, ← Nat.mul_assoc]
        refine Nat.mul_le_mul_right _ ?_
        calc 2 * m' ≤ m * 4 * 1 := by omega
          _ ≤ m * 4 * 2 ^ q := Nat.mul_le_mul_left _ hq
      omega
    · have dvd : ∀ z : Int, ∀ n t : Nat, z.natAbs = n * 2 ^ t → r ≤ t → (2 ^ r : Int) ∣ z := by
        intro z n t hz ht
        rw [Int.dvd_natAbs.symm, hz]
        exact_mod_cast Dvd.dvd.mul_left (pow_dvd_pow 2 ht) n
      have h1 := dvd x m (r + 1) (hx.trans ha) (by omega)
      have h2 := dvd y m' s' (hy.trans hb) hr
      have h3 := Int.natAbs_dvd_natAbs.2 (dvd_sub h1 h2)
      have h4 := Nat.le_of_dvd hD h3
      rw [Int.natAbs_pow] at h4
      have h5 : 2 ^ r ≤ (x - y).natAbs := h4
      rw [ha, pow_succ]
      calc m * (2 ^ r * 2) ≤ 2 ^ 24 * (2 ^ r * 2) := Nat.mul_le_mul_right _ hm.le
        _ = 2 ^ 25 * 2 ^ r := by ring
        _ ≤ _ := Nat.mul_le_mul_left _ h5

theorem number_apart (a b : F32) (h : number a ≠ number b) : Apart (number b) (number a) := by
  have hp : (0 : ℚ) < 2 ^ 149 := by positivity
  have hne : value a.bits ≠ value b.bits := by
    intro he
    exact h (by unfold number; rw [he])
  have hdiff : |number a - number b| = ((value a.bits - value b.bits).natAbs : ℚ) / 2 ^ 149 := by
    unfold number
    rw [← sub_div, abs_div, abs_of_pos hp, Nat.cast_natAbs]
    push_cast
    rfl
  have g1 := gap a b hne
  have g2 := gap b a hne.symm
  rw [show (value b.bits - value a.bits).natAbs = (value a.bits - value b.bits).natAbs by omega] at g2
  have h1 : 1 ≤ (value a.bits - value b.bits).natAbs := by omega
  have big : (2 : ℚ) ^ (25 : Int) = ((2 ^ 25 : Nat) : ℚ) := by norm_cast
  unfold Apart
  rw [hdiff, units_number, units_number, big]
  refine ⟨?_, ?_, ?_⟩
  · rw [show (2 : ℚ) ^ (-149 : Int) = 1 / 2 ^ 149 by rw [zpow_neg, one_div]; norm_cast, div_le_div_iff_of_pos_right hp]
    exact_mod_cast h1
  · rw [← mul_div_assoc, div_le_div_iff_of_pos_right hp]
    exact_mod_cast g1
  · rw [← mul_div_assoc, div_le_div_iff_of_pos_right hp]
    exact_mod_cast g2

/-! ### Converting to `float` -/

theorem toFloat_error (x : ℚ) (h : |x| ≤ 2 ^ 127) : Finite (toFloat x) ∧ |number (toFloat x) - x| ≤ 1 / 2 ^ 24 * |x| + 1 / 2 ^ 150 := by
  have hden : 0 < x.den := x.den_pos
  have hden' : (0 : ℚ) < x.den := by exact_mod_cast hden
  have habs : ((x.num.natAbs * 2 ^ 149 : Nat) : ℚ) / x.den / 2 ^ 149 = |x| := by
    have e : |x| * x.den = |(x.num : ℚ)| := by
      rw [← abs_of_pos hden', ← abs_mul]
      congr 1
      exact Rat.mul_den_eq_num x
    rw [Nat.cast_mul, Nat.cast_pow, Nat.cast_ofNat, Nat.cast_natAbs, Int.cast_abs, ← e]
    have hp : (0 : ℚ) < 2 ^ 149 := by positivity
    generalize (2 : ℚ) ^ 149 = p at *
    field_simp
  have hr : ((x.num.natAbs * 2 ^ 149 : Nat) : ℝ) / x.den / 2 ^ 149 = ((|x| : ℚ) : ℝ) := by
    rw [← habs]
    push_cast
    rfl
  obtain ⟨r1, r2⟩ := rounded_real (decide (x < 0)) (x.num.natAbs * 2 ^ 149) x.den hden (by
    rw [hr]
    exact_mod_cast h)
  refine ⟨r1, ?_⟩
  rw [hr] at r2
  have hs : (if decide (x < 0) = true then (-1 : ℝ) else 1) * ((|x| : ℚ) : ℝ) = (x : ℝ) := by
    by_cases hx : x < 0
    · rw [abs_of_neg hx]
      simp [hx]
    · rw [abs_of_nonneg (not_lt.1 hx)]
      simp [hx]
  rw [hs] at r2
  have hη : (if x.den = 1 then (0 : ℝ) else η) ≤ η := by split <;> [exact η_pos.le; exact le_refl _]
  have r3 : |real (toFloat x) - (x : ℝ)| ≤ u * ((|x| : ℚ) : ℝ) + η := r2.trans (by linarith)
  rw [real_number] at r3
  unfold u η at r3
  have : ((|number (toFloat x) - x| : ℚ) : ℝ) ≤ ((1 / 2 ^ 24 * |x| + 1 / 2 ^ 150 : ℚ) : ℝ) := by
    push_cast at r3 ⊢
    exact r3
  exact_mod_cast this

end Verif.FloatStatistics
