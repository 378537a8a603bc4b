import Verif.Lemmas.FloatAdam
import Verif.Lemmas.FloatUpdate
import Verif.Lemmas.FloatSoftmax
import Verif.Spec.FloatMomentum

/-!
How products with 0.9 shrink and when sums do not change, for momentum.
-/
namespace Verif.FloatMomentum
open Verif FloatBits Rounding FloatOrder FloatActivation FloatLoss FloatAdam

/-- Neighbouring floats from the tenth on differ by at most a tenth. -/
theorem pattern_gap (r : Nat) (h : 9 ≤ r) : 9 * pattern (r + 1) ≤ 10 * pattern r := by
  unfold pattern magUnits
  have hd := Nat.div_add_mod r (2 ^ 23)
  have hm := Nat.mod_lt r (show 0 < 2 ^ 23 by norm_num)
  obtain ⟨e, he⟩ : ∃ e, r / 2 ^ 23 = e := ⟨_, rfl⟩
  obtain ⟨f, hf⟩ : ∃ f, r % 2 ^ 23 = f := ⟨_, rfl⟩
  rw [he, hf] at hd
  rw [hf] at hm
  rw [he, hf]
  by_cases hl : f + 1 = 2 ^ 23
  · have e1 : (r + 1) / 2 ^ 23 = e + 1 := by omega
    have e2 : (r + 1) % 2 ^ 23 = 0 := by omega
    rw [e1, e2, if_neg (by omega)]
    by_cases h0 : e = 0
    · subst h0
      rw [if_pos rfl]
      simp only [Nat.zero_add, Nat.sub_self, pow_zero]
      omega
    · rw [if_neg h0]
      obtain ⟨d, rfl⟩ : ∃ d, e = d + 1 := ⟨e - 1, by omega⟩
      rw [show d + 1 + 1 - 1 = d + 1 by omega, show d + 1 - 1 = d by omega, Nat.pow_succ]
      have hp := Nat.two_pow_pos d
      rw [show f = 2 ^ 23 - 1 by omega]
      obtain ⟨p, hq⟩ : ∃ p : Nat, 2 ^ d = p := ⟨_, rfl⟩
      rw [hq] at hp ⊢
      omega
  · have e1 : (r + 1) / 2 ^ 23 = e := by omega
    have e2 : (r + 1) % 2 ^ 23 = f + 1 := by omega
    rw [e1, e2]
    by_cases h0 : e = 0
    · subst h0
      rw [if_pos rfl, if_pos rfl]
      omega
    · rw [if_neg h0, if_neg h0]
      rw [← Nat.mul_assoc, ← Nat.mul_assoc]
      refine Nat.mul_le_mul_right _ ?_
      omega

/-- The float with a pattern. -/
def ofPattern (r : Nat) : F32 := ⟨BitVec.ofNat 32 r⟩

theorem ofPattern_units (r : Nat) (h : r < 0x7F800000) : Rounding.Finite (ofPattern r) ∧ (ofPattern r).units = pattern r := by
  have ht : (ofPattern r).bits.toNat = r := by
    unfold ofPattern
    rw [BitVec.toNat_ofNat]
    exact Nat.mod_eq_of_lt (by omega)
  refine ⟨?_, ?_⟩
  · unfold Rounding.Finite isFinite expo
    rw [ht]
    have : r / 2 ^ 23 % 256 ≠ 255 := by omega
    simpa using this
  · rw [units_pattern]
    unfold mag
    rw [ht]
    congr 1
    omega

theorem finite_mag (a : F32) (h : Rounding.Finite a) : mag a.bits < 0x7F800000 := by
  have h1 : expo a.bits ≠ 255 := by simpa [Rounding.Finite, isFinite] using h
  unfold expo at h1
  unfold mag
  omega

theorem factor_units : factor.units = 15099494 * 2 ^ 125 := by decide +kernel

theorem factor_finite : Rounding.Finite factor := by decide

/-- Nine tenths of a float. -/
theorem shrink (a : F32) (ha : Rounding.Finite a) :
    Rounding.Finite (factor * a) ∧ (factor * a).units ≤ a.units ∧ (four.units < a.units → (factor * a).units < a.units) ∧
      (a.units ≤ four.units → (factor * a).units ≤ four.units) := by
  have h5 : four.units = 4 := by decide
  have split : (2 : Nat) ^ 149 = 2 ^ 24 * 2 ^ 125 := by rw [← pow_add]
  have hpos := Nat.two_pow_pos 125
  have key : ∀ q : F32, Rounding.Finite q → 15099494 * a.units ≤ q.units * 2 ^ 24 → Rounding.Finite (factor * a) ∧ (factor * a).units ≤ q.units := by
    intro q hq h
    refine mul_units_le factor a q factor_finite ha hq ?_
    rw [factor_units, split]
    generalize (2 : Nat) ^ 125 = p at *
    calc 15099494 * p * a.units = 15099494 * a.units * p := by ring
      _ ≤ q.units * 2 ^ 24 * p := Nat.mul_le_mul_right _ h
      _ = q.units * (2 ^ 24 * p) := by ring
  obtain ⟨k1, k2⟩ := key a ha (by
    generalize a.units = x
    omega)
  refine ⟨k1, k2, ?_, ?_⟩
  · rw [h5]
    intro h
    have hm := finite_mag a ha
    have hu := units_pattern a
    by_cases h9 : 10 ≤ mag a.bits
    · obtain ⟨r, hr⟩ : ∃ r, mag a.bits = r + 1 := ⟨mag a.bits - 1, by omega⟩
      obtain ⟨o1, o2⟩ := ofPattern_units r (by omega)
      have hg := pattern_gap r (by omega)
      have hs := pattern_step r
      rw [hr] at hu
      refine lt_of_le_of_lt (key (ofPattern r) o1 ?_).2 (by rw [o2, hu]; exact hs)
      rw [o2, hu]
      generalize pattern r = x at *
      generalize pattern (r + 1) = y at *
      omega
    · have hp : a.units = mag a.bits := by
        rw [hu]
        unfold pattern magUnits
        rw [if_pos (by omega)]
        omega
      rw [mul_facts factor a factor_finite ha, factor_units]
      generalize hk : a.units = k at *
      have : k = 5 ∨ k = 6 ∨ k = 7 ∨ k = 8 ∨ k = 9 := by omega
      generalize (neg factor.bits != neg a.bits) = b
      clear key k1 k2 hu hm
      rcases this with rfl | rfl | rfl | rfl | rfl <;> cases b <;> decide +kernel
  · intro h
    exact le_trans k2 h

/-- A sum with a number of at most `4 * 2^-149` is the other number, if that is not small. -/
theorem add_tiny (w c : F32) (hw : Rounding.Finite w) (hc : Rounding.Finite c) (h : c.units ≤ four.units) (hb : small.units ≤ w.units) :
    Rounding.Finite (w + c) ∧ val (w + c) = val w := by
  have h5 : four.units = 4 := by decide
  have hs : small.units = 2 ^ 28 := by decide +kernel
  rw [h5] at h
  rw [hs] at hb
  obtain ⟨n1, -, -, n4⟩ := add_facts w c hw (finite_num _ hc)
  have hi := (finite_not c hc).2
  have fin : Rounding.Finite (w + c) := add_small_finite w c hw hc (le_trans h (by decide +kernel))
  have a1 := val_abs w
  have a2 := val_abs c
  have h0 : val w + val c ≠ 0 := by omega
  have e := n4 hi h0
  obtain ⟨n, hn⟩ : ∃ n, (val w + val c).natAbs = n := ⟨_, rfl⟩
  rw [hn] at e
  have hsign : decide (val w + val c < 0) = neg w.bits := by
    have := val_units w
    cases hneg : neg w.bits
    · rw [hneg] at this
      simp only [Bool.false_eq_true, if_false] at this
      rw [decide_eq_false_iff_not]
      omega
    · rw [hneg] at this
      simp only [if_true] at this
      rw [decide_eq_true_iff]
      omega
  have hclose : n ≤ w.units + 5 ∧ w.units ≤ n + 5 := by omega
  have hu : (w + c).units = w.units := by
    have gap : ∀ q : F32, q.units ≤ w.units + 10 → w.units ≤ q.units + 10 → q.units = w.units := by
      intro q q1 q2
      rcases lt_trichotomy q.units w.units with hlt | heq | hlt
      · have := units_gap q w hlt
        generalize q.units = x at *
        generalize w.units = y at *
        omega
      · exact heq
      · have := units_gap w q hlt
        generalize q.units = x at *
        generalize w.units = y at *
        omega
    have htop : top = most.units := by decide +kernel
    by_cases hmax : n ≤ top
    · refine gap _ ?_ ?_ <;>
      · rw [e]
        have := rounded_nearest (decide (val w + val c < 0)) n hmax w hw
        rw [abs_le] at this
        have h7 : |(w.units : Int) - n| ≤ 5 := by rw [abs_le]; omega
        generalize (F32.rounded (decide (val w + val c < 0)) n 1).units = x at *
        generalize w.units = y at *
        obtain ⟨t1, t2⟩ := this
        omega
    · have hm := finite_most w hw
      rw [htop] at hmax
      have h9 : most.units = w.units := by
        refine gap most ?_ ?_ <;>
        · generalize most.units = x at *
          generalize w.units = y at *
          omega
      have hm2 := finite_most (w + c) fin
      refine le_antisymm (by rw [← h9]; exact hm2) ?_
      rw [e, ← h9]
      exact le_rounded _ _ _ (by omega) most (by decide) (by omega)
  refine ⟨fin, ?_⟩
  rw [val_units, val_units, hu, e, rounded_neg, hsign]

/-- A number of at most 2^98 does not take a finite float beyond the finite floats. -/
theorem add_98_finite (w c : F32) (hw : Rounding.Finite w) (hc : Rounding.Finite c) (h : c.units ≤ two98.units) : Rounding.Finite (w + c) := by
  obtain ⟨n1, -, n3, n4⟩ := add_facts w c hw (finite_num _ hc)
  have hi := (finite_not c hc).2
  have hm := finite_most w hw
  have a1 := val_abs w
  have a2 := val_abs c
  refine finite_of_le _ most n1 (by decide) ?_
  by_cases h0 : val w + val c = 0
  · have := val_abs (w + c)
    rw [n3 hi h0] at this
    rw [← this]
    exact Nat.zero_le _
  · rw [n4 hi h0]
    have hle : (val w + val c).natAbs * 1 ≤ (most.units + two98.units) * 1 := by
      generalize most.units = M at *
      generalize two98.units = T at *
      omega
    refine le_trans (rounded_mono _ false _ 1 _ 1 (by omega) (by omega) hle) ?_
    decide +kernel

/-- The sign of a product and of a quotient. -/
theorem mul_neg (a b : F32) (h : Num (a * b)) : neg (a * b).bits = (neg a.bits != neg b.bits) := by
  have h' : Num (F32.mul a b) := h
  show neg (F32.mul a b).bits = _
  revert h'
  unfold F32.mul
  split
  · intro h; exact absurd h (by decide)
  · split
    · split
      · intro h; exact absurd h (by decide)
      · intro _
        generalize (neg a.bits != neg b.bits) = q
        cases q <;> decide
    · intro _
      rw [rounded_neg]

theorem div_neg (a b : F32) (h : Num (a / b)) : neg (a / b).bits = (neg a.bits != neg b.bits) := by
  have h' : Num (F32.div a b) := h
  show neg (F32.div a b).bits = _
  revert h'
  unfold F32.div
  split
  · intro h; exact absurd h (by decide)
  · split
    · split
      · intro h; exact absurd h (by decide)
      · intro _
        generalize (neg a.bits != neg b.bits) = q
        cases q <;> decide
    · split
      · intro _
        generalize (neg a.bits != neg b.bits) = q
        cases q <;> decide
      · split
        · split
          · intro h; exact absurd h (by decide)
          · intro _
            generalize (neg a.bits != neg b.bits) = q
            cases q <;> decide
        · intro _
          rw [rounded_neg]

/-- A quotient of something not positive by something positive is not positive (or NaN). -/
theorem div_nonpos (a d : F32) (ha : val a ≤ 0) (hd : 0 < val d) (h : Num (a / d)) : val (a / d) ≤ 0 := by
  have nd : neg d.bits = false := by
    have := val_units d
    cases hn : neg d.bits
    · rfl
    · rw [hn] at this
      simp only [if_true] at this
      omega
  have hs := div_neg a d h
  rw [nd] at hs
  cases hn : neg a.bits
  · have hz : a.units = 0 := by
      have := val_units a
      rw [hn] at this
      simp only [Bool.false_eq_true, if_false] at this
      omega
    have hdu : d.units ≠ 0 := by
      have := val_units d
      rw [nd] at this
      simp only [Bool.false_eq_true, if_false] at this
      omega
    have hai : isInf a.bits = false := by
      cases hi : isInf a.bits
      · rfl
      · have hnum : Num a := by
          by_contra hc
          exact nan_div a d (Or.inl hc) h
        rcases num_cases a hnum with ⟨-, h2⟩ | ⟨-, h2⟩
        · rw [hi] at h2; exact absurd h2 (by simp)
        · rw [hz] at h2; exact absurd h2 (by decide +kernel)
    have hv : val (F32.div a d) ≤ 0 := by
      have h' : Num (F32.div a d) := h
      revert h'
      unfold F32.div
      rw [hai, hn, nd, hz]
      split
      · intro h; exact absurd h (by decide)
      · rw [if_neg (by simp)]
        split
        · intro _; decide +kernel
        · intro _
          have e := rounded_le false (0 * 2 ^ 149) d.units (Nat.pos_of_ne_zero hdu) 0 (by decide) (by rw [Nat.zero_mul]; exact Nat.zero_le _)
          rw [show F32.units 0 = 0 by decide] at e
          have := val_abs (F32.rounded false (0 * 2 ^ 149) d.units)
          show val (F32.rounded false (0 * 2 ^ 149) d.units) ≤ 0
          omega
    exact hv
  · rw [hn] at hs
    have := val_units (a / d)
    rw [hs] at this
    simp only [Bool.bne_false, if_true] at this
    omega

/-- The bounded factor of the first moment. -/
theorem clamp_facts (d : F32) : Rounding.Finite (least largest (greatest smallest d)) ∧ 0 < val (least largest (greatest smallest d)) := by
  have h3 : 0 < val smallest ∧ 0 < val largest := by decide +kernel
  unfold least greatest
  by_cases a : F32.lt smallest d = true
  · rw [if_pos a]
    obtain ⟨-, d1, d2⟩ := (lt_iff _ _).mp a
    by_cases b : F32.lt d largest = true
    · rw [if_pos b]
      have hb := (lt_iff _ _).mp b
      have hpos : 0 < val d := by omega
      have u1 := units_val d hpos.le
      have u2 := units_val largest h3.2.le
      exact ⟨finite_of_le d largest d1 (by decide) (by omega), hpos⟩
    · rw [if_neg b]
      exact ⟨by decide, h3.2⟩
  · rw [if_neg a]
    split
    · exact ⟨by decide, h3.1⟩
    · exact ⟨by decide, h3.2⟩

/-- What the decay returns for an average that is not positive. -/
theorem not_positive (m f s : F32) (hm : F32.lt 0 m = false) (hf : Rounding.Finite f) (h0 : 0 < val f) (hs : Number s → F32.ge s 0 = true) :
    least largest (greatest smallest (m * f / (s + FloatAdam.epsilon))) = smallest := by
  have key : F32.lt smallest (m * f / (s + FloatAdam.epsilon)) = false := by
    by_contra hc
    rw [Bool.not_eq_false] at hc
    obtain ⟨-, d1, d2⟩ := (lt_iff _ _).mp hc
    have hd : Num (s + FloatAdam.epsilon) := by
      by_contra h
      exact nan_div _ _ (Or.inr h) d1
    have ha : Num (m * f) := by
      by_contra h
      exact nan_div _ _ (Or.inl h) d1
    have hm1 : Num m := by
      by_contra h
      exact nan_mul _ _ (Or.inl h) ha
    have hs1 : Num s := by
      by_contra h
      exact nan_add _ _ (Or.inl h) hd
    have hm0 : val m ≤ 0 := by
      by_contra h
      rw [(lt_iff _ _).mpr ⟨num_zero, hm1, by rw [val_zero]; omega⟩] at hm
      exact absurd hm (by simp)
    have hs0 := ((ge_iff _ _).mp (hs hs1)).2.2
    rw [val_zero] at hs0
    have he : Rounding.Finite FloatAdam.epsilon := by decide
    have hpos : 0 < val (s + FloatAdam.epsilon) := by
      have h1 := add_mono FloatAdam.epsilon 0 s he num_zero hs1 (by rw [val_zero]; exact hs0)
      rw [(add_zero_val FloatAdam.epsilon 0 he (by decide) val_zero).2] at h1
      have h2 : 0 < val FloatAdam.epsilon := consts.2.2.2.2.2.2.2.2.2
      rw [FloatSoftmax.add_comm_num s FloatAdam.epsilon hs1 (by decide)]
      omega
    have hmf : val (m * f) ≤ 0 := by
      have hmn := mul_neg m f ha
      have nf : neg f.bits = false := by
        have := val_units f
        cases hn : neg f.bits
        · rfl
        · rw [hn] at this
          simp only [if_true] at this
          omega
      rw [nf] at hmn
      cases hn : neg m.bits
      · have hz : m.units = 0 := by
          have := val_units m
          rw [hn] at this
          simp only [Bool.false_eq_true, if_false] at this
          omega
        have hfin : Rounding.Finite m := finite_of_le m 0 hm1 (by decide) (by omega)
        exact (mul_zero_val m f hfin hf (Or.inl hz)).le
      · rw [hn] at hmn
        have := val_units (m * f)
        rw [hmn] at this
        simp only [Bool.bne_false, if_true] at this
        omega
    have hq := div_nonpos _ _ hmf hpos d1
    have h3 : 0 < val smallest := by decide +kernel
    omega
  unfold greatest
  rw [key]
  simp only [Bool.false_eq_true, if_false]
  decide

theorem not_finite_add (a b : F32) (h : ¬ Rounding.Finite a ∨ ¬ Rounding.Finite b) : ¬ Rounding.Finite (a + b) := by
  by_cases hn : Num a ∧ Num b
  · have hi : isInf a.bits = true ∨ isInf b.bits = true := by
      rcases h with h | h
      · rcases num_cases a hn.1 with ⟨h2, -⟩ | ⟨h2, -⟩
        · exact absurd h2 h
        · exact Or.inl h2
      · rcases num_cases b hn.2 with ⟨h2, -⟩ | ⟨h2, -⟩
        · exact absurd h2 h
        · exact Or.inr h2
    show ¬ Rounding.Finite (F32.add a b)
    unfold F32.add
    split
    · decide
    · split
      · rename_i h2
        split
        · decide
        · intro h3
          have := (finite_not a h3).2
          rw [h2] at this
          exact absurd this (by simp)
      · rename_i h2
        have h4 : isInf b.bits = true := by
          rcases hi with h5 | h5
          · exact absurd h5 h2
          · exact h5
        rw [if_pos h4]
        intro h3
        have := (finite_not b h3).2
        rw [h4] at this
        exact absurd this (by simp)
  · intro h3
    refine nan_add a b ?_ (finite_num _ h3)
    by_cases h4 : Num a
    · exact Or.inr fun h5 => hn ⟨h4, h5⟩
    · exact Or.inl h4

theorem not_finite_mul (a b : F32) (h : ¬ Rounding.Finite b) : ¬ Rounding.Finite (a * b) := by
  by_cases hn : Num b
  · rcases num_cases b hn with ⟨h2, -⟩ | ⟨h2, -⟩
    · exact absurd h2 h
    · intro h3
      have h5 : Num (F32.mul a b) := finite_num _ h3
      have h4 : isInf (F32.mul a b).bits = false := (finite_not _ h3).2
      revert h4 h5
      unfold F32.mul
      split
      · intro h; exact absurd h (by decide)
      · rw [h2]
        simp only [Bool.or_true, if_true]
        split
        · intro h; exact absurd h (by decide)
        · generalize (neg a.bits != neg b.bits) = q
          cases q <;> decide
  · exact fun h3 => nan_mul a b (Or.inr hn) (finite_num _ h3)

/-- Small whole numbers of units. -/
theorem pattern_small (n : Nat) (h : n < 2 ^ 24) : pattern n = n := by
  unfold pattern magUnits
  by_cases h1 : n < 2 ^ 23
  · rw [if_pos (by omega)]
    omega
  · have e1 : n / 2 ^ 23 = 1 := by omega
    rw [e1, if_neg (by omega), Nat.sub_self, pow_zero]
    omega

/-- Sums of small whole numbers of units are exact. -/
theorem add_small_exact (a b : F32) (ha : Rounding.Finite a) (hb : Rounding.Finite b) (h : (val a + val b).natAbs < 2 ^ 24) :
    Rounding.Finite (a + b) ∧ val (a + b) = val a + val b := by
  obtain ⟨n1, -, n3, n4⟩ := add_facts a b ha (finite_num _ hb)
  have hi := (finite_not b hb).2
  by_cases h0 : val a + val b = 0
  · have h5 := n3 hi h0
    have h6 := val_abs (a + b)
    rw [h5] at h6
    exact ⟨finite_of_le _ 0 n1 (by decide) (by rw [← h6]; exact Nat.zero_le _), by rw [h5, h0]⟩
  · obtain ⟨o1, o2⟩ := ofPattern_units (val a + val b).natAbs (by omega)
    rw [pattern_small _ h] at o2
    have e := rounded_exact (decide (val a + val b < 0)) (ofPattern (val a + val b).natAbs) o1 1 (by omega)
    rw [o2, Nat.mul_one] at e
    rw [n4 hi h0]
    refine ⟨e.1, ?_⟩
    rw [val_units, rounded_neg, e.2.1]
    by_cases h7 : val a + val b < 0
    · rw [decide_eq_true h7, if_pos rfl]
      omega
    · rw [decide_eq_false h7, if_neg (by simp)]
      omega

end Verif.FloatMomentum
