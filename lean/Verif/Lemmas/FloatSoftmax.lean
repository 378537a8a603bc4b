import Verif.Lemmas.FloatLoss
import Verif.Model.FloatSoftmax
import Mathlib.Algebra.Order.BigOperators.Group.List
import Mathlib.Algebra.BigOperators.Group.List.Basic

/-!
The parts of softmax on 32-bit floats: the maximum, the sum in `double`, the quotients.
-/
namespace Verif.FloatSoftmax
open Verif FloatBits Rounding FloatOrder FloatActivation

theorem elements_map {G : Type} (f : F32 → G) (t : Tensor F32) : Statistics.elements (Views.map f t) = (Statistics.elements t).map f := by
  unfold Statistics.elements Views.map
  simp only [List.map_flatMap, List.map_map]
  rfl

/-! ### The maximum -/

theorem fold_max (l : List F32) (m : F32) (hm : Num m) (hl : ∀ v ∈ l, Num v) :
    Num (l.foldl (fun m v => if F32.lt m v then v else m) m) ∧ val m ≤ val (l.foldl (fun m v => if F32.lt m v then v else m) m) ∧
      (∀ v ∈ l, val v ≤ val (l.foldl (fun m v => if F32.lt m v then v else m) m)) ∧
      (l.foldl (fun m v => if F32.lt m v then v else m) m = m ∨ l.foldl (fun m v => if F32.lt m v then v else m) m ∈ l) := by
  induction l generalizing m with
  | nil => exact ⟨hm, le_refl _, fun v h => absurd h (List.not_mem_nil), Or.inl rfl⟩
  | cons a l ih =>
    have ha : Num a := hl a List.mem_cons_self
    have hl' : ∀ v ∈ l, Num v := fun v h => hl v (List.mem_cons_of_mem _ h)
    rw [List.foldl_cons]
    by_cases h : F32.lt m a = true
    · rw [if_pos h]
      have hlt := ((lt_iff _ _).mp h).2.2
      obtain ⟨i1, i2, i3, i4⟩ := ih a ha hl'
      refine ⟨i1, by omega, fun v hv => ?_, Or.inr ?_⟩
      · rcases List.mem_cons.mp hv with hv | hv
        · subst hv; exact i2
        · exact i3 v hv
      · rcases i4 with i4 | i4
        · rw [i4]; exact List.mem_cons_self
        · exact List.mem_cons_of_mem _ i4
    · rw [if_neg h]
      have hge : val a ≤ val m := by
        by_contra hne
        exact h ((lt_iff _ _).mpr ⟨hm, ha, not_le.mp hne⟩)
      obtain ⟨i1, i2, i3, i4⟩ := ih m hm hl'
      refine ⟨i1, i2, fun v hv => ?_, ?_⟩
      · rcases List.mem_cons.mp hv with hv | hv
        · subst hv; omega
        · exact i3 v hv
      · rcases i4 with i4 | i4
        · exact Or.inl i4
        · exact Or.inr (List.mem_cons_of_mem _ i4)

/-! ### The sum -/

theorem round53_near (n : Nat) : 2 ^ 53 * round53 n ≤ 2 ^ 53 * n + n ∧ 2 ^ 53 * n ≤ 2 ^ 53 * round53 n + n := by
  unfold round53
  obtain ⟨s, hs⟩ : ∃ s, Nat.log2 n - 52 = s := ⟨_, rfl⟩
  simp only [hs]
  rcases Nat.eq_zero_or_pos s with h0 | h0
  · rw [h0]
    simp only [pow_zero, Nat.div_one, Nat.mod_one, Nat.mul_zero, Nat.mul_one]
    rw [if_neg (by omega)]
    omega
  · have hn : n ≠ 0 := by
      rintro rfl
      rw [show Nat.log2 0 = 0 by rfl] at hs
      omega
    have hl := ((Nat.log2_eq_iff hn (k := Nat.log2 n)).mp rfl).1
    rw [show Nat.log2 n = 52 + s by omega, pow_add] at hl
    have hdm := Nat.div_add_mod n (2 ^ s)
    have hmod := Nat.mod_lt n (Nat.two_pow_pos s)
    generalize 2 ^ s = w at *
    generalize n / w = q at *
    generalize n % w = r at *
    have e : w * q = q * w := Nat.mul_comm _ _
    split
    · rw [Nat.add_mul, Nat.one_mul]
      generalize q * w = x at *
      omega
    · generalize q * w = x at *
      omega

theorem round53_ge (n k : Nat) (h : 2 ^ k ≤ n) : 2 ^ k ≤ round53 n := by
  unfold round53
  obtain ⟨s, hs⟩ : ∃ s, Nat.log2 n - 52 = s := ⟨_, rfl⟩
  simp only [hs]
  have key : 2 ^ k ≤ n / 2 ^ s * 2 ^ s := by
    by_cases hk : s ≤ k
    · have : 2 ^ (k - s) ≤ n / 2 ^ s := by
        rw [Nat.le_div_iff_mul_le (Nat.two_pow_pos _), ← pow_add, Nat.sub_add_cancel hk]
        exact h
      calc 2 ^ k = 2 ^ (k - s) * 2 ^ s := by rw [← pow_add, Nat.sub_add_cancel hk]
        _ ≤ _ := Nat.mul_le_mul_right _ this
    · have h0 : 1 ≤ n / 2 ^ s := by
        have hn : n ≠ 0 := by have := Nat.two_pow_pos k; omega
        have hl := ((Nat.log2_eq_iff hn (k := Nat.log2 n)).mp rfl).1
        rw [Nat.le_div_iff_mul_le (Nat.two_pow_pos _), Nat.one_mul]
        exact le_trans (Nat.pow_le_pow_right (by omega) (by omega)) hl
      calc 2 ^ k ≤ 1 * 2 ^ s := by rw [Nat.one_mul]; exact Nat.pow_le_pow_right (by omega) (by omega)
        _ ≤ _ := Nat.mul_le_mul_right _ h0
  refine le_trans key (Nat.mul_le_mul_right _ ?_)
  split <;> omega

theorem fold_ge (l : List F32) (acc k : Nat) (h : 2 ^ k ≤ acc ∨ ∃ v ∈ l, 2 ^ k ≤ v.units) :
    2 ^ k ≤ l.foldl (fun acc v => round53 (acc + v.units)) acc := by
  induction l generalizing acc with
  | nil =>
    rcases h with h | ⟨v, hv, -⟩
    · exact h
    · exact absurd hv List.not_mem_nil
  | cons a l ih =>
    rw [List.foldl_cons]
    refine ih _ ?_
    rcases h with h | ⟨v, hv, h⟩
    · exact Or.inl (round53_ge _ _ (by omega))
    · rcases List.mem_cons.mp hv with hv | hv
      · subst hv
        exact Or.inl (round53_ge _ _ (by omega))
      · exact Or.inr ⟨v, hv, h⟩

/-- After `n` additions the sum in `double` is off by at most `2 n 2^-53` of its value. -/
theorem fold_near (l : List F32) (acc exact j : Nat) (hj : j + l.length ≤ 2 ^ 50)
    (h1 : 2 ^ 52 * acc ≤ 2 ^ 52 * exact + j * exact) (h2 : 2 ^ 52 * exact ≤ 2 ^ 52 * acc + j * exact) :
    2 ^ 52 * l.foldl (fun acc v => round53 (acc + v.units)) acc ≤
        2 ^ 52 * (exact + (l.map F32.units).sum) + (j + l.length) * (exact + (l.map F32.units).sum) ∧
      2 ^ 52 * (exact + (l.map F32.units).sum) ≤
        2 ^ 52 * l.foldl (fun acc v => round53 (acc + v.units)) acc + (j + l.length) * (exact + (l.map F32.units).sum) := by
  induction l generalizing acc exact j with
  | nil => simpa using ⟨h1, h2⟩
  | cons a l ih =>
    rw [List.foldl_cons, List.map_cons, List.sum_cons, List.length_cons, show j + (l.length + 1) = j + 1 + l.length by omega, ← Nat.add_assoc]
    rw [List.length_cons] at hj
    obtain ⟨r1, r2⟩ := round53_near (acc + a.units)
    have hje : j * exact ≤ 2 ^ 50 * exact := Nat.mul_le_mul_right _ (by omega)
    have hja : (j + 1) * (exact + a.units) = j * exact + exact + (j + 1) * a.units := by ring
    have hja2 : a.units ≤ (j + 1) * a.units := Nat.le_mul_of_pos_left _ (by omega)
    refine ih _ _ (j + 1) (by omega) ?_ ?_
    · rw [hja]
      generalize round53 (acc + a.units) = x at *
      generalize j * exact = y at *
      generalize (j + 1) * a.units = z at *
      omega
    · rw [hja]
      generalize round53 (acc + a.units) = x at *
      generalize j * exact = y at *
      generalize (j + 1) * a.units = z at *
      omega

theorem sum_cases (l : List F32) (hl : ∀ v ∈ l, Rounding.Finite v) :
    sum l = F32.rounded false (l.foldl (fun acc v => round53 (acc + v.units)) 0) 1 := by
  unfold sum
  rw [if_neg, if_neg]
  · intro h
    obtain ⟨v, hv, h⟩ := List.any_eq_true.mp h
    rw [(finite_not v (hl v hv)).2] at h
    exact absurd h (by simp)
  · intro h
    obtain ⟨v, hv, h⟩ := List.any_eq_true.mp h
    rw [(finite_not v (hl v hv)).1] at h
    exact absurd h (by simp)

/-- The sum is at least 1 if one of the elements is 1. -/
theorem sum_ge (l : List F32) (hl : ∀ v ∈ l, Rounding.Finite v) (h1 : one ∈ l) : Num (sum l) ∧ neg (sum l).bits = false ∧ val one ≤ val (sum l) := by
  rw [sum_cases l hl]
  have h := fold_ge l 0 149 (Or.inr ⟨one, h1, by rw [units_one]⟩)
  generalize l.foldl (fun acc v => round53 (acc + v.units)) 0 = d at *
  refine ⟨rounded_num _ _ _, rounded_neg _ _ _, ?_⟩
  rw [val_units (F32.rounded _ _ _), rounded_neg, units_val one one_pos.le]
  simp only [Bool.false_eq_true, if_false]
  have := le_rounded false d 1 (by omega) one finite_one (by rw [units_one, Nat.mul_one]; exact h)
  exact_mod_cast this

/-! ### Quotients -/

/-- A number from 0 to 1 by a number of at least 1. -/
theorem quotient_facts (e s : F32) (he : Rounding.Finite e) (h0 : 0 ≤ val e) (h1 : val e ≤ val one) (hs : Num s) (hs1 : val one ≤ val s) :
    (isInf s.bits = true → val (e / s) = 0 ∧ Num (e / s)) ∧
    (isInf s.bits = false → e / s = F32.rounded (neg e.bits) (e.units * 2 ^ 149) s.units ∧ 0 < s.units ∧ F32.units one ≤ s.units) := by
  obtain ⟨e1, e2⟩ := finite_not e he
  have hn : neg s.bits = false := by
    have hv := val_units s
    have := one_pos
    split at hv
    · omega
    · rename_i h; simpa using h
  have hsu : F32.units one ≤ s.units := by
    have a := units_val s (by have := one_pos; omega)
    have b := units_val one one_pos.le
    omega
  have hs0 : 0 < s.units := lt_of_lt_of_le (by rw [units_one]; positivity) hsu
  show (_ → val (F32.div e s) = 0 ∧ Num (F32.div e s)) ∧ (_ → F32.div e s = _ ∧ _)
  unfold F32.div
  rw [e1, e2, show isNaN s.bits = false from hs, hn]
  simp only [Bool.or_self, Bool.false_eq_true, if_false]
  constructor
  · intro hi
    rw [hi]
    simp only [if_true]
    cases neg e.bits <;> decide
  · intro hi
    rw [hi]
    simp only [Bool.false_eq_true, if_false]
    rw [if_neg (by omega)]
    refine ⟨?_, hs0, hsu⟩
    cases neg e.bits <;> rfl

theorem quotient_range (e s : F32) (he : Rounding.Finite e) (h0 : 0 ≤ val e) (h1 : val e ≤ val one) (hs : Num s) (hs1 : val one ≤ val s) :
    Num (e / s) ∧ 0 ≤ val (e / s) ∧ val (e / s) ≤ val one := by
  obtain ⟨q1, q2⟩ := quotient_facts e s he h0 h1 hs hs1
  have hop := one_pos
  cases hi : isInf s.bits with
  | true => obtain ⟨a, b⟩ := q1 hi; exact ⟨b, by omega, by omega⟩
  | false =>
    obtain ⟨a, hs0, hsu⟩ := q2 hi
    have hu : (e / s).units ≤ F32.units one := by
      rw [a]
      refine rounded_le _ _ _ hs0 one finite_one ?_
      rw [Nat.mul_comm, units_one]
      refine Nat.mul_le_mul_left _ (le_trans ?_ hsu)
      have a := units_val e h0
      have b := units_val one one_pos.le
      omega
    have hz : e.units = 0 → (e / s).units = 0 := by
      intro h
      have := rounded_le (neg e.bits) (e.units * 2 ^ 149) s.units hs0 0 (by decide) (by rw [h]; simp)
      rw [← a, show F32.units 0 = 0 by decide] at this
      omega
    have hneg : neg (e / s).bits = neg e.bits := by rw [a, rounded_neg]
    have hb := units_val one one_pos.le
    refine ⟨by rw [a]; exact rounded_num _ _ _, ?_, ?_⟩
    · rw [val_units, hneg]
      have ee := val_units e
      split
      · rename_i h
        rw [h] at ee
        simp only [if_true] at ee
        rw [hz (by omega)]
        simp
      · omega
    · rw [val_units]
      split <;> omega

theorem quotient_mono (e f s : F32) (he : Rounding.Finite e) (h0 : 0 ≤ val e) (h1 : val e ≤ val one) (hf : Rounding.Finite f) (hf1 : val f ≤ val one)
    (hs : Num s) (hs1 : val one ≤ val s) (h : val e ≤ val f) : val (e / s) ≤ val (f / s) := by
  obtain ⟨q1, q2⟩ := quotient_facts e s he h0 h1 hs hs1
  obtain ⟨p1, p2⟩ := quotient_facts f s hf (by omega) hf1 hs hs1
  cases hi : isInf s.bits with
  | true => rw [(q1 hi).1, (p1 hi).1]
  | false =>
    obtain ⟨a, hs0, hsu⟩ := q2 hi
    obtain ⟨b, -, -⟩ := p2 hi
    have r1 := quotient_range e s he h0 h1 hs hs1
    have r2 := quotient_range f s hf (by omega) hf1 hs hs1
    rw [units_val _ r1.2.1, units_val _ r2.2.1, a, b]
    have := rounded_mono (neg e.bits) (neg f.bits) (e.units * 2 ^ 149) s.units (f.units * 2 ^ 149) s.units hs0 hs0 (by
      refine Nat.mul_le_mul_right _ (Nat.mul_le_mul_right _ ?_)
      have a := units_val e h0
      have b := units_val f (by omega)
      omega)
    exact_mod_cast this

/-! ### Differences from the maximum -/

theorem add_comm_num (x c : F32) (hx : Num x) (hc : Rounding.Finite c) : x + c = c + x := by
  rcases num_cases x hx with ⟨hf, -⟩ | ⟨hi, -⟩
  · exact add_comm_finite x c hf hc
  · rw [(add_facts c x hc hx).2.1 hi]
    show F32.add x c = x
    unfold F32.add
    obtain ⟨n1, n2⟩ := finite_not c hc
    rw [show isNaN x.bits = false from hx, hi, n1, n2]
    simp only [Bool.or_self, Bool.false_eq_true, if_false, if_true, Bool.false_and]

theorem sub_mono (x y c : F32) (hx : Num x) (hy : Num y) (hc : Rounding.Finite c) (h : val x ≤ val y) : Num (x - c) ∧ val (x - c) ≤ val (y - c) := by
  have fc := (negate_finite c).mpr hc
  have ex : x - c = F32.negate c + x := add_comm_num x (F32.negate c) hx fc
  have ey : y - c = F32.negate c + y := add_comm_num y (F32.negate c) hy fc
  rw [ex, ey]
  exact ⟨(add_facts _ _ fc hx).1, add_mono _ _ _ fc hx hy h⟩

theorem sub_self_val (c : F32) (hc : Rounding.Finite c) : Num (c - c) ∧ val (c - c) = 0 := by
  have fc := (negate_finite c).mpr hc
  have f := add_facts c (F32.negate c) hc (finite_num _ fc)
  exact ⟨f.1, f.2.2.1 (finite_not _ fc).2 (by rw [negate_val]; omega)⟩

end Verif.FloatSoftmax
