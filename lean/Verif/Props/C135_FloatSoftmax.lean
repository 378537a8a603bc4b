import Verif.Lemmas.FloatSoftmax
import Verif.Lemmas.FloatLibm
import Verif.Spec.FloatSoftmax
import Verif.Props.C134_FloatLoss

/-!
C135: what softmax returns in 32-bit floats. For every tensor without NaN and without infinity the outputs are numbers from 0 to 1, in the order of the
inputs, and add up to 1 with an error of at most 2^-22 for up to 2^20 elements, whatever the C library rounds (`Sound`). For all other tensors every output is
NaN.
-/
namespace Verif.FloatSoftmax
open Verif FloatBits Rounding FloatOrder FloatActivation

theorem lt_inf (v : F32) : F32.lt v inf = true ↔ Num v ∧ val v < val inf := by
  rw [lt_iff]
  exact ⟨fun h => ⟨h.1, h.2.2⟩, fun h => ⟨h.1, num_inf, h.2⟩⟩

theorem inf_units : F32.units inf = pattern 0x7F800000 ∧ F32.units minusInf = pattern 0x7F800000 := by decide +kernel

theorem lt_inf_of (v : F32) (h : Rounding.Finite v) : val v < val inf := by
  have a := finite_lt v h
  have b := val_units v
  have c := val_units inf
  rw [inf_units.1, show neg inf.bits = false by decide] at c
  simp only [Bool.false_eq_true, if_false] at c
  generalize pattern 0x7F800000 = w at *
  split at b <;> omega

theorem minusInf_lt (v : F32) (h : Rounding.Finite v) : val minusInf < val v := by
  have a := finite_lt v h
  have b := val_units v
  have c := val_units minusInf
  rw [inf_units.2, show neg minusInf.bits = true by decide] at c
  simp only [if_true] at c
  generalize pattern 0x7F800000 = w at *
  split at b <;> omega

theorem finite_of_between (v : F32) (h : Num v) (h1 : val minusInf < val v) (h2 : val v < val inf) : Rounding.Finite v := by
  rcases num_cases v h with ⟨hf, -⟩ | ⟨-, hu⟩
  · exact hf
  · exfalso
    have b := val_units v
    have c := val_units minusInf
    have d := val_units inf
    rw [inf_units.1, show neg inf.bits = false by decide] at d
    rw [inf_units.2, show neg minusInf.bits = true by decide] at c
    simp only [if_true, Bool.false_eq_true, if_false] at c d
    rw [hu] at b
    generalize pattern 0x7F800000 = w at *
    split at b <;> omega

theorem mem_elements (t : Tensor F32) (r c k : Nat) (hr : r < t.rows) (hc : c < t.cols) (hk : k < t.chans) : t.get r c k ∈ Statistics.elements t := by
  unfold Statistics.elements
  simp only [List.mem_flatMap, List.mem_map, List.mem_range]
  exact ⟨k, hk, r, hr, c, hc, rfl⟩

theorem of_mem_elements (t : Tensor F32) (v : F32) (h : v ∈ Statistics.elements t) :
    ∃ r c k, r < t.rows ∧ c < t.cols ∧ k < t.chans ∧ v = t.get r c k := by
  unfold Statistics.elements at h
  simp only [List.mem_flatMap, List.mem_map, List.mem_range] at h
  obtain ⟨k, hk, r, hr, c, hc, e⟩ := h
  exact ⟨r, c, k, hr, hc, hk, e.symm⟩

/-- What all elements are divided by. -/
def scale (m : Libm) (t : Tensor F32) : F32 := sum ((Statistics.elements t).map (fun v => m.exp (v - maximum t)))

theorem softmax_get (m : Libm) (t : Tensor F32) (r c k : Nat) : (softmax m t).get r c k = m.exp (t.get r c k - maximum t) / scale m t := by
  unfold softmax scale
  simp only [elements_map, List.map_map]
  rfl

theorem softmax_elements (m : Libm) (t : Tensor F32) :
    Statistics.elements (softmax m t) = (Statistics.elements t).map (fun v => m.exp (v - maximum t) / scale m t) := by
  unfold softmax scale
  simp only [elements_map, List.map_map]
  rfl

/-- The maximum of a proper tensor. -/
theorem maximum_facts (t : Tensor F32) (h : Proper t) : Rounding.Finite (maximum t) ∧ maximum t ∈ Statistics.elements t ∧
    ∀ v ∈ Statistics.elements t, Num v ∧ val v ≤ val (maximum t) := by
  obtain ⟨h1, w, hw, hwf⟩ := h
  obtain ⟨f1, -, f3, f4⟩ := fold_max (Statistics.elements t) minusInf num_minusInf (fun v hv => ((lt_inf v).mp (h1 v hv)).1)
  have hmax : (Statistics.elements t).foldl (fun m v => if F32.lt m v then v else m) minusInf = maximum t := rfl
  rw [hmax] at f1 f3 f4
  have hlow : val minusInf < val (maximum t) := by
    have a := f3 w hw
    have b := minusInf_lt w hwf
    omega
  have hmem : maximum t ∈ Statistics.elements t := by
    rcases f4 with f4 | f4
    · rw [f4] at hlow; omega
    · exact f4
  refine ⟨?_, hmem, fun v hv => ⟨((lt_inf v).mp (h1 v hv)).1, f3 v hv⟩⟩
  have hhigh := ((lt_inf _).mp (h1 _ hmem)).2
  exact finite_of_between _ f1 hlow hhigh

/-- The exponentials of a proper tensor. -/
theorem exp_facts (m : Libm) (hm : Sound m) (t : Tensor F32) (h : Proper t) (v : F32) (hv : v ∈ Statistics.elements t) :
    Rounding.Finite (m.exp (v - maximum t)) ∧ 0 ≤ val (m.exp (v - maximum t)) ∧ val (m.exp (v - maximum t)) ≤ val one := by
  obtain ⟨hf, hmem, hall⟩ := maximum_facts t h
  obtain ⟨hn, hle⟩ := hall v hv
  obtain ⟨s1, s2⟩ := sub_mono v (maximum t) (maximum t) hn (finite_num _ hf) hf hle
  obtain ⟨z1, z2⟩ := sub_self_val (maximum t) hf
  have hz : m.exp (maximum t - maximum t) = one :=
    hm.exp_zero _ ((ge_iff _ _).mpr ⟨z1, num_zero, by rw [z2, val_zero]⟩) ((ge_iff _ _).mpr ⟨num_zero, z1, by rw [z2, val_zero]⟩)
  have ho := (ge_iff _ _).mp (hm.exp_order (v - maximum t) (maximum t - maximum t) ((ge_iff _ _).mpr ⟨z1, s1, s2⟩))
  rw [hz] at ho
  have hr := (within_iff _ _ _ num_zero num_inf).mp (hm.exp_range (v - maximum t) s1)
  have h0 : 0 ≤ val (m.exp (v - maximum t)) := by have := hr.2.1; rwa [val_zero] at this
  refine ⟨?_, h0, ho.2.2⟩
  exact finite_of_between _ hr.1 (by have := minusInf_lt 0 (by decide); rw [val_zero] at this; omega) (lt_of_le_of_lt ho.2.2 (lt_inf_of one finite_one))

theorem exp_maximum (m : Libm) (hm : Sound m) (t : Tensor F32) (h : Proper t) : m.exp (maximum t - maximum t) = one := by
  obtain ⟨z1, z2⟩ := sub_self_val (maximum t) (maximum_facts t h).1
  exact hm.exp_zero _ ((ge_iff _ _).mpr ⟨z1, num_zero, by rw [z2, val_zero]⟩) ((ge_iff _ _).mpr ⟨num_zero, z1, by rw [z2, val_zero]⟩)

theorem scale_facts (m : Libm) (hm : Sound m) (t : Tensor F32) (h : Proper t) : Num (scale m t) ∧ val one ≤ val (scale m t) := by
  have := sum_ge ((Statistics.elements t).map (fun v => m.exp (v - maximum t)))
    (fun v hv => by
      obtain ⟨w, hw, e⟩ := List.mem_map.mp hv
      rw [← e]
      exact (exp_facts m hm t h w hw).1)
    (List.mem_map.mpr ⟨maximum t, (maximum_facts t h).2.1, exp_maximum m hm t h⟩)
  exact ⟨this.1, this.2.2⟩

/-- Every output is a number from 0 to 1. -/
theorem C135_range (m : Libm) (hm : Sound m) (t : Tensor F32) (h : Proper t) (r c k : Nat) (hr : r < t.rows) (hc : c < t.cols) (hk : k < t.chans) :
    Within 0 one ((softmax m t).get r c k) := by
  rw [softmax_get]
  obtain ⟨e1, e2, e3⟩ := exp_facts m hm t h _ (mem_elements t r c k hr hc hk)
  obtain ⟨s1, s2⟩ := scale_facts m hm t h
  obtain ⟨q1, q2, q3⟩ := quotient_range _ _ e1 e2 e3 s1 s2
  exact (within_iff _ _ _ num_zero num_one).mpr ⟨q1, by rw [val_zero]; exact q2, q3⟩

/-- The larger the input, the larger the output (or equal). -/
theorem C135_order (m : Libm) (hm : Sound m) (t : Tensor F32) (h : Proper t) (r c k r' c' k' : Nat) (hr : r < t.rows) (hc : c < t.cols) (hk : k < t.chans)
    (hr' : r' < t.rows) (hc' : c' < t.cols) (hk' : k' < t.chans) (hle : F32.ge (t.get r' c' k') (t.get r c k) = true) :
    F32.ge ((softmax m t).get r' c' k') ((softmax m t).get r c k) = true := by
  have w1 := (C135_range m hm t h r c k hr hc hk)
  have w2 := (C135_range m hm t h r' c' k' hr' hc' hk')
  refine (ge_iff _ _).mpr ⟨((ge_iff _ _).mp w2.1).1, ((ge_iff _ _).mp w1.1).1, ?_⟩
  rw [softmax_get, softmax_get]
  have m1 := mem_elements t r c k hr hc hk
  have m2 := mem_elements t r' c' k' hr' hc' hk'
  obtain ⟨e1, e2, e3⟩ := exp_facts m hm t h _ m1
  obtain ⟨f1, f2, f3⟩ := exp_facts m hm t h _ m2
  obtain ⟨s1, s2⟩ := scale_facts m hm t h
  obtain ⟨hf, -, hall⟩ := maximum_facts t h
  refine quotient_mono _ _ _ e1 e2 e3 f1 f3 s1 s2 ?_
  obtain ⟨n1, l1⟩ := sub_mono _ _ (maximum t) (hall _ m1).1 (hall _ m2).1 hf ((ge_iff _ _).mp hle).2.2
  obtain ⟨n2, -⟩ := sub_mono _ _ (maximum t) (hall _ m2).1 (hall _ m2).1 hf (le_refl _)
  exact ((ge_iff _ _).mp (hm.exp_order _ _ ((ge_iff _ _).mpr ⟨n2, n1, l1⟩))).2.2

theorem inf_sub_inf (x y : F32) (hx : isInf x.bits = true) (hy : isInf y.bits = true) (h : neg x.bits = neg y.bits) : ¬ Num (x - y) := by
  by_cases hn : Num x
  · by_cases hn' : Num y
    · show ¬ Num (F32.add x (F32.negate y))
      obtain ⟨c2, n1, n2⟩ := xor_neg y.bits
      have c1 : isInf (F32.negate y).bits = true := by
        unfold F32.negate isInf
        rw [n1, n2]
        exact hy
      have c3 : isNaN (F32.negate y).bits = false := (negate_num y).mpr hn'
      have c4 : neg (F32.negate y).bits = !neg x.bits := by rw [h]; exact c2
      unfold F32.add
      rw [hx, c1, c3, c4, show isNaN x.bits = false from hn]
      cases neg x.bits <;> simp <;> decide
    · exact nan_sub _ _ (Or.inr hn')
  · exact nan_sub _ _ (Or.inl hn)

/-- For any other tensor every output is NaN. -/
theorem C135_nan (m : Libm) (hm : Sound m) (t : Tensor F32) (h : ¬ Proper t) (r c k : Nat) (hr : r < t.rows) (hc : c < t.cols) (hk : k < t.chans) :
    ¬ Number ((softmax m t).get r c k) := by
  have hmem := mem_elements t r c k hr hc hk
  obtain ⟨v, hv, hnan⟩ : ∃ v ∈ Statistics.elements t, ¬ Num (v - maximum t) := by
    by_cases hall : ∀ v ∈ Statistics.elements t, Num v
    · obtain ⟨f1, -, f3, f4⟩ := fold_max (Statistics.elements t) minusInf num_minusInf hall
      have hmax : (Statistics.elements t).foldl (fun m v => if F32.lt m v then v else m) minusInf = maximum t := rfl
      rw [hmax] at f1 f3 f4
      rcases num_cases (maximum t) f1 with ⟨hf, -⟩ | ⟨hi, -⟩
      · exfalso
        refine h ⟨fun v hv => (lt_inf v).mpr ⟨hall v hv, lt_of_le_of_lt (f3 v hv) (lt_inf_of _ hf)⟩, maximum t, ?_, hf⟩
        rcases f4 with f4 | f4
        · rw [f4] at hf
          exact absurd hf (by decide)
        · exact f4
      · rcases f4 with f4 | f4
        · have hle := f3 _ hmem
          rw [f4] at hle
          rcases num_cases _ (hall _ hmem) with ⟨hf, -⟩ | ⟨hi', -⟩
          · have := minusInf_lt _ hf
            omega
          · refine ⟨_, hmem, ?_⟩
            rw [f4]
            refine inf_sub_inf _ _ hi' (by decide) ?_
            have hv := val_units (t.get r c k)
            have hneg : val minusInf < 0 := by decide +kernel
            rw [show neg minusInf.bits = true by decide]
            split at hv
            · assumption
            · omega
        · exact ⟨_, f4, inf_sub_inf _ _ hi hi rfl⟩
    · push Not at hall
      obtain ⟨v, hv, hn⟩ := hall
      exact ⟨v, hv, nan_sub _ _ (Or.inl hn)⟩
  rw [softmax_get]
  refine nan_div _ _ (Or.inr ?_)
  unfold scale sum
  rw [if_pos]
  · decide
  · rw [List.any_eq_true]
    refine ⟨_, List.mem_map.mpr ⟨v, hv, rfl⟩, ?_⟩
    have := hm.exp_nan _ hnan
    unfold Number at this
    simpa using this

/-- The sums of the inequalities for the single quotients. -/
theorem quotients_near (l : List F32) (s : F32) (hs : Rounding.Finite s) (hs1 : val one ≤ val s)
    (hl : ∀ v ∈ l, Rounding.Finite v ∧ 0 ≤ val v ∧ val v ≤ val one) :
    2 ^ 24 * ((l.map (fun v => (v / s).units)).sum * s.units) ≤
        2 ^ 24 * ((l.map F32.units).sum * 2 ^ 149) + (l.map F32.units).sum * 2 ^ 149 + 2 ^ 24 * (l.length * s.units) ∧
      2 ^ 24 * ((l.map F32.units).sum * 2 ^ 149) ≤
        2 ^ 24 * ((l.map (fun v => (v / s).units)).sum * s.units) + (l.map F32.units).sum * 2 ^ 149 + 2 ^ 24 * (l.length * s.units) := by
  induction l with
  | nil => simp
  | cons a l ih =>
    obtain ⟨h1, h2⟩ := ih (fun v hv => hl v (List.mem_cons_of_mem _ hv))
    obtain ⟨a1, a2, a3⟩ := hl a List.mem_cons_self
    obtain ⟨e, hs0, hsu⟩ := (quotient_facts a s a1 a2 a3 (finite_num _ hs) hs1).2 (finite_not s hs).2
    have htop : a.units * 2 ^ 149 ≤ s.units * top := by
      have : a.units ≤ s.units := by
        have x := units_val a a2
        have y := units_val one one_pos.le
        omega
      exact Nat.mul_le_mul this (by decide +kernel)
    obtain ⟨-, -, v, hv, hc⟩ := rounded_spec (neg a.bits) (a.units * 2 ^ 149) s.units hs0 htop
    rw [← e] at hv
    clear htop e
    simp only [List.map_cons, List.sum_cons, List.length_cons, Nat.add_mul, Nat.one_mul, hv]
    obtain ⟨M, hM⟩ : ∃ M, 2 ^ 149 = M := ⟨_, rfl⟩
    rw [hM] at h1 h2 hc ⊢
    generalize (l.map (fun v => (v / s).units)).sum * s.units = p at *
    generalize (l.map F32.units).sum * M = q at *
    generalize l.length * s.units = n at *
    generalize a.units * M = b at *
    generalize v * s.units = w at *
    rcases hc with ⟨c1, c2⟩ | ⟨-, c1, c2⟩ <;> constructor <;> omega

theorem sum_real (l : List F32) (h : ∀ v ∈ l, 0 ≤ val v) : (l.map real).sum = ((l.map F32.units).sum : ℕ) / (2 : ℝ) ^ 149 := by
  induction l with
  | nil => simp
  | cons a l ih =>
    rw [List.map_cons, List.sum_cons, List.map_cons, List.sum_cons, ih (fun v hv => h v (List.mem_cons_of_mem _ hv))]
    have : real a = (a.units : ℝ) / 2 ^ 149 := by
      unfold real
      have := units_val a (h a List.mem_cons_self)
      unfold val at this
      rw [this]
      push_cast
      rfl
    rw [this]
    push_cast
    ring

/-- The real inequality behind the sum: `T` exact sum, `D` in double, `S` in float, `U` outputs, `M` the number of units of 1. -/
theorem close_one (T D S U M N : ℝ) (hT : 0 < T) (hM : 2 ^ 149 ≤ M) (hN0 : 0 ≤ N) (hN : N ≤ 2 ^ 20)
    (d1 : 2 ^ 52 * D ≤ 2 ^ 52 * T + N * T) (d2 : 2 ^ 52 * T ≤ 2 ^ 52 * D + N * T)
    (s1 : 2 ^ 24 * S ≤ 2 ^ 24 * D + D) (s2 : 2 ^ 24 * D ≤ 2 ^ 24 * S + D)
    (u1 : 2 ^ 24 * (U * S) ≤ 2 ^ 24 * (T * M) + T * M + 2 ^ 24 * (N * S))
    (u2 : 2 ^ 24 * (T * M) ≤ 2 ^ 24 * (U * S) + T * M + 2 ^ 24 * (N * S)) : |U / M - 1| ≤ 1 / 2 ^ 22 := by
  have hNT : N * T ≤ 2 ^ 20 * T := mul_le_mul_of_nonneg_right hN hT.le
  have hS : 0 < S := by
    norm_num at *
    linarith
  have hM0 : 0 < M := lt_of_lt_of_le (by positivity) hM
  have t1 : 2 ^ 24 * T ≤ (2 ^ 24 + 3 / 2) * S := by
    norm_num at *
    linarith
  have t2 : (2 ^ 24 - 3 / 2) * S ≤ 2 ^ 24 * T := by
    norm_num at *
    linarith
  have t1M : 2 ^ 24 * (T * M) ≤ (2 ^ 24 + 3 / 2) * (S * M) := by
    have := mul_le_mul_of_nonneg_right t1 hM0.le
    linarith
  have t2M : (2 ^ 24 - 3 / 2) * (S * M) ≤ 2 ^ 24 * (T * M) := by
    have := mul_le_mul_of_nonneg_right t2 hM0.le
    linarith
  have hNS : N * S ≤ 2 ^ 20 * S := mul_le_mul_of_nonneg_right hN hS.le
  have hSM : 2 ^ 149 * S ≤ S * M := by
    have := mul_le_mul_of_nonneg_right hM hS.le
    linarith
  have hSM0 : 0 < S * M := mul_pos hS hM0
  have k1 : 2 ^ 22 * (U * S) ≤ (2 ^ 22 + 1) * (S * M) := by
    norm_num at *
    linarith
  have k2 : (2 ^ 22 - 1) * (S * M) ≤ 2 ^ 22 * (U * S) := by
    norm_num at *
    linarith
  have g1 : 2 ^ 22 * U ≤ (2 ^ 22 + 1) * M := by
    refine le_of_mul_le_mul_right ?_ hS
    linarith
  have g2 : (2 ^ 22 - 1) * M ≤ 2 ^ 22 * U := by
    refine le_of_mul_le_mul_right ?_ hS
    linarith
  rw [abs_le]
  constructor
  · rw [le_sub_iff_add_le, le_div_iff₀ hM0]
    norm_num at *
    linarith
  · rw [sub_le_iff_le_add, div_le_iff₀ hM0]
    norm_num at *
    linarith

/-- The outputs add up to 1, up to 2^-22, for a tensor of up to 2^20 elements. -/
theorem C135_sum (m : Libm) (hm : Sound m) (t : Tensor F32) (h : Proper t) (hsize : (Statistics.elements t).length ≤ 2 ^ 20) :
    |total (softmax m t) - 1| ≤ 1 / 2 ^ 22 := by
  unfold total
  rw [softmax_elements]
  have hscale := scale_facts m hm t h
  have hexp := exp_facts m hm t h
  have hone : one ∈ (Statistics.elements t).map (fun v => m.exp (v - maximum t)) :=
    List.mem_map.mpr ⟨maximum t, (maximum_facts t h).2.1, exp_maximum m hm t h⟩
  rw [show (fun v => m.exp (v - maximum t) / scale m t) = (fun e => e / scale m t) ∘ (fun v => m.exp (v - maximum t)) from rfl, ← List.map_map]
  unfold scale at *
  obtain ⟨l, hl⟩ : ∃ l, (Statistics.elements t).map (fun v => m.exp (v - maximum t)) = l := ⟨_, rfl⟩
  have hlen : l.length ≤ 2 ^ 20 := by rw [← hl, List.length_map]; exact hsize
  have hl3 : ∀ e ∈ l, Rounding.Finite e ∧ 0 ≤ val e ∧ val e ≤ val one := by
    intro e he
    rw [← hl] at he
    obtain ⟨v, hv, e1⟩ := List.mem_map.mp he
    rw [← e1]
    exact hexp v hv
  rw [hl] at hone hscale ⊢
  clear hl hexp h hsize
  have hsc := sum_cases l (fun v hv => (hl3 v hv).1)
  obtain ⟨d1, d2⟩ := fold_near l 0 0 0 (by omega) (by simp) (by simp)
  have hT : 0 < (l.map F32.units).sum := by
    refine lt_of_lt_of_le ?_ (List.single_le_sum (fun _ _ => Nat.zero_le _) (F32.units one) (List.mem_map.mpr ⟨one, hone, rfl⟩))
    rw [units_one]
    positivity
  have hTtop : (l.map F32.units).sum ≤ 2 ^ 20 * 2 ^ 149 := by
    refine le_trans (List.sum_le_card_nsmul _ (2 ^ 149) ?_) ?_
    · intro x hx
      obtain ⟨v, hv, e⟩ := List.mem_map.mp hx
      obtain ⟨-, v2, v3⟩ := hl3 v hv
      have a := units_val v v2
      have b := units_val one one_pos.le
      rw [← units_one]
      omega
    · rw [List.length_map, smul_eq_mul]
      exact Nat.mul_le_mul_right _ hlen
  simp only [Nat.zero_add] at d1 d2
  generalize hd : l.foldl (fun acc v => round53 (acc + v.units)) 0 = d at *
  have hdtop : d ≤ 1 * top := by
    have h1 : l.length * (l.map F32.units).sum ≤ 2 ^ 20 * (l.map F32.units).sum := Nat.mul_le_mul_right _ hlen
    have h2 : 2 ^ 171 ≤ top := by decide +kernel
    generalize top = tp at *
    generalize (l.map F32.units).sum = T at *
    generalize l.length * T = LT at *
    norm_num at *
    omega
  obtain ⟨r1, r2, v, hv, hc⟩ := rounded_spec false d 1 (by omega) hdtop
  rw [← hsc] at r1 hv
  rcases hc with ⟨s1, s2⟩ | ⟨hc, -⟩
  swap
  · exact absurd rfl hc
  obtain ⟨u1, u2⟩ := quotients_near l (sum l) r1 hscale.2 hl3
  rw [sum_real, List.map_map]
  swap
  · intro x hx
    obtain ⟨e, he, e1⟩ := List.mem_map.mp hx
    obtain ⟨e2, e3, e4⟩ := hl3 e he
    rw [← e1]
    exact (quotient_range e _ e2 e3 e4 hscale.1 hscale.2).2.1
  rw [hv] at u1 u2
  rw [Nat.mul_one] at s1 s2
  refine close_one ((l.map F32.units).sum : ℕ) d v _ _ (l.length : ℕ) (by exact_mod_cast hT) (le_refl _) (by positivity) (by exact_mod_cast hlen)
    (by exact_mod_cast d1) (by exact_mod_cast d2) (by exact_mod_cast s1) (by exact_mod_cast s2) ?_ ?_
  · exact_mod_cast u1
  · exact_mod_cast u2

theorem sum_le_of (l : List ℝ) (x : ℝ) (h : ∀ v ∈ l, v ≤ x) : l.sum ≤ l.length * x := by
  have := List.sum_le_card_nsmul l x h
  rwa [nsmul_eq_mul] at this

/-- The output for the largest input is at least one `n`-th of that sum. -/
theorem C135_largest (m : Libm) (hm : Sound m) (t : Tensor F32) (h : Proper t) (hsize : (Statistics.elements t).length ≤ 2 ^ 20)
    (r c k : Nat) (hr : r < t.rows) (hc : c < t.cols) (hk : k < t.chans) (hmax : ∀ v ∈ Statistics.elements t, F32.ge (t.get r c k) v = true) :
    1 - 1 / 2 ^ 22 ≤ (Statistics.elements t).length * real ((softmax m t).get r c k) := by
  have hs := (abs_le.mp (C135_sum m hm t h hsize)).1
  have : total (softmax m t) ≤ (Statistics.elements t).length * real ((softmax m t).get r c k) := by
    unfold total
    refine le_trans (sum_le_of _ (real ((softmax m t).get r c k)) ?_) ?_
    · intro v hv
      obtain ⟨w, hw, e⟩ := List.mem_map.mp hv
      obtain ⟨r', c', k', hr', hc', hk', e'⟩ := of_mem_elements _ w hw
      have := C135_order m hm t h r' c' k' r c k hr' hc' hk' hr hc hk (hmax _ (mem_elements t r' c' k' hr' hc' hk'))
      rw [← e, e']
      unfold real
      have hle : val ((softmax m t).get r' c' k') ≤ val ((softmax m t).get r c k) := ((ge_iff _ _).mp this).2.2
      unfold val at hle
      exact div_le_div_of_nonneg_right (by exact_mod_cast hle) (by positivity)
    · rw [List.length_map, softmax_elements, List.length_map]
  linarith

/-- A row of three elements. -/
def row (a b c : F32) : Tensor F32 := ⟨1, 3, 1, fun _ i _ => if i = 0 then a else if i = 1 then b else c⟩

/-- "The result elements sum to 1" (softmax_activation_function.hpp:15) is not exact: three equal inputs give three times 0x3EAAAAAB, which is more than a
third. -/
theorem C135_exact_violated (m : Libm) (hm : Sound m) (x : F32) (hx : IsFinite x) : total (softmax m (row x x x)) > 1 := by
  have hp : Proper (row x x x) := ⟨fun v hv => by
    obtain ⟨r, c, k, -, -, -, e⟩ := of_mem_elements _ _ hv
    have : v = x := by rw [e]; simp [row]
    rw [this]
    exact (lt_inf x).mpr ⟨finite_num _ hx, lt_inf_of x hx⟩, x, by
      have := mem_elements (row x x x) 0 0 0 (Nat.one_pos) (show 0 < 3 by omega) (Nat.one_pos)
      exact this, hx⟩
  have hel : Statistics.elements (row x x x) = [x, x, x] := rfl
  have hmax : maximum (row x x x) = x := by
    have := (maximum_facts _ hp).2.1
    rw [hel] at this
    simpa using this
  have he := exp_maximum m hm _ hp
  unfold total
  rw [softmax_elements, scale, hel]
  simp only [List.map_cons, List.map_nil]
  rw [hmax] at he ⊢
  rw [he, show one / sum [one, one, one] = ⟨0x3EAAAAAB#32⟩ by decide +kernel]
  have hv : value (0x3EAAAAAB#32) = 11184811 * 2 ^ 124 := by decide +kernel
  simp only [List.sum_cons, List.sum_nil, real, hv]
  norm_num

/-- Different inputs can get the same output, although the documentation calls it the importance of each element: the difference is lost when the maximum is
subtracted. -/
theorem C135_ties_violated (m : Libm) :
    F32.lt quarter half = true ∧ (softmax m (row ⟨0x4B800000#32⟩ quarter half)).get 0 1 0 = (softmax m (row ⟨0x4B800000#32⟩ quarter half)).get 0 2 0 := by
  refine ⟨by decide, ?_⟩
  rw [softmax_get, softmax_get]
  have : (row ⟨0x4B800000#32⟩ quarter half).get 0 1 0 - maximum (row ⟨0x4B800000#32⟩ quarter half) =
      (row ⟨0x4B800000#32⟩ quarter half).get 0 2 0 - maximum (row ⟨0x4B800000#32⟩ quarter half) := by decide +kernel
  rw [this]

/-- There is a library as assumed, and a tensor with minus infinity is proper. -/
example : Sound exactLibm ∧ Proper (row minusInf quarter half) ∧ ¬ Proper (row inf quarter half) ∧ ¬ Proper (row F32.nan quarter half) :=
  ⟨exact_sound, by decide +kernel, by decide +kernel, by decide +kernel⟩

example (m : Libm) (hm : Sound m) : |total (softmax m (row minusInf quarter half)) - 1| ≤ 1 / 2 ^ 22 :=
  C135_sum m hm _ (by decide +kernel) (by decide)

example (m : Libm) (hm : Sound m) : 1 - 1 / 2 ^ 22 ≤ 3 * real ((softmax m (row minusInf quarter half)).get 0 2 0) := by
  have := C135_largest m hm (row minusInf quarter half) (by decide +kernel) (by decide) 0 2 0 (by decide) (by decide) (by decide) (by decide +kernel)
  exact_mod_cast this

end Verif.FloatSoftmax
