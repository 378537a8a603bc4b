import Verif.Spec.Regression
import Verif.Spec.Calculus
import Verif.Lemmas.Layers
import Mathlib.Algebra.Order.BigOperators.Ring.Finset
import Mathlib.Tactic.Positivity
import Mathlib.Tactic.FieldSimp
import Mathlib.Tactic.Linarith

/-! The least-squares objective is a quadratic function with bounded curvature; what a step of gradient descent does to it. -/
namespace Verif.Regression
open Verif Calculus

/-- How the predictions change with the parameters. -/
noncomputable def curve (useBias : Bool) (s : ℝ) (data : List (Tensor ℝ × Tensor ℝ)) (v u : Tensor ℝ) : ℝ :=
  (data.map fun d => ∑ c ∈ Finset.range v.cols, output useBias v u d.1 c ^ 2).sum / data.length + s / 2 * norm2 v

noncomputable def slope (useBias : Bool) (s : ℝ) (data : List (Tensor ℝ × Tensor ℝ)) (w b v u : Tensor ℝ) : ℝ :=
  (data.map fun d => ∑ c ∈ Finset.range w.cols, 2 * (output useBias w b d.1 c - d.2.get 0 c 0) * output useBias v u d.1 c).sum / data.length +
    s * ∑ j ∈ Finset.range w.rows, ∑ c ∈ Finset.range w.cols, w.get j c 0 * v.get j c 0

theorem output_along (useBias : Bool) (w b v u x : Tensor ℝ) (hv : v.rows = w.rows) (z : ℝ) (c : Nat) :
    output useBias (along w v z) (along b u z) x c = output useBias w b x c + z * output useBias v u x c := by
  unfold output along
  simp only [hv]
  have : ∀ j, x.get 0 j 0 * (w.get j c 0 + z * v.get j c 0) = x.get 0 j 0 * w.get j c 0 + z * (x.get 0 j 0 * v.get j c 0) := fun j => by ring
  simp only [this, Finset.sum_add_distrib, ← Finset.mul_sum]
  cases useBias <;> simp <;> ring

theorem sum_three {α : Type} (l : List α) (f g h k : α → ℝ) (z : ℝ) (hh : ∀ a ∈ l, h a = f a + z * g a + z ^ 2 * k a) :
    (l.map h).sum = (l.map f).sum + z * (l.map g).sum + z ^ 2 * (l.map k).sum := by
  induction l with
  | nil => simp
  | cons a l ih =>
    simp only [List.map_cons, List.sum_cons, hh a List.mem_cons_self, ih fun b hb => hh b (List.mem_cons_of_mem _ hb)]
    ring

/-- The objective along a line. -/
theorem fit_along (useBias : Bool) (s : ℝ) (data : List (Tensor ℝ × Tensor ℝ)) (w b v u : Tensor ℝ) (hr : v.rows = w.rows)
    (hc : v.cols = w.cols) (z : ℝ) :
    fit useBias s data (along w v z) (along b u z) = fit useBias s data w b + z * slope useBias s data w b v u + z ^ 2 * curve useBias s data v u := by
  have h1 := sum_three data (squares useBias w b)
    (fun d => ∑ c ∈ Finset.range w.cols, 2 * (output useBias w b d.1 c - d.2.get 0 c 0) * output useBias v u d.1 c)
    (squares useBias (along w v z) (along b u z)) (fun d => ∑ c ∈ Finset.range v.cols, output useBias v u d.1 c ^ 2) z (by
      intro d _
      unfold squares
      rw [hc, Finset.mul_sum, Finset.mul_sum, ← Finset.sum_add_distrib, ← Finset.sum_add_distrib]
      refine Finset.sum_congr rfl fun c _ => ?_
      rw [output_along useBias w b v u d.1 hr]
      ring)
  have h2 : norm2 (along w v z) = norm2 w + z * (2 * ∑ j ∈ Finset.range w.rows, ∑ c ∈ Finset.range w.cols, w.get j c 0 * v.get j c 0) + z ^ 2 * norm2 v := by
    unfold norm2
    rw [hr, hc, Finset.mul_sum, Finset.mul_sum, Finset.mul_sum, ← Finset.sum_add_distrib, ← Finset.sum_add_distrib]
    refine Finset.sum_congr rfl fun j _ => ?_
    rw [Finset.mul_sum, Finset.mul_sum, Finset.mul_sum, ← Finset.sum_add_distrib, ← Finset.sum_add_distrib]
    refine Finset.sum_congr rfl fun c _ => ?_
    show (w.get j c 0 + z * v.get j c 0) ^ 2 = _
    ring
  unfold fit slope curve
  rw [h1, h2]
  ring

theorem norm2_nonneg (t : Tensor ℝ) : 0 ≤ norm2 t := Finset.sum_nonneg fun _ _ => Finset.sum_nonneg fun _ _ => sq_nonneg _

theorem curve_nonneg (useBias : Bool) (s : ℝ) (hs : 0 ≤ s) (data : List (Tensor ℝ × Tensor ℝ)) (v u : Tensor ℝ) : 0 ≤ curve useBias s data v u := by
  unfold curve
  refine add_nonneg (div_nonneg (List.sum_nonneg fun x hx => ?_) (Nat.cast_nonneg _)) (mul_nonneg (by linarith) (norm2_nonneg v))
  obtain ⟨d, _, rfl⟩ := List.mem_map.mp hx
  exact Finset.sum_nonneg fun _ _ => sq_nonneg _

theorem cauchy (a A V β rw rb : ℝ) (hA : 0 ≤ A) (hV : 0 ≤ V) (ha : a ^ 2 ≤ A * V) (hrw : 0 < rw) (hrb : 0 < rb) :
    (a + β) ^ 2 ≤ (rw * A + rb) * (V / rw + β ^ 2 / rb) := by
  have e : (rw * A + rb) * (V / rw + β ^ 2 / rb) = A * V + β ^ 2 + (A * β ^ 2 * rw / rb + V * rb / rw) := by
    field_simp; ring
  rw [e]
  have h : 2 * a * β ≤ A * β ^ 2 * rw / rb + V * rb / rw := by
    rcases hA.eq_or_lt with h0 | h0
    · rw [← h0, zero_mul] at ha
      have : a = 0 := by nlinarith [sq_nonneg a]
      rw [this, ← h0]
      simp only [mul_zero, zero_mul, zero_div, zero_add]
      positivity
    · have h1 : a ^ 2 / A ≤ V := by rw [div_le_iff₀ h0]; linarith
      have h2 : a ^ 2 / A * rb / rw ≤ V * rb / rw := by gcongr
      have h3 : A * β ^ 2 * rw / rb + a ^ 2 / A * rb / rw - 2 * a * β = (A * β * rw - a * rb) ^ 2 / (A * rw * rb) := by
        field_simp; ring
      have h4 : 0 ≤ (A * β * rw - a * rb) ^ 2 / (A * rw * rb) := by positivity
      linarith
  nlinarith

theorem output_bound (useBias : Bool) (v u x : Tensor ℝ) (c : Nat) (rw rb : ℝ) (hrw : 0 < rw) (hrb : 0 < rb) :
    output useBias v u x c ^ 2 ≤ (rw * ∑ j ∈ Finset.range v.rows, x.get 0 j 0 ^ 2 + if useBias then rb else 0) *
      ((∑ j ∈ Finset.range v.rows, v.get j c 0 ^ 2) / rw + u.get 0 c 0 ^ 2 / rb) := by
  unfold output
  have h := Finset.sum_mul_sq_le_sq_mul_sq (Finset.range v.rows) (fun j => x.get 0 j 0) (fun j => v.get j c 0)
  have hA : 0 ≤ ∑ j ∈ Finset.range v.rows, x.get 0 j 0 ^ 2 := Finset.sum_nonneg fun _ _ => sq_nonneg _
  have hV : 0 ≤ ∑ j ∈ Finset.range v.rows, v.get j c 0 ^ 2 := Finset.sum_nonneg fun _ _ => sq_nonneg _
  cases useBias with
  | true => exact cauchy _ _ _ _ rw rb hA hV h hrw hrb
  | false =>
    simp only [Bool.false_eq_true, if_false, add_zero]
    refine h.trans ?_
    have e : rw * (∑ j ∈ Finset.range v.rows, x.get 0 j 0 ^ 2) * ((∑ j ∈ Finset.range v.rows, v.get j c 0 ^ 2) / rw) =
        (∑ j ∈ Finset.range v.rows, x.get 0 j 0 ^ 2) * ∑ j ∈ Finset.range v.rows, v.get j c 0 ^ 2 := by field_simp
    rw [mul_add, e]
    have : 0 ≤ rw * (∑ j ∈ Finset.range v.rows, x.get 0 j 0 ^ 2) * (u.get 0 c 0 ^ 2 / rb) := by positivity
    linarith

theorem list_sum_le {α : Type} (l : List α) (f : α → ℝ) (g : α → ℝ) (h : ∀ a ∈ l, f a ≤ g a) : (l.map f).sum ≤ (l.map g).sum := by
  induction l with
  | nil => simp
  | cons a l ih =>
    simp only [List.map_cons, List.sum_cons]
    exact add_le_add (h a List.mem_cons_self) (ih fun b hb => h b (List.mem_cons_of_mem _ hb))

/-- The curvature is bounded by the learning rates. -/
theorem curve_le (useBias : Bool) (s rw rb : ℝ) (hs : 0 ≤ s) (hrw : 0 < rw) (hrb : 0 < rb) (data : List (Tensor ℝ × Tensor ℝ)) (h0 : data ≠ [])
    (v u : Tensor ℝ) (hu : u.rows = 1) (hc : u.cols = v.cols) (h : reach useBias s rw rb v.rows data ≤ 1 / 2) :
    curve useBias s data v u ≤ 1 / 2 * (norm2 v / rw + norm2 u / rb) := by
  have hsum : ∀ x : Tensor ℝ, ∑ c ∈ Finset.range v.cols, output useBias v u x c ^ 2 ≤
      (rw * ∑ j ∈ Finset.range v.rows, x.get 0 j 0 ^ 2 + if useBias then rb else 0) * (norm2 v / rw + norm2 u / rb) := by
    intro x
    have e1 : norm2 v = ∑ c ∈ Finset.range v.cols, ∑ j ∈ Finset.range v.rows, v.get j c 0 ^ 2 := Finset.sum_comm
    have e2 : norm2 u = ∑ c ∈ Finset.range v.cols, u.get 0 c 0 ^ 2 := by unfold norm2; rw [hu, hc, Finset.sum_range_one]
    rw [e1, e2, Finset.sum_div, Finset.sum_div, ← Finset.sum_add_distrib, Finset.mul_sum]
    exact Finset.sum_le_sum fun c _ => output_bound useBias v u x c rw rb hrw hrb
  have hl : (0 : ℝ) < data.length := by
    have := List.length_pos_iff.mpr h0
    exact_mod_cast this
  have hD : 0 ≤ norm2 v / rw + norm2 u / rb := add_nonneg (div_nonneg (norm2_nonneg v) hrw.le) (div_nonneg (norm2_nonneg u) hrb.le)
  have h1 : (data.map fun d => ∑ c ∈ Finset.range v.cols, output useBias v u d.1 c ^ 2).sum / data.length ≤
      (rw * power v.rows data + if useBias then rb else 0) * (norm2 v / rw + norm2 u / rb) := by
    rw [div_le_iff₀ hl]
    refine (list_sum_le data _ _ fun d _ => hsum d.1).trans_eq ?_
    have e : ∀ (l : List (Tensor ℝ × Tensor ℝ)) (a D : ℝ),
        (l.map fun d => (rw * (∑ j ∈ Finset.range v.rows, d.1.get 0 j 0 ^ 2) + a) * D).sum =
          (rw * (l.map fun d => ∑ j ∈ Finset.range v.rows, d.1.get 0 j 0 ^ 2).sum + a * l.length) * D := by
      intro l a D
      induction l with
      | nil => simp
      | cons d l ih =>
        simp only [List.map_cons, List.sum_cons, ih, List.length_cons]
        push_cast
        ring
    rw [e]
    unfold power
    field_simp
  have h2 : s / 2 * norm2 v ≤ rw * (s / 2) * (norm2 v / rw + norm2 u / rb) := by
    have e : rw * (s / 2) * (norm2 v / rw + norm2 u / rb) = s / 2 * norm2 v + rw * (s / 2) * (norm2 u / rb) := by field_simp
    rw [e]
    have : 0 ≤ rw * (s / 2) * (norm2 u / rb) := mul_nonneg (by positivity) (div_nonneg (norm2_nonneg u) hrb.le)
    linarith
  have h3 : (rw * power v.rows data + (if useBias then rb else 0)) * (norm2 v / rw + norm2 u / rb) + rw * (s / 2) * (norm2 v / rw + norm2 u / rb) =
      reach useBias s rw rb v.rows data * (norm2 v / rw + norm2 u / rb) := by unfold reach; ring
  unfold curve
  calc _ ≤ (rw * power v.rows data + (if useBias then rb else 0)) * (norm2 v / rw + norm2 u / rb) + rw * (s / 2) * (norm2 v / rw + norm2 u / rb) :=
        add_le_add h1 h2
    _ = _ := h3
    _ ≤ _ := mul_le_mul_of_nonneg_right h hD

/-! ### One step -/

/-- The sum of the products of the elements. -/
noncomputable def dot (a b : Tensor ℝ) : ℝ := ∑ j ∈ Finset.range a.rows, ∑ c ∈ Finset.range a.cols, a.get j c 0 * b.get j c 0

theorem norm2_minus (p q g : Tensor ℝ) (hr : g.rows = p.rows) (hc : g.cols = p.cols) (r : ℝ) :
    norm2 (minus (along p g (-r)) q) = norm2 (minus p q) - 2 * r * dot g (minus p q) + r ^ 2 * norm2 g := by
  unfold norm2 dot
  show ∑ j ∈ Finset.range p.rows, ∑ c ∈ Finset.range p.cols, (p.get j c 0 + -r * g.get j c 0 - q.get j c 0) ^ 2 =
    ∑ j ∈ Finset.range p.rows, ∑ c ∈ Finset.range p.cols, (p.get j c 0 - q.get j c 0) ^ 2 -
      2 * r * ∑ j ∈ Finset.range g.rows, ∑ c ∈ Finset.range g.cols, g.get j c 0 * (p.get j c 0 - q.get j c 0) +
      r ^ 2 * ∑ j ∈ Finset.range g.rows, ∑ c ∈ Finset.range g.cols, g.get j c 0 ^ 2
  rw [hr, hc, Finset.mul_sum, Finset.mul_sum, ← Finset.sum_sub_distrib, ← Finset.sum_add_distrib]
  refine Finset.sum_congr rfl fun j _ => ?_
  rw [Finset.mul_sum, Finset.mul_sum, ← Finset.sum_sub_distrib, ← Finset.sum_add_distrib]
  refine Finset.sum_congr rfl fun c _ => ?_
  ring

theorem dot_self (g : Tensor ℝ) : dot g g = norm2 g := by
  unfold dot norm2
  exact Finset.sum_congr rfl fun _ _ => Finset.sum_congr rfl fun _ _ => (pow_two _).symm

theorem dot_smul (a b : Tensor ℝ) (r : ℝ) : dot a ⟨b.rows, b.cols, b.chans, fun i c k => r * b.get i c k⟩ = r * dot a b := by
  unfold dot
  rw [Finset.mul_sum]
  refine Finset.sum_congr rfl fun _ _ => ?_
  rw [Finset.mul_sum]
  exact Finset.sum_congr rfl fun _ _ => by ring

theorem norm2_smul (b : Tensor ℝ) (r : ℝ) : norm2 ⟨b.rows, b.cols, b.chans, fun i c k => r * b.get i c k⟩ = r ^ 2 * norm2 b := by
  unfold norm2
  rw [Finset.mul_sum]
  refine Finset.sum_congr rfl fun _ _ => ?_
  rw [Finset.mul_sum]
  exact Finset.sum_congr rfl fun _ _ => by ring

theorem dot_flip (g p q : Tensor ℝ) : dot g (minus q p) = -dot g (minus p q) := by
  unfold dot
  rw [← Finset.sum_neg_distrib]
  refine Finset.sum_congr rfl fun _ _ => ?_
  rw [← Finset.sum_neg_distrib]
  refine Finset.sum_congr rfl fun _ _ => ?_
  show _ * (_ - _) = -(_ * (_ - _))
  ring

theorem fit_congr (useBias : Bool) (s : ℝ) (data : List (Tensor ℝ × Tensor ℝ)) {w w' b b' : Tensor ℝ} (h1 : w.rows = w'.rows)
    (h2 : w.cols = w'.cols) (h3 : w.get = w'.get) (h4 : b.get = b'.get) : fit useBias s data w b = fit useBias s data w' b' := by
  have e : squares useBias w b = squares useBias w' b' := by
    funext d; unfold squares output; rw [h1, h2, h3, h4]
  unfold fit norm2
  rw [e, h1, h2, h3]

theorem norm2_step (p g : Tensor ℝ) (hr : g.rows = p.rows) (hc : g.cols = p.cols) (r : ℝ) : norm2 (minus p (along p g (-r))) = r ^ 2 * norm2 g := by
  unfold norm2
  show ∑ j ∈ Finset.range p.rows, ∑ c ∈ Finset.range p.cols, (p.get j c 0 - (p.get j c 0 + -r * g.get j c 0)) ^ 2 =
      r ^ 2 * ∑ j ∈ Finset.range g.rows, ∑ c ∈ Finset.range g.cols, g.get j c 0 ^ 2
  rw [hr, hc, Finset.mul_sum]
  refine Finset.sum_congr rfl fun j _ => ?_
  rw [Finset.mul_sum]
  refine Finset.sum_congr rfl fun c _ => ?_
  ring

/-- A step of gradient descent with small enough learning rates: it is not longer than the objective allows, which does not grow, and the
parameters come closer to all parameters that are better than the new ones. -/
theorem step (useBias : Bool) (s rw rb : ℝ) (hs : 0 ≤ s) (hrw : 0 < rw) (hrb : 0 < rb) (data : List (Tensor ℝ × Tensor ℝ)) (h0 : data ≠ [])
    (n m : Nat) (w b gw gb : Tensor ℝ) (hw : Matrix n m w) (hb : Matrix 1 m b) (hgw : Matrix n m gw) (hgb : Matrix 1 m gb)
    (hg : ∀ v u, Matrix n m v → Matrix 1 m u → slope useBias s data w b v u = dot gw v + dot gb u)
    (hre : reach useBias s rw rb n data ≤ 1 / 2) :
    distance rw rb w b (along w gw (-rw)) (along b gb (-rb)) ≤ 2 * (fit useBias s data w b - fit useBias s data (along w gw (-rw)) (along b gb (-rb))) ∧
    ∀ qw qb, Matrix n m qw → Matrix 1 m qb →
      distance rw rb (along w gw (-rw)) (along b gb (-rb)) qw qb + 2 * (fit useBias s data (along w gw (-rw)) (along b gb (-rb)) - fit useBias s data qw qb) +
        2 * curve useBias s data (minus qw w) (minus qb b) ≤ distance rw rb w b qw qb := by
  -- the step
  let v : Tensor ℝ := ⟨gw.rows, gw.cols, gw.chans, fun i c k => -rw * gw.get i c k⟩
  let u : Tensor ℝ := ⟨gb.rows, gb.cols, gb.chans, fun i c k => -rb * gb.get i c k⟩
  have hv : Matrix n m v := hgw
  have hu : Matrix 1 m u := hgb
  have e1 : fit useBias s data (along w gw (-rw)) (along b gb (-rb)) = fit useBias s data (along w v 1) (along b u 1) := by
    refine fit_congr useBias s data rfl rfl ?_ ?_
    · funext r c k; show _ + _ * _ = _ + 1 * (_ * _); ring
    · funext r c k; show _ + _ * _ = _ + 1 * (_ * _); ring
  have e2 := fit_along useBias s data w b v u (hv.1.trans hw.1.symm) (hv.2.1.trans hw.2.1.symm) 1
  have e3 : slope useBias s data w b v u = -rw * norm2 gw + -rb * norm2 gb := by
    rw [hg v u hv hu, dot_smul, dot_smul, dot_self, dot_self]
  have e4 := curve_le useBias s rw rb hs hrw hrb data h0 v u hu.1 (hu.2.1.trans hv.2.1.symm) (by rw [hv.1]; exact hre)
  have e5 : norm2 v / rw = rw * norm2 gw := by
    show norm2 ⟨gw.rows, gw.cols, gw.chans, fun i c k => -rw * gw.get i c k⟩ / rw = _
    rw [norm2_smul]; field_simp
  have e6 : norm2 u / rb = rb * norm2 gb := by
    show norm2 ⟨gb.rows, gb.cols, gb.chans, fun i c k => -rb * gb.get i c k⟩ / rb = _
    rw [norm2_smul]; field_simp
  rw [e5, e6] at e4
  have n1 := mul_nonneg hrw.le (norm2_nonneg gw)
  have n2 := mul_nonneg hrb.le (norm2_nonneg gb)
  rw [e1]
  have d0 : distance rw rb w b (along w gw (-rw)) (along b gb (-rb)) = rw * norm2 gw + rb * norm2 gb := by
    unfold distance
    rw [norm2_step w gw (hgw.1.trans hw.1.symm) (hgw.2.1.trans hw.2.1.symm), norm2_step b gb (hgb.1.trans hb.1.symm) (hgb.2.1.trans hb.2.1.symm)]
    field_simp
  refine ⟨by rw [e2, e3, d0]; linarith, fun qw qb hqw hqb => ?_⟩
  -- the competitor
  have f1 : fit useBias s data qw qb = fit useBias s data (along w (minus qw w) 1) (along b (minus qb b) 1) := by
    refine fit_congr useBias s data (hqw.1.trans hw.1.symm) (hqw.2.1.trans hw.2.1.symm) ?_ ?_
    · funext r c k; show _ = _ + 1 * (_ - _); ring
    · funext r c k; show _ = _ + 1 * (_ - _); ring
  have f2 := fit_along useBias s data w b (minus qw w) (minus qb b) (hqw.1.trans hw.1.symm) (hqw.2.1.trans hw.2.1.symm) 1
  rw [hg (minus qw w) (minus qb b) hqw hqb, dot_flip gw, dot_flip gb] at f2
  have d1 : distance rw rb (along w gw (-rw)) (along b gb (-rb)) qw qb =
      distance rw rb w b qw qb - 2 * (dot gw (minus w qw) + dot gb (minus b qb)) + (rw * norm2 gw + rb * norm2 gb) := by
    unfold distance
    rw [norm2_minus w qw gw (hgw.1.trans hw.1.symm) (hgw.2.1.trans hw.2.1.symm), norm2_minus b qb gb (hgb.1.trans hb.1.symm) (hgb.2.1.trans hb.2.1.symm)]
    field_simp
    ring
  rw [d1, f1, f2, e2, e3]
  linarith

theorem distance_nonneg {rw rb : ℝ} (hrw : 0 < rw) (hrb : 0 < rb) (w b w' b' : Tensor ℝ) : 0 ≤ distance rw rb w b w' b' :=
  add_nonneg (div_nonneg (norm2_nonneg _) hrw.le) (div_nonneg (norm2_nonneg _) hrb.le)

theorem squares_nonneg (useBias : Bool) (w b : Tensor ℝ) (d) : 0 ≤ squares useBias w b d := Finset.sum_nonneg fun _ _ => sq_nonneg _

theorem fit_nonneg (useBias : Bool) {s : ℝ} (hs : 0 ≤ s) (data : List (Tensor ℝ × Tensor ℝ)) (w b : Tensor ℝ) : 0 ≤ fit useBias s data w b := by
  unfold fit
  refine add_nonneg (div_nonneg (List.sum_nonneg fun x hx => ?_) (Nat.cast_nonneg _)) (mul_nonneg (by linarith) (norm2_nonneg w))
  obtain ⟨d, _, rfl⟩ := List.mem_map.mp hx
  exact squares_nonneg useBias w b d

/-! ### Parameters that fit exactly -/

theorem exact_zero {useBias : Bool} {w b : Tensor ℝ} {d : Tensor ℝ × Tensor ℝ} (h : squares useBias w b d = 0) {c : Nat} (hc : c < w.cols) :
    output useBias w b d.1 c - d.2.get 0 c 0 = 0 := by
  have := (Finset.sum_eq_zero_iff_of_nonneg fun c _ => sq_nonneg (output useBias w b d.1 c - d.2.get 0 c 0)).mp h c (Finset.mem_range.mpr hc)
  exact pow_eq_zero_iff two_ne_zero |>.mp this

/-- The objective, measured from parameters that fit exactly. -/
theorem fit_exact (useBias : Bool) (data : List (Tensor ℝ × Tensor ℝ)) {n m : Nat} {w b qw qb : Tensor ℝ} (hw : Matrix n m w)
    (hqw : Matrix n m qw) (hq : ∀ d ∈ data, squares useBias qw qb d = 0) :
    fit useBias 0 data qw qb = 0 ∧ fit useBias 0 data w b = curve useBias 0 data (minus qw w) (minus qb b) := by
  constructor
  · unfold fit
    have : data.map (squares useBias qw qb) = data.map fun _ => (0 : ℝ) := List.map_congr_left hq
    rw [this]
    simp
  · unfold fit curve
    simp only [zero_div, zero_mul, add_zero]
    congr 2
    refine List.map_congr_left fun d hd => ?_
    unfold squares
    show _ = ∑ c ∈ Finset.range qw.cols, _
    rw [hw.2.1, hqw.2.1]
    refine Finset.sum_congr rfl fun c hc => ?_
    have h1 := exact_zero (hq d hd) (c := c) (by rw [hqw.2.1]; exact Finset.mem_range.mp hc)
    have h2 : output useBias (minus qw w) (minus qb b) d.1 c = output useBias qw qb d.1 c - output useBias w b d.1 c := by
      unfold output minus
      simp only [hw.1, hqw.1, mul_sub, Finset.sum_sub_distrib]
      cases useBias <;> simp <;> ring
    rw [h2, sub_eq_zero.mp h1]
    ring

/-- The objective at other parameters. -/
theorem fit_other (useBias : Bool) (data : List (Tensor ℝ × Tensor ℝ)) {n m : Nat} {w b qw qb : Tensor ℝ} (hw : Matrix n m w)
    (hqw : Matrix n m qw) : fit useBias 0 data qw qb ≤ 2 * fit useBias 0 data w b + 2 * curve useBias 0 data (minus qw w) (minus qb b) := by
  unfold fit curve
  simp only [zero_div, zero_mul, add_zero]
  rw [← mul_div_assoc, ← mul_div_assoc, ← add_div]
  refine div_le_div_of_nonneg_right ?_ (Nat.cast_nonneg _)
  have e : 2 * (data.map (squares useBias w b)).sum + 2 * (data.map fun d => ∑ c ∈ Finset.range (minus qw w).cols, output useBias (minus qw w) (minus qb b) d.1 c ^ 2).sum =
      (data.map fun d => 2 * squares useBias w b d + 2 * ∑ c ∈ Finset.range (minus qw w).cols, output useBias (minus qw w) (minus qb b) d.1 c ^ 2).sum := by
    rw [List.sum_map_add, List.sum_map_mul_left, List.sum_map_mul_left]
  rw [e]
  refine list_sum_le data _ _ fun d _ => ?_
  unfold squares
  show ∑ c ∈ Finset.range qw.cols, _ ≤ 2 * ∑ c ∈ Finset.range w.cols, _ + 2 * ∑ c ∈ Finset.range qw.cols, _
  rw [hw.2.1, hqw.2.1, Finset.mul_sum, Finset.mul_sum, ← Finset.sum_add_distrib]
  refine Finset.sum_le_sum fun c _ => ?_
  have h2 : output useBias (minus qw w) (minus qb b) d.1 c = output useBias qw qb d.1 c - output useBias w b d.1 c := by
    unfold output minus
    simp only [hw.1, hqw.1, mul_sub, Finset.sum_sub_distrib]
    cases useBias <;> simp <;> ring
  rw [h2]
  nlinarith [sq_nonneg (output useBias w b d.1 c - d.2.get 0 c 0 - (output useBias qw qb d.1 c - output useBias w b d.1 c))]

/-- The triangle inequality for squares. -/
theorem distance_via {rw rb : ℝ} (hrw : 0 < rw) (hrb : 0 < rb) {n m : Nat} {a a' p p' w w' : Tensor ℝ} (ha : Matrix n m a) (ha' : Matrix 1 m a')
    (hp : Matrix n m p) (hp' : Matrix 1 m p') {t : ℝ} (ht : 1 ≤ t) :
    distance rw rb a a' w w' ≤ (1 + 1 / t) * distance rw rb a a' p p' + (1 + t) * distance rw rb p p' w w' := by
  have hpt : ∀ x y z : ℝ, (x - z) ^ 2 ≤ (1 + 1 / t) * (x - y) ^ 2 + (1 + t) * (y - z) ^ 2 := by
    intro x y z
    have ht0 : 0 < t := by linarith
    have e : (1 + 1 / t) * (x - y) ^ 2 + (1 + t) * (y - z) ^ 2 - (x - z) ^ 2 = ((x - y) - t * (y - z)) ^ 2 / t := by field_simp; ring
    have : 0 ≤ ((x - y) - t * (y - z)) ^ 2 / t := by positivity
    linarith
  have hn : ∀ {k : Nat} {a p w : Tensor ℝ}, Matrix k m a → Matrix k m p → norm2 (minus a w) ≤ (1 + 1 / t) * norm2 (minus a p) + (1 + t) * norm2 (minus p w) := by
    intro k a p w ha hp
    unfold norm2
    show ∑ j ∈ Finset.range a.rows, ∑ c ∈ Finset.range a.cols, (a.get j c 0 - w.get j c 0) ^ 2 ≤
      (1 + 1 / t) * ∑ j ∈ Finset.range a.rows, ∑ c ∈ Finset.range a.cols, (a.get j c 0 - p.get j c 0) ^ 2 +
      (1 + t) * ∑ j ∈ Finset.range p.rows, ∑ c ∈ Finset.range p.cols, (p.get j c 0 - w.get j c 0) ^ 2
    rw [ha.1, ha.2.1, hp.1, hp.2.1, Finset.mul_sum, Finset.mul_sum, ← Finset.sum_add_distrib]
    refine Finset.sum_le_sum fun j _ => ?_
    rw [Finset.mul_sum, Finset.mul_sum, ← Finset.sum_add_distrib]
    exact Finset.sum_le_sum fun c _ => hpt _ _ _
  unfold distance
  have h1 := div_le_div_of_nonneg_right (hn (w := w) ha hp) hrw.le
  have h2 := div_le_div_of_nonneg_right (hn (w := w') ha' hp') hrb.le
  calc _ ≤ _ := add_le_add h1 h2
    _ = _ := by ring

theorem distance_self (rw rb : ℝ) (w b : Tensor ℝ) : distance rw rb w b w b = 0 := by
  simp [distance, norm2, minus]

/-- The condition for every record is the condition for every batch. -/
theorem reach_all (useBias : Bool) (rw rb : ℝ) (n : Nat) (data : List (Tensor ℝ × Tensor ℝ)) (h0 : data ≠ [])
    (h : ∀ d ∈ data, reach useBias 0 rw rb n [d] ≤ 1 / 2) : reach useBias 0 rw rb n data ≤ 1 / 2 := by
  have hl : (0 : ℝ) < data.length := by exact_mod_cast List.length_pos_iff.mpr h0
  have e : reach useBias 0 rw rb n data = (data.map fun d => reach useBias 0 rw rb n [d]).sum / data.length := by
    unfold reach power
    simp only [List.map_cons, List.map_nil, List.sum_cons, List.sum_nil, List.length_cons, List.length_nil, zero_div, add_zero, Nat.cast_zero, zero_add,
      Nat.cast_one, div_one]
    rw [List.sum_map_add, List.sum_map_mul_left, List.map_const', List.sum_replicate]
    field_simp
    simp
  rw [e, div_le_iff₀ hl]
  refine (list_sum_le data _ (fun _ => 1 / 2) h).trans_eq ?_
  rw [List.map_const', List.sum_replicate]
  simp
  ring

end Verif.Regression
