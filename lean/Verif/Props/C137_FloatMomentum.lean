import Verif.Lemmas.FloatMomentum
import Verif.Props.C136_FloatAdam

/-!
C137: gradient descent with momentum (`sgdm`) on 32-bit floats. With gradients of at most 2^94 the momentum is at most 2^98 and the weight finite, however many
updates there are; the weight moves against gradients of one sign; without gradients the momentum dies down to at most four times the smallest float, and then
weights of at least 2^-121 are at rest. It does not always reach 0: a small weight may drift for ever. An infinite gradient is never forgotten. The learning rate
drops to its lower bound whenever the average momentum is not positive.
-/
namespace Verif.FloatMomentum
open Verif FloatBits Rounding FloatOrder FloatActivation FloatLoss FloatAdam

theorem updates_snoc (s : State) (l : List (F32 × F32)) (x : F32 × F32) : updates s (l ++ [x]) = update x.1 (updates s l) x.2 := by
  unfold updates
  rw [List.foldl_append]
  rfl

theorem updates_append (s : State) (l l' : List (F32 × F32)) : updates s (l ++ l') = updates (updates s l) l' := by
  unfold updates
  rw [List.foldl_append]

theorem updates_cons (s : State) (l : List (F32 × F32)) (x : F32 × F32) : updates s (x :: l) = updates (update x.1 s x.2) l := rfl

theorem start_98 : AtMost two98 (0 : F32) := by decide +kernel

theorem consts_98 : Rounding.Finite two98 ∧ 0 ≤ val two98 ∧ Rounding.Finite two94 ∧ 0 ≤ val two94 ∧ Rounding.Finite (factor * two98) ∧
    (factor * two98).units + two94.units ≤ two98.units ∧ factor.units * two98.units ≤ (factor * two98).units * 2 ^ 149 := by decide +kernel

/-- A rate of at most 1 times a gradient. -/
theorem scaled (r g : F32) (hr : AtMost one r) (hg : AtMost two94 g) : Rounding.Finite (r * g) ∧ (r * g).units ≤ two94.units := by
  obtain ⟨-, -, c3, c4, -⟩ := consts_98
  obtain ⟨r1, r2⟩ := (atMost_iff one _ finite_one one_pos.le).mp hr
  obtain ⟨g1, g2⟩ := (atMost_iff two94 _ c3 c4).mp hg
  refine mul_units_le r g two94 r1 g1 c3 ?_
  rw [units_one] at r2
  rw [Nat.mul_comm]
  exact Nat.mul_le_mul g2 r2

/-- The momentum after any number of updates with rates of at most 1 and gradients of at most 2^94: at most 2^98. -/
theorem C137_momentum (w : F32) (l : List (F32 × F32)) (hl : ∀ x ∈ l, AtMost one x.1 ∧ AtMost two94 x.2) : AtMost two98 (updates (start w) l).momentum := by
  induction l using List.reverseRecOn with
  | nil => exact start_98
  | append_singleton l x ih =>
    have i := ih fun y hy => hl y (List.mem_append_left _ hy)
    obtain ⟨x1, x2⟩ := hl x (by simp)
    rw [updates_snoc]
    show AtMost two98 (factor * _ + x.1 * x.2)
    generalize (updates (start w) l).momentum = m at *
    obtain ⟨c1, c2, c3, c4, c5, c6, c7⟩ := consts_98
    obtain ⟨s1, s2⟩ := scaled _ _ x1 x2
    rw [atMost_iff two98 _ c1 c2] at i ⊢
    obtain ⟨f1, f2⟩ := mul_units_le factor m (factor * two98) factor_finite i.1 c5 (le_trans (Nat.mul_le_mul_left _ i.2) c7)
    exact add_units_le _ _ two98 f1 s1 c1 (le_trans (Nat.add_le_add f2 s2) c6)

/-- Weights stay finite, however many updates there are: rates of at most 1 and gradients of at most 2^94. -/
theorem C137_finite_partial (w : F32) (hw : IsFinite w) (l : List (F32 × F32)) (hl : ∀ x ∈ l, AtMost one x.1 ∧ AtMost two94 x.2) :
    IsFinite (updates (start w) l).w := by
  induction l using List.reverseRecOn with
  | nil => exact hw
  | append_singleton l x ih =>
    have i := ih fun y hy => hl y (List.mem_append_left _ hy)
    have m := C137_momentum w (l ++ [x]) hl
    rw [updates_snoc] at m ⊢
    obtain ⟨m1, m2⟩ := (atMost_iff two98 _ consts_98.1 consts_98.2.1).mp m
    exact add_98_finite _ (F32.negate (update x.1 (updates (start w) l) x.2).momentum) i ((negate_finite _).mpr m1) (by rw [negate_units]; exact m2)

/-- Weights move against the gradient: if all gradients so far had one sign, the next update does not move the weight in that direction. -/
theorem C137_direction (w : F32) (hw : IsFinite w) (l : List (F32 × F32)) (x : F32 × F32)
    (hl : ∀ y ∈ l ++ [x], AtMost one y.1 ∧ F32.ge y.1 0 = true ∧ AtMost two94 y.2) :
    ((∀ y ∈ l ++ [x], F32.ge y.2 0 = true) → F32.ge (updates (start w) l).w (updates (start w) (l ++ [x])).w = true) ∧
      ((∀ y ∈ l ++ [x], F32.ge 0 y.2 = true) → F32.ge (updates (start w) (l ++ [x])).w (updates (start w) l).w = true) := by
  have sign : ∀ l : List (F32 × F32), (∀ y ∈ l, AtMost one y.1 ∧ F32.ge y.1 0 = true ∧ AtMost two94 y.2) →
      ((∀ y ∈ l, F32.ge y.2 0 = true) → 0 ≤ val (updates (start w) l).momentum) ∧ ((∀ y ∈ l, F32.ge 0 y.2 = true) → val (updates (start w) l).momentum ≤ 0) := by
    intro l
    induction l using List.reverseRecOn with
    | nil => intro _; exact ⟨fun _ => val_zero.ge, fun _ => val_zero.le⟩
    | append_singleton l x ih =>
      intro hl
      have hl' : ∀ y ∈ l, AtMost one y.1 ∧ F32.ge y.1 0 = true ∧ AtMost two94 y.2 := fun y hy => hl y (List.mem_append_left _ hy)
      obtain ⟨i1, i2⟩ := ih hl'
      obtain ⟨x1, x2, x3⟩ := hl x (by simp)
      obtain ⟨c1, c2, c3, c4, c5, -, c7⟩ := consts_98
      have fm := (atMost_iff two98 _ c1 c2).mp (C137_momentum w l fun y hy => ⟨(hl' y hy).1, (hl' y hy).2.2⟩)
      have fr := (atMost_iff one _ finite_one one_pos.le).mp x1
      have fg := (atMost_iff two94 _ c3 c4).mp x3
      have r0 := ((ge_iff _ _).mp x2).2.2
      rw [val_zero] at r0
      rw [updates_snoc]
      show (_ → 0 ≤ val (factor * _ + x.1 * x.2)) ∧ (_ → val (factor * _ + x.1 * x.2) ≤ 0)
      generalize (updates (start w) l).momentum = m at *
      have f0 : 0 < val factor := by decide +kernel
      obtain ⟨a1, a2, -, -⟩ := FloatAdam.mul_sign factor m factor_finite fm.1
      obtain ⟨b1, b2, -, -⟩ := FloatAdam.mul_sign x.1 x.2 fr.1 fg.1
      have fa := (mul_units_le factor m (factor * two98) factor_finite fm.1 c5 (le_trans (Nat.mul_le_mul_left _ fm.2) c7)).1
      obtain ⟨d1, d2⟩ := FloatAdam.add_sign (factor * m) (x.1 * x.2) fa (finite_num _ (scaled _ _ x1 x3).1)
      constructor
      · intro h
        have hx := ((ge_iff _ _).mp (h x (by simp))).2.2
        rw [val_zero] at hx
        exact d1 (a1 f0.le (i1 fun y hy => h y (List.mem_append_left _ hy))) (b1 r0 hx)
      · intro h
        have hx := ((ge_iff _ _).mp (h x (by simp))).2.2
        rw [val_zero] at hx
        exact d2 (a2 f0.le (i2 fun y hy => h y (List.mem_append_left _ hy))) (b2 r0 hx)
  have hl2 : ∀ y ∈ l ++ [x], AtMost one y.1 ∧ AtMost two94 y.2 := fun y hy => ⟨(hl y hy).1, (hl y hy).2.2⟩
  obtain ⟨g1, g2⟩ := sign (l ++ [x]) hl
  have m1 := ((atMost_iff two98 _ consts_98.1 consts_98.2.1).mp (C137_momentum w (l ++ [x]) hl2)).1
  have hwf : Rounding.Finite (updates (start w) l).w := C137_finite_partial w hw l fun y hy => hl2 y (List.mem_append_left _ hy)
  rw [updates_snoc] at g1 g2 m1 ⊢
  have e : (update x.1 (updates (start w) l) x.2).w = (updates (start w) l).w + F32.negate (update x.1 (updates (start w) l) x.2).momentum := rfl
  rw [e]
  generalize (updates (start w) l).w = w1 at *
  generalize (update x.1 (updates (start w) l) x.2).momentum = m at *
  have hc : Rounding.Finite (F32.negate m) := (negate_finite _).mpr m1
  have hv := negate_val m
  have hz := add_zero_val w1 0 hwf (by decide) val_zero
  have hnum := (add_facts w1 _ hwf (finite_num _ hc)).1
  constructor
  · intro h
    have h1 := g1 h
    have := add_mono w1 (F32.negate m) 0 hwf (finite_num _ hc) num_zero (by rw [val_zero]; omega)
    rw [hz.2] at this
    exact (ge_iff _ _).mpr ⟨finite_num _ hwf, hnum, this⟩
  · intro h
    have h1 := g2 h
    have := add_mono w1 0 (F32.negate m) hwf num_zero (finite_num _ hc) (by rw [val_zero]; omega)
    rw [hz.2] at this
    exact (ge_iff _ _).mpr ⟨hnum, finite_num _ hwf, this⟩

theorem idle_add (r : F32) (a b : Nat) : idle r (a + b) = idle r a ++ idle r b := List.replicate_add ..

/-- One update without gradient. -/
theorem idle_step (r : F32) (hr : AtMost one r) (s : State) (hm : Rounding.Finite s.momentum) :
    Rounding.Finite (update r s 0).momentum ∧ val (update r s 0).momentum = val (factor * s.momentum) ∧
      (update r s 0).momentum.units = (factor * s.momentum).units := by
  have fr := ((atMost_iff one _ finite_one one_pos.le).mp hr).1
  have z : Rounding.Finite (r * 0) ∧ val (r * 0) = 0 :=
    ⟨(mul_units_le r 0 0 fr (by decide) (by decide) (by rw [show F32.units 0 = 0 by decide]; simp)).1, mul_zero_val r 0 fr (by decide) (Or.inr (by decide))⟩
  obtain ⟨s1, -⟩ := shrink s.momentum hm
  obtain ⟨a1, a2⟩ := add_zero_val (factor * s.momentum) (r * 0) s1 z.1 z.2
  refine ⟨a1, a2, ?_⟩
  have h1 := val_abs (factor * s.momentum)
  have h2 := val_abs (factor * s.momentum + r * 0)
  show (factor * s.momentum + r * 0).units = _
  rw [a2] at h2
  omega

/-- The momentum dies down. -/
theorem dies (r : F32) (hr : AtMost one r) (n : Nat) : ∀ s : State, Rounding.Finite s.momentum → s.momentum.units ≤ n →
    ∃ k, ∀ j, Rounding.Finite (updates s (idle r (k + j))).momentum ∧ (updates s (idle r (k + j))).momentum.units ≤ four.units := by
  have stays : ∀ (j : Nat) (s : State), Rounding.Finite s.momentum → s.momentum.units ≤ four.units →
      Rounding.Finite (updates s (idle r j)).momentum ∧ (updates s (idle r j)).momentum.units ≤ four.units := by
    intro j
    induction j with
    | zero => intro s h1 h2; exact ⟨h1, h2⟩
    | succ j ih =>
      intro s h1 h2
      obtain ⟨t1, -, t3⟩ := idle_step r hr s h1
      exact ih (update r s 0) t1 (by rw [t3]; exact (shrink s.momentum h1).2.2.2 h2)
  induction n with
  | zero =>
    intro s h1 h2
    refine ⟨0, fun j => ?_⟩
    rw [Nat.zero_add]
    exact stays j s h1 (by omega)
  | succ n ih =>
    intro s h1 h2
    by_cases h5 : s.momentum.units ≤ four.units
    · refine ⟨0, fun j => ?_⟩
      rw [Nat.zero_add]
      exact stays j s h1 h5
    · obtain ⟨t1, -, t3⟩ := idle_step r hr s h1
      have hlt := (shrink s.momentum h1).2.2.1 (by omega)
      obtain ⟨k, hk⟩ := ih (update r s 0) t1 (by omega)
      refine ⟨k + 1, fun j => ?_⟩
      rw [show k + 1 + j = 1 + (k + j) by omega, idle_add, updates_append]
      exact hk j

/-- Without gradients the momentum dies down, from any finite value, to at most four times the smallest positive float, and stays there; a weight that is then at
least 2^-121 in size does not move any more. -/
theorem C137_rest (r : F32) (hr : AtMost one r) (s : State) (hm : IsFinite s.momentum) :
    ∃ n, ∀ j, AtMost four (updates s (idle r (n + j))).momentum ∧
      (IsFinite (updates s (idle r n)).w → F32.ge (updates s (idle r n)).w.abs small = true →
        Equal (updates s (idle r (n + j))).w (updates s (idle r n)).w) := by
  obtain ⟨n, hn⟩ := dies r hr _ s hm le_rfl
  refine ⟨n, fun j => ⟨(atMost_iff four _ (by decide) (by decide +kernel)).mpr (hn j), fun hf hb => ?_⟩⟩
  have hbig : small.units ≤ (updates s (idle r n)).w.units := by
    obtain ⟨t1, t2, -⟩ := abs_facts (updates s (idle r n)).w
    have ha := val_units (updates s (idle r n)).w.abs
    rw [t1, t2] at ha
    simp only [Bool.false_eq_true, if_false] at ha
    have hb2 := ((ge_iff _ _).mp hb).2.2
    rw [ha, units_val small (by decide +kernel)] at hb2
    exact_mod_cast hb2
  have key : Rounding.Finite (updates s (idle r (n + j))).w ∧ val (updates s (idle r (n + j))).w = val (updates s (idle r n)).w := by
    induction j with
    | zero => exact ⟨hf, rfl⟩
    | succ j ih =>
      obtain ⟨m1, m2⟩ := hn (j + 1)
      have e : updates s (idle r (n + (j + 1))) = update r (updates s (idle r (n + j))) 0 := by
        rw [show n + (j + 1) = (n + j) + 1 by omega, idle_add, show idle r 1 = [(r, 0)] from rfl, updates_snoc]
      rw [e] at m1 m2 ⊢
      have hu : small.units ≤ (updates s (idle r (n + j))).w.units := by
        have h1 := val_abs (updates s (idle r (n + j))).w
        have h2 := val_abs (updates s (idle r n)).w
        rw [ih.2] at h1
        omega
      obtain ⟨a1, a2⟩ := add_tiny _ (F32.negate (update r (updates s (idle r (n + j))) 0).momentum) ih.1 ((negate_finite _).mpr m1)
        (by rw [negate_units]; exact m2) hu
      exact ⟨a1, by rw [← ih.2]; exact a2⟩
  exact ⟨(ge_iff _ _).mpr ⟨finite_num _ key.1, finite_num _ hf, key.2.ge⟩, (ge_iff _ _).mpr ⟨finite_num _ hf, finite_num _ key.1, key.2.le⟩⟩

theorem four_stays : factor * four = four ∧ Rounding.Finite four ∧ val four = 4 ∧ Rounding.Finite (F32.negate four) ∧ val (F32.negate four) = -4 ∧
    update one (start 0) four = ⟨F32.negate four, four⟩ := by decide +kernel

/-- "Without gradients the momentum reaches 0 and the weights come to rest" does not hold: a first gradient of 2^-147 with rate 1 gives a momentum that never
changes again, and a weight that starts at 0 moves on with each of the following updates, up to 2^22 - 2 of them, although there is no gradient. -/
theorem C137_drift_violated (r : F32) (hr : AtMost one r) (k : Nat) :
    (updates (start 0) ((one, four) :: idle r k)).momentum = four ∧
      (k + 2 < 2 ^ 22 → F32.lt (updates (start 0) ((one, four) :: idle r (k + 1))).w (updates (start 0) ((one, four) :: idle r k)).w = true) := by
  obtain ⟨f1, f2, f3, f4, f5, f6⟩ := four_stays
  have e : ∀ k, updates (start 0) ((one, four) :: idle r k) = updates ⟨F32.negate four, four⟩ (idle r k) := by
    intro k
    rw [updates_cons]
    show updates (update one (start 0) four) _ = _
    rw [f6]
  have step : ∀ k, updates ⟨F32.negate four, four⟩ (idle r (k + 1)) = update r (updates ⟨F32.negate four, four⟩ (idle r k)) 0 := by
    intro k
    rw [idle_add, show idle r 1 = [(r, 0)] from rfl, updates_snoc]
  have hmom : ∀ k, (updates ⟨F32.negate four, four⟩ (idle r k)).momentum = four := by
    intro k
    induction k with
    | zero => rfl
    | succ k ih =>
      rw [step]
      obtain ⟨t1, t2, -⟩ := idle_step r hr _ (by rw [ih]; exact f2)
      rw [ih, f1] at t2
      exact val_inj _ _ t2 (by rw [f3]; decide)
  have hw : ∀ k, k + 1 < 2 ^ 22 → Rounding.Finite (updates ⟨F32.negate four, four⟩ (idle r k)).w ∧ val (updates ⟨F32.negate four, four⟩ (idle r k)).w = -4 * (k + 1) := by
    intro k
    induction k with
    | zero => intro _; exact ⟨f4, by rw [show (updates ⟨F32.negate four, four⟩ (idle r 0)).w = F32.negate four from rfl, f5]; rfl⟩
    | succ k ih =>
      intro h
      obtain ⟨i1, i2⟩ := ih (by omega)
      have hm := hmom (k + 1)
      have e2 : (updates ⟨F32.negate four, four⟩ (idle r (k + 1))).w =
          (updates ⟨F32.negate four, four⟩ (idle r k)).w + F32.negate (updates ⟨F32.negate four, four⟩ (idle r (k + 1))).momentum := by rw [step]; rfl
      rw [e2, hm]
      obtain ⟨a1, a2⟩ := add_small_exact _ (F32.negate four) i1 f4 (by rw [i2, f5]; omega)
      refine ⟨a1, ?_⟩
      rw [a2, i2, f5]
      push_cast
      ring
  rw [e, e]
  refine ⟨hmom k, fun h => ?_⟩
  obtain ⟨a1, a2⟩ := hw k (by omega)
  obtain ⟨b1, b2⟩ := hw (k + 1) (by omega)
  exact (lt_iff _ _).mpr ⟨finite_num _ b1, finite_num _ a1, by rw [a2, b2]; push_cast; omega⟩

/-- An infinite or NaN gradient is never forgotten: the weight is not finite from then on, whatever happened before and happens afterwards. -/
theorem C137_infinite_violated (s : State) (l l' : List (F32 × F32)) (x : F32 × F32) (hx : ¬ IsFinite x.2) : ¬ IsFinite (updates s (l ++ x :: l')).w := by
  have keep : ∀ (l' : List (F32 × F32)) (s : State), ¬ Rounding.Finite s.w → ¬ Rounding.Finite (updates s l').w := by
    intro l'
    induction l' with
    | nil => intro s h; exact h
    | cons y l' ih => intro s h; exact ih _ (not_finite_add _ _ (Or.inl h))
  rw [updates_append, updates_cons]
  refine keep l' _ (not_finite_add _ _ (Or.inr ?_))
  intro h
  exact not_finite_add _ _ (Or.inr (not_finite_mul x.1 x.2 hx)) ((negate_finite _).mp h)

/-- The decayed learning rate lies between its bounds, whatever the average, the step and the C library are (NaN included). -/
theorem C137_rate (lib : Roots) (mAverage timeStep : F32) : Within smallest largest (decayed lib mAverage timeStep) := by
  unfold decayed
  simp only
  generalize mAverage * _ / (lib.sqrt _ + FloatAdam.epsilon) = d
  have h1 : Num smallest := by decide
  have h2 : Num largest := by decide
  have h3 : val smallest ≤ val largest := by decide +kernel
  rw [within_iff _ _ _ h1 h2]
  unfold least greatest
  by_cases a : F32.lt smallest d = true
  · rw [if_pos a]
    obtain ⟨-, d1, d2⟩ := (lt_iff _ _).mp a
    by_cases b : F32.lt d largest = true
    · rw [if_pos b]
      have := ((lt_iff _ _).mp b).2.2
      exact ⟨d1, by omega, by omega⟩
    · rw [if_neg b]
      exact ⟨h2, h3, le_refl _⟩
  · rw [if_neg a]
    by_cases b : F32.lt smallest largest = true
    · rw [if_pos b]
      exact ⟨h1, le_refl _, h3⟩
    · exact absurd (show F32.lt smallest largest = true by decide) b

/-- "The learning rate depends on the size of the momentum" does not hold: it is the lower bound, 1e-5, whenever the average momentum is not positive, however
large it is. The same holds for `adam`. (Assumed of the C library: no root is negative.) -/
theorem C137_rate_sign_violated (lib : Roots) (hs : ∀ x, Number (lib.sqrt x) → F32.ge (lib.sqrt x) 0 = true) (mAverage vAverage timeStep : F32)
    (hm : F32.lt 0 mAverage = false) : decayed lib mAverage timeStep = smallest ∧ FloatAdam.decayed lib mAverage vAverage timeStep = smallest := by
  constructor
  · unfold decayed
    simp only
    obtain ⟨c1, c2⟩ := clamp_facts (one / (one - lib.pow beta1 timeStep))
    exact not_positive mAverage _ _ hm c1 c2 (hs _)
  · unfold FloatAdam.decayed
    simp only
    obtain ⟨c1, c2⟩ := clamp_facts (one / (one - lib.pow beta1 timeStep))
    exact not_positive mAverage _ _ hm c1 c2 (hs _)

/-! ### Examples -/

/-- Gradients of both signs and a large one: momentum and weight are finite, and the weight moves. -/
example : AtMost two98 (updates (start one) [(milli, three), (milli, minusFive), (one, two94)]).momentum ∧
    IsFinite (updates (start one) [(milli, three), (milli, minusFive), (one, two94)]).w :=
  ⟨C137_momentum one _ (by decide +kernel), C137_finite_partial one (by decide) _ (by decide +kernel)⟩

example : F32.ge (updates (start one) [(milli, three)]).w (updates (start one) [(milli, three), (milli, three)]).w = true ∧
    F32.lt (updates (start one) [(milli, three), (milli, three)]).w (updates (start one) [(milli, three)]).w = true :=
  ⟨(C137_direction one (by decide) [(milli, three)] (milli, three) (by decide +kernel)).1 (by decide +kernel), by decide +kernel⟩

/-- The momentum of a large gradient dies down, and the weight goes to rest. -/
example : ∃ n, ∀ j, AtMost four (updates (updates (start one) [(one, two94)]) (idle milli (n + j))).momentum := by
  obtain ⟨n, h⟩ := C137_rest milli (by decide +kernel) (updates (start one) [(one, two94)]) (by decide +kernel)
  exact ⟨n, fun j => (h j).1⟩

/-- A momentum of `6 * 2^-149` goes down to `4 * 2^-149` and no further; the weight 1 is at rest meanwhile. -/
example : (updates ⟨one, ⟨6#32⟩⟩ (idle milli 1)).momentum = ⟨5#32⟩ ∧ updates ⟨one, ⟨6#32⟩⟩ (idle milli 40) = ⟨one, four⟩ := by decide +kernel

/-- The drift: after ten updates without gradient. -/
example : (updates (start 0) ((one, four) :: idle one 10)).w = F32.negate ⟨44#32⟩ := by decide +kernel

/-- An infinite gradient. -/
example : ¬ IsFinite (updates (start one) ([(milli, three)] ++ (milli, inf) :: [(milli, three)])).w := C137_infinite_violated _ _ _ _ (by decide)

/-- A library whose roots are rounded towards 0. -/
noncomputable def roots : Roots := withRoot fun x => truncated (Real.sqrt (real x))

/-- A large negative average: the smallest learning rate. A positive one gives more (here with a library that can be computed with). -/
example : decayed roots minusFive three = smallest :=
  (C137_rate_sign_violated roots (fun _ h => (ge_iff _ _).mpr ⟨h, num_zero, by rw [val_zero]; exact truncated_nonneg _⟩) minusFive 0 three (by decide)).1

example : decayed (withRoot F32.abs) minusFive three = smallest ∧ decayed (withRoot F32.abs) three three ≠ smallest ∧ Within smallest largest (decayed roots three three) :=
  ⟨by decide +kernel, by decide +kernel, C137_rate roots three three⟩

end Verif.FloatMomentum
