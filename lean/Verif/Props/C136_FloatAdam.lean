import Verif.Lemmas.FloatAdam
import Verif.Lemmas.FloatLibm

/-!
C136: the `adam` optimizer on 32-bit floats. With gradients of at most 2^62 the moments stay finite, the weight stays finite for up to 2^22 updates, and the
weight moves against gradients of one sign. A gradient of 2^64 or more freezes the weight for ever, an infinite one makes it NaN for ever. The decayed
learning rate always lies between its bounds.
-/
namespace Verif.FloatAdam
open Verif FloatBits Rounding FloatOrder FloatActivation FloatLoss

theorem updates_snoc (lib : Roots) (w : F32) (s : Moments) (l : List (F32 × F32)) (x : F32 × F32) :
    updates lib w s (l ++ [x]) = update lib x.1 (updates lib w s l).1 (updates lib w s l).2 x.2 := by
  unfold updates
  rw [List.foldl_append]
  rfl

theorem updates_append (lib : Roots) (w : F32) (s : Moments) (l l' : List (F32 × F32)) :
    updates lib w s (l ++ l') = updates lib (updates lib w s l).1 (updates lib w s l).2 l' := by
  unfold updates
  rw [List.foldl_append]

theorem updates_cons (lib : Roots) (w : F32) (s : Moments) (l : List (F32 × F32)) (x : F32 × F32) :
    updates lib w s (x :: l) = updates lib (update lib x.1 w s x.2).1 (update lib x.1 w s x.2).2 l := rfl

theorem number_of (l x : F32) (hl : Rounding.Finite l) (h0 : 0 ≤ val l) (h : AtMost l x) : Number x := finite_num _ ((atMost_iff l x hl h0).mp h).1

theorem fresh_62 : AtMost two62 Moments.fresh.m ∧ Within 0 two124 Moments.fresh.v := by decide +kernel

theorem fresh_120 : AtMost two120 Moments.fresh.m ∧ Within 0 inf Moments.fresh.v := by decide +kernel

theorem fresh_val : val Moments.fresh.m = 0 := by decide +kernel

/-- Squares of gradients up to 2^62. -/
theorem square_le (lib : Roots) (hs : Sound lib) (g : F32) (hg : AtMost two62 g) : AtMost two124 (lib.pow g two) := by
  have hn := number_of _ _ (by decide) (by decide +kernel) hg
  obtain ⟨p1, p2, -⟩ := (within_iff _ _ _ num_zero num_inf).mp (hs.square_range g hn)
  rw [val_zero] at p2
  have := hs.square_order g two62 (by rw [show F32.abs two62 = two62 by decide]; exact hg)
  rw [hs.square_62] at this
  have hle := ((ge_iff _ _).mp this).2.2
  have u1 := units_val _ p2
  have u2 := units_val two124 (by decide +kernel)
  have hu : (lib.pow g two).units ≤ two124.units := by omega
  exact (atMost_iff _ _ (by decide) (by decide +kernel)).mpr ⟨finite_of_le _ two124 p1 (by decide) hu, hu⟩

/-- The moments after any number of updates with gradients of at most 2^62: the first is at most 2^62, the second between 0 and 2^124. -/
theorem C136_moments (lib : Roots) (hs : Sound lib) (w : F32) (l : List (F32 × F32)) (hl : ∀ x ∈ l, AtMost two62 x.2) :
    AtMost two62 (updates lib w .fresh l).2.m ∧ Within 0 two124 (updates lib w .fresh l).2.v := by
  induction l using List.reverseRecOn with
  | nil => exact fresh_62
  | append_singleton l x ih =>
    obtain ⟨i1, i2⟩ := ih fun y hy => hl y (List.mem_append_left _ hy)
    have hx := hl x (by simp)
    rw [updates_snoc]
    have hn := number_of _ _ (by decide) (by decide +kernel) hx
    obtain ⟨v1, v2, v3⟩ := (within_iff _ _ _ num_zero (by decide)).mp i2
    rw [val_zero] at v2
    have hv : AtMost two124 (updates lib w .fresh l).2.v := by
      have u1 := units_val _ v2
      have u2 := units_val two124 (by decide +kernel)
      have hu : (updates lib w .fresh l).2.v.units ≤ two124.units := by omega
      exact (atMost_iff _ _ (by decide) (by decide +kernel)).mpr ⟨finite_of_le _ two124 v1 (by decide) hu, hu⟩
    have hvi : Within 0 inf (updates lib w .fresh l).2.v :=
      (within_iff _ _ _ num_zero num_inf).mpr ⟨v1, by rw [val_zero]; exact v2, by rw [inf_facts.1]; exact val_le _ v1⟩
    have s1 := (second_facts lib hs (updates lib w .fresh l).2 x.2 hn hvi).1
    have s2 := second_le _ _ hv (square_le lib hs x.2 hx)
    refine ⟨first_le _ _ two62 (Or.inl rfl) i1 hx, ?_⟩
    obtain ⟨t1, t2, -⟩ := (within_iff _ _ _ num_zero num_inf).mp s1
    have t3 := ((atMost_iff _ _ (by decide) (by decide +kernel)).mp s2).2
    refine (within_iff _ _ _ num_zero (by decide)).mpr ⟨t1, t2, ?_⟩
    rw [val_zero] at t2
    have u1 := units_val _ t2
    have u2 := units_val two124 (by decide +kernel)
    have e : ((updates lib w .fresh l).2.next lib x.2).v = beta2 * (updates lib w .fresh l).2.v + (one - beta2) * lib.pow x.2 two := rfl
    rw [← e] at t3
    show val ((updates lib w .fresh l).2.next lib x.2).v ≤ val two124
    omega

/-- The moments that the next change is made from. -/
theorem next_moments (lib : Roots) (hs : Sound lib) (w : F32) (l : List (F32 × F32)) (x : F32 × F32) (hl : ∀ y ∈ l ++ [x], AtMost two62 y.2) :
    AtMost two62 ((updates lib w .fresh l).2.next lib x.2).m ∧ Within 0 inf ((updates lib w .fresh l).2.next lib x.2).v := by
  have h := C136_moments lib hs w (l ++ [x]) hl
  rw [updates_snoc] at h
  refine ⟨h.1, ?_⟩
  obtain ⟨v1, v2, -⟩ := (within_iff _ _ _ num_zero (by decide)).mp h.2
  exact (within_iff _ _ _ num_zero num_inf).mpr ⟨v1, v2, by rw [inf_facts.1]; exact val_le _ v1⟩

/-- Weights stay finite, however many updates there are: learning rates of at most 1 and gradients of at most 2^62. (A change is then at most 2^89, which is
lost by rounding before the weight could leave the range of finite floats.) -/
theorem C136_finite_partial (lib : Roots) (hs : Sound lib) (w : F32) (hw : IsFinite w) (l : List (F32 × F32))
    (hl : ∀ x ∈ l, AtMost one x.1 ∧ AtMost two62 x.2) : IsFinite (updates lib w .fresh l).1 := by
  induction l using List.reverseRecOn with
  | nil => exact hw
  | append_singleton l x ih =>
    have i1 := ih (fun y hy => hl y (List.mem_append_left _ hy))
    obtain ⟨m1, m2⟩ := next_moments lib hs w l x (fun y hy => (hl y hy).2)
    obtain ⟨c1, c2⟩ := change_le lib hs x.1 _ (hl x (by simp)).1 m1 m2
    rw [updates_snoc]
    exact add_small_finite _ _ i1 c1 c2

/-- Weights move against the gradient: if all gradients so far had one sign, the next update does not move the weight in that direction. -/
theorem C136_direction (lib : Roots) (hs : Sound lib) (w : F32) (l : List (F32 × F32)) (x : F32 × F32)
    (hl : ∀ y ∈ l ++ [x], AtMost two62 y.2) (hr : AtMost one x.1 ∧ F32.ge x.1 0 = true) (hf : IsFinite (updates lib w .fresh l).1) :
    ((∀ y ∈ l ++ [x], F32.ge y.2 0 = true) → F32.ge (updates lib w .fresh l).1 (updates lib w .fresh (l ++ [x])).1 = true) ∧
      ((∀ y ∈ l ++ [x], F32.ge 0 y.2 = true) → F32.ge (updates lib w .fresh (l ++ [x])).1 (updates lib w .fresh l).1 = true) := by
  have sign : ∀ l : List (F32 × F32), (∀ y ∈ l, AtMost two62 y.2) →
      ((∀ y ∈ l, F32.ge y.2 0 = true) → 0 ≤ val (updates lib w .fresh l).2.m) ∧ ((∀ y ∈ l, F32.ge 0 y.2 = true) → val (updates lib w .fresh l).2.m ≤ 0) := by
    intro l
    induction l using List.reverseRecOn with
    | nil => intro _; exact ⟨fun _ => fresh_val.ge, fun _ => fresh_val.le⟩
    | append_singleton l x ih =>
      intro hl
      have hl' : ∀ y ∈ l, AtMost two62 y.2 := fun y hy => hl y (List.mem_append_left _ hy)
      obtain ⟨i1, i2⟩ := ih hl'
      have fm := ((atMost_iff _ _ (by decide) (by decide +kernel)).mp (C136_moments lib hs w l hl').1)
      have fg := ((atMost_iff _ _ (by decide) (by decide +kernel)).mp (hl x (by simp)))
      rw [updates_snoc]
      show (_ → 0 ≤ val (beta1 * _ + (one - beta1) * x.2)) ∧ (_ → val (beta1 * _ + (one - beta1) * x.2) ≤ 0)
      obtain ⟨c1, -, c3, -, -, c6, -, c8, -, -⟩ := consts
      generalize (updates lib w .fresh l).2.m = m at *
      obtain ⟨a1, a2, -, -⟩ := mul_sign beta1 m c1 fm.1
      obtain ⟨b1, b2, -, -⟩ := mul_sign (one - beta1) x.2 c3 fg.1
      have fa : Rounding.Finite (beta1 * m) := (mul_units_le beta1 m two62 c1 fm.1 (by decide) (by
        rw [Nat.mul_comm]
        exact Nat.mul_le_mul fm.2 (by decide +kernel))).1
      have fb : Num ((one - beta1) * x.2) := by rw [mul_facts _ _ c3 fg.1]; exact rounded_num _ _ _
      obtain ⟨d1, d2⟩ := add_sign (beta1 * m) ((one - beta1) * x.2) fa fb
      constructor
      · intro h
        have hx := ((ge_iff _ _).mp (h x (by simp))).2.2
        rw [val_zero] at hx
        exact d1 (a1 c6.le (i1 fun y hy => h y (List.mem_append_left _ hy))) (b1 c8.le hx)
      · intro h
        have hx := ((ge_iff _ _).mp (h x (by simp))).2.2
        rw [val_zero] at hx
        exact d2 (a2 c6.le (i2 fun y hy => h y (List.mem_append_left _ hy))) (b2 c8.le hx)
  obtain ⟨m1, m2⟩ := next_moments lib hs w l x hl
  have hr0 := ((ge_iff _ _).mp hr.2).2.2
  rw [val_zero] at hr0
  obtain ⟨s1, s2⟩ := change_sign lib hs x.1 _ hr.1 hr0 m1 m2
  obtain ⟨c1, -⟩ := change_le lib hs x.1 _ hr.1 m1 m2
  obtain ⟨g1, g2⟩ := sign (l ++ [x]) hl
  rw [updates_snoc] at g1 g2 ⊢
  have e : ∀ c : F32, (update lib x.1 (updates lib w .fresh l).1 (updates lib w .fresh l).2 x.2).1 =
    (updates lib w .fresh l).1 + ((updates lib w .fresh l).2.next lib x.2).change lib x.1 := fun _ => rfl
  have e2 : (update lib x.1 (updates lib w .fresh l).1 (updates lib w .fresh l).2 x.2).2.m = ((updates lib w .fresh l).2.next lib x.2).m := rfl
  rw [e 0]
  rw [e2] at g1 g2
  have hwf : Rounding.Finite (updates lib w .fresh l).1 := hf
  generalize (updates lib w .fresh l).1 = w1 at *
  generalize ((updates lib w .fresh l).2.next lib x.2).change lib x.1 = c at *
  have hz := add_zero_val w1 0 hwf (by decide) val_zero
  have hnum := (add_facts w1 c hwf (finite_num _ c1)).1
  constructor
  · intro h
    have := add_mono w1 c 0 hwf (finite_num _ c1) num_zero (by rw [val_zero]; exact s1 (g1 h))
    rw [hz.2] at this
    exact (ge_iff _ _).mpr ⟨finite_num _ hwf, hnum, this⟩
  · intro h
    have := add_mono w1 0 c hwf num_zero (finite_num _ c1) (by rw [val_zero]; exact s2 (g2 h))
    rw [hz.2] at this
    exact (ge_iff _ _).mpr ⟨hnum, finite_num _ hwf, this⟩

/-- First moments with gradients up to 2^120, and second moments that are not negative. -/
theorem large_moments (lib : Roots) (hs : Sound lib) (w : F32) (l : List (F32 × F32)) (hl : ∀ x ∈ l, AtMost two120 x.2) :
    AtMost two120 (updates lib w .fresh l).2.m ∧ Within 0 inf (updates lib w .fresh l).2.v := by
  induction l using List.reverseRecOn with
  | nil => exact fresh_120
  | append_singleton l x ih =>
    obtain ⟨i1, i2⟩ := ih fun y hy => hl y (List.mem_append_left _ hy)
    have hx := hl x (by simp)
    rw [updates_snoc]
    exact ⟨first_le _ _ two120 (Or.inr rfl) i1 hx, (second_facts lib hs _ x.2 (number_of _ _ (by decide) (by decide +kernel) hx) i2).1⟩

/-- From an infinite second moment on, the weight does not move. -/
theorem frozen (lib : Roots) (hs : Sound lib) (l : List (F32 × F32)) : ∀ (w : F32) (s : Moments), Rounding.Finite w → AtMost two120 s.m → s.v = inf →
    (∀ x ∈ l, AtMost one x.1 ∧ AtMost two120 x.2) → Rounding.Finite (updates lib w s l).1 ∧ val (updates lib w s l).1 = val w := by
  induction l with
  | nil => intro w s hw _ _ _; exact ⟨hw, rfl⟩
  | cons x l ih =>
    intro w s hw hm hv hl
    obtain ⟨r1, g1⟩ := hl x List.mem_cons_self
    have m' : AtMost two120 (s.next lib x.2).m := first_le _ _ two120 (Or.inr rfl) hm g1
    have v' : (s.next lib x.2).v = inf :=
      (second_facts lib hs s x.2 (number_of _ _ (by decide) (by decide +kernel) g1) (by rw [hv]; decide +kernel)).2.1 hv
    obtain ⟨c1, c2⟩ := change_zero lib hs x.1 (s.next lib x.2) r1 m' v'
    obtain ⟨a1, a2⟩ := add_zero_val w _ hw c1 c2
    rw [updates_cons]
    obtain ⟨i1, i2⟩ := ih (w + (s.next lib x.2).change lib x.1) (s.next lib x.2) a1 m' v' (fun y hy => hl y (List.mem_cons_of_mem _ hy))
    exact ⟨i1, by rw [← a2]; exact i2⟩

/-- "Adam goes on learning after a large gradient" does not hold: a single gradient of 2^64 or more (up to 2^120) fixes the weight for ever. Neither that update
nor any later one changes it, whatever the later gradients (up to 2^120) and learning rates (up to 1) are. -/
theorem C136_frozen_violated (lib : Roots) (hs : Sound lib) (w : F32) (l l' : List (F32 × F32)) (x : F32 × F32)
    (hl : ∀ y ∈ l ++ x :: l', AtMost one y.1 ∧ AtMost two120 y.2) (hx : F32.ge x.2.abs two64 = true) (hf : IsFinite (updates lib w .fresh l).1) :
    Equal (updates lib w .fresh (l ++ x :: l')).1 (updates lib w .fresh l).1 := by
  obtain ⟨m1, v1⟩ := large_moments lib hs w l (fun y hy => (hl y (List.mem_append_left _ hy)).2)
  obtain ⟨r1, g1⟩ := hl x (by simp)
  rw [updates_append, updates_cons]
  generalize (updates lib w .fresh l).2 = s at *
  generalize (updates lib w .fresh l).1 = w1 at *
  have hn := number_of _ _ (by decide) (by decide +kernel) g1
  have hp : lib.pow x.2 two = inf := by
    have h1 := hs.square_order two64 x.2 (by rw [show F32.abs two64 = two64 by decide]; exact hx)
    rw [hs.square_64] at h1
    have h2 := (hs.square_range x.2 hn).2
    have a := ((ge_iff _ _).mp h1).2.2
    have b := ((ge_iff _ _).mp h2).2.2
    exact val_inj _ _ (by omega) inf_facts.2
  have m' : AtMost two120 (s.next lib x.2).m := first_le _ _ two120 (Or.inr rfl) m1 g1
  have v' : (s.next lib x.2).v = inf := (second_facts lib hs s x.2 hn v1).2.2 hp
  obtain ⟨c1, c2⟩ := change_zero lib hs x.1 (s.next lib x.2) r1 m' v'
  obtain ⟨a1, a2⟩ := add_zero_val w1 _ hf c1 c2
  obtain ⟨i1, i2⟩ := frozen lib hs l' (w1 + (s.next lib x.2).change lib x.1) (s.next lib x.2) a1 m' v' (fun y hy => hl y (by simp [hy]))
  have n1 := finite_num _ i1
  have n2 : Num w1 := finite_num _ hf
  rw [a2] at i2
  have e : (update lib x.1 w1 s x.2) = (w1 + (s.next lib x.2).change lib x.1, s.next lib x.2) := rfl
  rw [e]
  exact ⟨(ge_iff _ _).mpr ⟨n1, n2, i2.ge⟩, (ge_iff _ _).mpr ⟨n2, n1, i2.le⟩⟩

theorem nan_forever (lib : Roots) (l : List (F32 × F32)) : ∀ (w : F32) (s : Moments), ¬ Num w → ¬ Num (updates lib w s l).1 := by
  induction l with
  | nil => intro w s h; exact h
  | cons x l ih =>
    intro w s h
    rw [updates_cons]
    exact ih _ _ (nan_add _ _ (Or.inl h))

/-- A product with an infinite factor is infinite or NaN. -/
theorem mul_inf_cases (a b : F32) (h : isInf b.bits = true) : ¬ Num (a * b) ∨ isInf (a * b).bits = true := by
  show ¬ Num (F32.mul a b) ∨ isInf (F32.mul a b).bits = true
  unfold F32.mul
  split
  · exact Or.inl (by decide)
  · rw [h]
    simp only [Bool.or_true, if_true]
    split
    · exact Or.inl (by decide)
    · right
      generalize (neg a.bits != neg b.bits) = q
      cases q <;> decide

theorem inf_mul_zero (a : F32) (h : isInf a.bits = true) : ¬ Num (a * 0) := by
  show ¬ Num (F32.mul a 0)
  unfold F32.mul
  split
  · decide
  · rw [h]
    simp only [Bool.true_or, if_true]
    rw [if_pos (Or.inr (by decide))]
    decide

/-- One infinite or NaN gradient makes the weight NaN, for ever. -/
theorem C136_nan_violated (lib : Roots) (hs : Sound lib) (w : F32) (l l' : List (F32 × F32)) (x : F32 × F32)
    (hl : ∀ y ∈ l, AtMost two120 y.2) (hx : ¬ IsFinite x.2) : ¬ Number (updates lib w .fresh (l ++ x :: l')).1 := by
  obtain ⟨m1, v1⟩ := large_moments lib hs w l hl
  rw [updates_append, updates_cons]
  generalize (updates lib w .fresh l).2 = s at *
  generalize (updates lib w .fresh l).1 = w1 at *
  refine nan_forever lib l' _ _ (nan_add _ _ (Or.inr ?_))
  show ¬ Num ((F32.negate x.1 * (s.next lib x.2).m) * _)
  by_cases hn : Num x.2
  · rcases num_cases x.2 hn with ⟨hf, -⟩ | ⟨hi, hu⟩
    · exact absurd hf hx
    · have hf2 := (atMost_iff _ _ (by decide) (by decide +kernel)).mp m1
      have hv : (s.next lib x.2).v = inf := by
        refine (second_facts lib hs s x.2 hn v1).2.2 ?_
        have h1 := hs.square_order two64 x.2 (by
          refine (ge_iff _ _).mpr ⟨(abs_facts _).2.2.1.mpr hn, by decide, ?_⟩
          obtain ⟨t1, t2, -⟩ := abs_facts x.2
          have ha := val_units x.2.abs
          rw [t1, t2] at ha
          simp only [Bool.false_eq_true, if_false] at ha
          rw [ha, hu]
          decide +kernel)
        rw [hs.square_64] at h1
        have h2 := (hs.square_range x.2 hn).2
        have a := ((ge_iff _ _).mp h1).2.2
        have b := ((ge_iff _ _).mp h2).2.2
        exact val_inj _ _ (by omega) inf_facts.2
      have hz := (factor_facts lib hs _ (second_facts lib hs s x.2 hn v1).1).2.2.2 hv
      rw [hz]
      have hm : isInf (s.next lib x.2).m.bits = true := by
        show isInf (beta1 * s.m + (one - beta1) * x.2).bits = true
        obtain ⟨c1, -, c3, -, -, -, -, c8, -, -⟩ := consts
        have fa : Rounding.Finite (beta1 * s.m) := (mul_units_le beta1 s.m two120 c1 hf2.1 (by decide) (by
          rw [Nat.mul_comm]
          exact Nat.mul_le_mul hf2.2 (by decide +kernel))).1
        obtain ⟨q1, -, -, q4⟩ := mul_pos_facts (one - beta1) x.2 c3 (by decide) (by decide +kernel) hn
        have q5 := q4 hi
        have q6 : isInf ((one - beta1) * x.2).bits = true := by
          rcases num_cases _ q1 with ⟨hf3, -⟩ | ⟨h, -⟩
          · exact absurd (finite_lt _ hf3) (by rw [q5]; exact lt_irrefl _)
          · exact h
        rw [(add_facts _ _ fa q1).2.1 q6]
        exact q6
      rcases mul_inf_cases (F32.negate x.1) _ hm with h | h
      · exact nan_mul _ _ (Or.inl h)
      · exact inf_mul_zero _ h
  · exact nan_mul _ _ (Or.inl (nan_mul _ _ (Or.inr (nan_add _ _ (Or.inr (nan_mul _ _ (Or.inr hn)))))))

/-- The decayed learning rate lies between its bounds, whatever the averages, the step and the C library are (NaN included). -/
theorem C136_rate (lib : Roots) (mAverage vAverage timeStep : F32) : Within smallest largest (decayed lib mAverage vAverage timeStep) := by
  unfold decayed
  simp only
  generalize mAverage * _ / (lib.sqrt _ + epsilon) = d
  have h1 : Num smallest := by decide
  have h2 : Num largest := by decide
  have h3 : val smallest ≤ val largest := by decide +kernel
  rw [within_iff _ _ _ h1 h2]
  unfold least greatest
  by_cases a : F32.lt smallest d = true
  · rw [if_pos a]
    obtain ⟨-, d1, d2⟩ := (lt_iff _ _).mp a
    by_cases b : F32.lt d largest = true
    · rw [if_pos b]
      have := ((lt_iff _ _).mp b).2.2
      exact ⟨d1, by omega, by omega⟩
    · rw [if_neg b]
      exact ⟨h2, h3, le_refl _⟩
  · rw [if_neg a]
    by_cases b : F32.lt smallest largest = true
    · rw [if_pos b]
      exact ⟨h1, le_refl _, h3⟩
    · exact absurd (show F32.lt smallest largest = true by decide) b

/-! ### Examples -/

/-- Squares by multiplication, and any root. -/
def withRoot (sqrt : F32 → F32) : Roots := ⟨fun x _ => x * x, sqrt⟩

theorem withRoot_sound (sqrt : F32 → F32) (h1 : ∀ x, Within 0 inf x → Within 0 inf (sqrt x)) (h2 : sqrt inf = inf) : Sound (withRoot sqrt) where
  sqrt_range := h1
  sqrt_inf := h2
  square_range := by
    intro x hx
    show Within 0 inf (x * x)
    have : Num (x * x) ∧ 0 ≤ val (x * x) := by
      rcases num_cases x hx with ⟨hf, -⟩ | ⟨hi, -⟩
      · rw [mul_facts x x hf hf, val_units, rounded_neg]
        exact ⟨rounded_num _ _ _, by simp⟩
      · rw [inf_square x hx hi]
        exact ⟨num_inf, inf_facts.2.le⟩
    exact (within_iff _ _ _ num_zero num_inf).mpr ⟨this.1, by rw [val_zero]; exact this.2, by rw [inf_facts.1]; exact val_le _ this.1⟩
  square_order := by
    intro x y h
    show F32.ge (y * y) (x * x) = true
    obtain ⟨g1, g2, g3⟩ := (ge_iff _ _).mp h
    have ny := (abs_facts y).2.2.1.mp g1
    have nx := (abs_facts x).2.2.1.mp g2
    have hu : x.units ≤ y.units := by
      rw [val_units, val_units, (abs_facts x).1, (abs_facts y).1, (abs_facts x).2.1, (abs_facts y).2.1] at g3
      simp only [Bool.false_eq_true, if_false] at g3
      exact_mod_cast g3
    have sq : ∀ z : F32, Rounding.Finite z → z * z = F32.rounded false (z.units * z.units) (2 ^ 149) := by
      intro z hz
      rw [mul_facts z z hz hz]
      simp
    have hn : ∀ z : F32, Num z → Num (z * z) := by
      intro z hz
      rcases num_cases z hz with ⟨hf, -⟩ | ⟨hi, -⟩
      · rw [sq z hf]; exact rounded_num _ _ _
      · rw [inf_square z hz hi]; exact num_inf
    refine (ge_iff _ _).mpr ⟨hn y ny, hn x nx, ?_⟩
    rcases num_cases y ny with ⟨fy, -⟩ | ⟨iy, -⟩
    · have fx : Rounding.Finite x := finite_of_le x y nx fy hu
      rw [sq x fx, sq y fy, val_units, val_units, rounded_neg, rounded_neg]
      simp only [Bool.false_eq_true, if_false]
      have := rounded_mono false false (x.units * x.units) (2 ^ 149) (y.units * y.units) (2 ^ 149) (by positivity) (by positivity)
        (Nat.mul_le_mul_right _ (Nat.mul_le_mul hu hu))
      exact_mod_cast this
    · rw [inf_square y ny iy, inf_facts.1]
      exact val_le _ (hn x nx)
  square_62 := by show two62 * two62 = two124; decide +kernel
  square_64 := by show two64 * two64 = inf; decide +kernel

/-- A library whose roots are rounded towards 0. -/
noncomputable def exactRoots : Roots := withRoot fun x => if isInf x.bits then x else truncated (Real.sqrt (real x))

theorem exactRoots_sound : Sound exactRoots := by
  refine withRoot_sound _ ?_ (by rw [if_pos (by decide)])
  intro x hx
  split
  · exact hx
  · have h := (truncated_facts (Real.sqrt (real x))).1
    exact (within_iff _ _ _ num_zero num_inf).mpr ⟨h, by rw [val_zero]; exact truncated_nonneg _, by rw [inf_facts.1]; exact val_le _ h⟩

/-- A library that can be computed with: the root is replaced by the number itself. -/
def plain : Roots := withRoot id

theorem plain_sound : Sound plain := withRoot_sound id (fun _ h => h) rfl

/-- 0.001, 3 and -5 -/
def milli : F32 := ⟨0x3A83126F#32⟩
def three : F32 := ⟨0x40400000#32⟩
def minusFive : F32 := ⟨0xC0A00000#32⟩

/-- Gradients of both signs: the moments and the weight are finite. -/
example : IsFinite (updates exactRoots one .fresh [(milli, three), (milli, minusFive), (one, two62)]).1 ∧
    AtMost two62 (updates exactRoots one .fresh [(milli, three), (milli, minusFive), (one, two62)]).2.m :=
  ⟨C136_finite_partial exactRoots exactRoots_sound one (by decide) _ (by decide +kernel), (C136_moments exactRoots exactRoots_sound one _ (by decide +kernel)).1⟩

/-- A positive gradient does not raise the weight; here it lowers it. -/
example : F32.ge (updates exactRoots one .fresh [(milli, three)]).1 (updates exactRoots one .fresh [(milli, three), (milli, three)]).1 = true :=
  (C136_direction exactRoots exactRoots_sound one [(milli, three)] (milli, three) (by decide +kernel) (by decide +kernel)
    (C136_finite_partial exactRoots exactRoots_sound one (by decide) _ (by decide +kernel))).1 (by decide +kernel)

example : F32.lt (updates plain one .fresh [(milli, three)]).1 one = true ∧
    F32.lt (updates plain one .fresh [(milli, three), (milli, three)]).1 (updates plain one .fresh [(milli, three)]).1 = true := by decide +kernel

/-- A gradient of 2^64 fixes the weight 1: 3 and -5 do not move it any more. -/
example : Equal (updates exactRoots one .fresh ([] ++ (milli, two64) :: [(milli, three), (milli, minusFive)])).1 one :=
  C136_frozen_violated exactRoots exactRoots_sound one [] _ (milli, two64) (by decide +kernel) (by decide) (by decide)

example : (updates plain one .fresh [(milli, two64), (milli, three)]).1 = one ∧ (updates plain one .fresh [(milli, two64), (milli, three)]).2.v = inf := by
  decide +kernel

/-- An infinite gradient: the weight is NaN from then on. -/
example : ¬ Number (updates exactRoots one .fresh ([(milli, three)] ++ (milli, inf) :: [(milli, three)])).1 :=
  C136_nan_violated exactRoots exactRoots_sound one _ _ _ (by decide +kernel) (by decide)

/-- The bounds of the learning rate are met: fresh averages give the smaller one, a NaN as well. -/
example : decayed plain 0 0 one = smallest ∧ decayed plain F32.nan 0 one = smallest ∧ decayed plain three 0 one = largest := by decide +kernel

end Verif.FloatAdam
