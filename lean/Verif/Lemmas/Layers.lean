import Verif.Spec.Network
import Verif.Lemmas.Calculus
import Verif.Props.C33_C41_Products
import Verif.Props.C90_ActivationLayer

namespace Verif.Layers
open Verif Views Calculus

/-- The sum over all positions as nested finite sums. -/
theorem total_finset (t : Tensor ℝ) (f : Nat × Nat × Nat → ℝ) :
    total t f = ∑ k ∈ Finset.range t.chans, ∑ r ∈ Finset.range t.rows, ∑ c ∈ Finset.range t.cols, f (r, c, k) := by
  have hl : ∀ (n : Nat) (g : Nat → ℝ), ((List.range n).map g).sum = ∑ i ∈ Finset.range n, g i := by
    intro n g
    induction n with
    | zero => simp
    | succ n ih => rw [List.range_succ, List.map_append, List.sum_append, ih, Finset.sum_range_succ]; simp
  have hfl : ∀ (l : List Nat) (g : Nat → List (Nat × Nat × Nat)), ((l.flatMap g).map f).sum = (l.map fun k => ((g k).map f).sum).sum := by
    intro l g
    induction l with
    | nil => rfl
    | cons x xs ih => simp [List.flatMap_cons, ih]
  unfold total places
  rw [hfl, hl]
  refine Finset.sum_congr rfl fun k _ => ?_
  rw [hfl, hl]
  refine Finset.sum_congr rfl fun r _ => ?_
  rw [List.map_map, hl]; rfl

theorem inner_finset (a b : Tensor ℝ) :
    Calculus.inner a b = ∑ k ∈ Finset.range a.chans, ∑ r ∈ Finset.range a.rows, ∑ c ∈ Finset.range a.cols, a.get r c k * b.get r c k :=
  total_finset a _

theorem matmul_some {a b : Tensor ℝ} (h1 : a.cols = b.rows) (h2 : a.chans = b.chans) :
    matmul a b = some ⟨a.rows, b.cols, a.chans, fun r c k => ∑ i ∈ Finset.range a.cols, a.get r i k * b.get i c k⟩ := by
  unfold matmul
  simp [h1, h2, sumLoop_eq_sum]

theorem matmul_inv {a b y : Tensor ℝ} (h : matmul a b = some y) : a.cols = b.rows ∧ a.chans = b.chans := by
  by_contra hc
  rw [(C33_matmul a b).1.mpr hc] at h
  cases h

/-- The elements of a sum of two tensors of the same shape. -/
theorem add_some {a b : Tensor ℝ} (h : Shape a b) :
    add a b = some ⟨a.rows, a.cols, a.chans, fun r c k => a.get r c k + b.get r c k⟩ := by
  unfold add; exact Loss.zip_of_shape h

theorem add_inv {a b y : Tensor ℝ} (h : add a b = some y) : Shape a b := by
  unfold add Views.zip at h
  split at h
  · cases h
  · rename_i hn
    push Not at hn
    exact ⟨hn.2.1, hn.2.2, hn.1⟩

/-- A sum of half squares added to a function adds the tensor to its gradient. -/
theorem penalised {M : Tensor ℝ → Option ℝ} {p g : Tensor ℝ} (h : IsGradient M p g) (s : ℝ) :
    ∃ g', add g (map (fun v => v * s) p) = some g' ∧
      IsGradient (fun p' => (M p').map fun l => l + s / 2 * total p' fun i => el p' i ^ 2) p g' := by
  obtain ⟨hs, h⟩ := h
  refine ⟨_, add_some (b := map (fun v => v * s) p) hs, hs, fun q v hq h0 hd => ?_⟩
  obtain ⟨f, hf, hfd⟩ := h q v hq h0 hd
  refine ⟨fun t => f t + s / 2 * total p fun i => el (q t) i ^ 2, fun t => ?_, ?_⟩
  · show (M (q t)).map _ = _
    rw [hf t, Option.map_some, total_congr_shape (hq t)]
  · have h1 : HasDerivAt (fun t => total p fun i => el (q t) i ^ 2) (total p fun i => 2 * el (q 0) i * el v i) 0 := by
      refine total_deriv p (fun i t => el (q t) i ^ 2) _ 0 fun i hi => ?_
      have := (hd i hi).pow 2
      refine this.congr_deriv ?_
      norm_num
    refine (hfd.add (h1.const_mul (s / 2))).congr_deriv ?_
    have e2 : total p (fun i => 2 * el (q 0) i * el v i) = total p (fun i => 2 * (el p i * el v i)) :=
      total_congr fun i hi => by rw [h0 i hi]; ring
    rw [e2, total_mul]
    unfold Calculus.inner
    show total g (fun i => el g i * el v i) + s / 2 * (2 * total p fun i => el p i * el v i) = total g fun i => (el g i + el p i * s) * el v i
    rw [total_congr_shape hs, total_congr_shape hs]
    have e3 : total p (fun i => (el g i + el p i * s) * el v i) = total p (fun i => el g i * el v i + s * (el p i * el v i)) :=
      total_congr fun i _ => by ring
    rw [e3, total_add, total_mul]
    ring

theorem sum_flat (m n : Nat) (f : Nat → ℝ) : ∑ i ∈ Finset.range (m * n), f i = ∑ r ∈ Finset.range m, ∑ c ∈ Finset.range n, f (r * n + c) := by
  induction m with
  | zero => simp
  | succ m ih => rw [Nat.succ_mul, Finset.sum_range_add, ih, Finset.sum_range_succ]

theorem offset_row {t : Tensor ℝ} {n p : Nat} (h1 : t.rows = 1) (h2 : t.cols = n) (hp : p < n) : offsetGet t p = t.get 0 p 0 := by
  unfold offsetGet
  rw [h1, h2, Nat.mul_one, Nat.mod_eq_of_lt hp, Nat.mod_eq_of_lt hp, Nat.div_eq_of_lt hp]

/-- The error of a flatten layer is adjoint to the derivative of flattening. -/
theorem flatten_joint {x : Tensor ℝ} (h : x.rows = 1 ∨ x.chans = 1) (e : Tensor ℝ) (he : Shape e (flattenForward x)) :
    ∃ g, flattenBackward x.rows x.cols e = some g ∧ Shape g x ∧ ∀ q v, Path q x v →
      ∃ vz, Path (fun s => flattenForward (q s)) (flattenForward x) vz ∧ Calculus.inner e vz = Calculus.inner g v := by
  by_cases h1 : x.rows = 1
  · have hx : ∀ x' : Tensor ℝ, Shape x' x → flattenForward x' = x' := by
      intro x' hs; unfold flattenForward; rw [if_pos (hs.1.trans h1)]
    rw [hx x ⟨rfl, rfl, rfl⟩] at he ⊢
    obtain ⟨s1, s2, s3⟩ := he
    refine ⟨e, ?_, ⟨s1, s2, s3⟩, fun q v hq => ⟨v, ?_, rfl⟩⟩
    · unfold flattenBackward; rw [if_pos ⟨s1.symm, s2.symm⟩]
    · rwa [show (fun s => flattenForward (q s)) = q from funext fun s => hx _ (hq.1 s)]
  · have hk := h.resolve_left h1
    have hx : ∀ x' : Tensor ℝ, Shape x' x → flattenForward x' = rowFlatten x' := by
      intro x' hs; unfold flattenForward; rw [if_neg (hs.1 ▸ h1)]
    rw [hx x ⟨rfl, rfl, rfl⟩] at he ⊢
    obtain ⟨s1, s2, s3⟩ := he
    have s1 : e.rows = 1 := s1
    have s3 : e.chans = 1 := s3
    have s2 : e.cols = x.rows * x.cols := by
      have : e.cols = x.rows * x.cols * x.chans := s2
      rw [this, hk, Nat.mul_one]
    refine ⟨⟨x.rows, x.cols, 1, fun r c k => offsetGet e (r * x.cols + c + k * (x.rows * x.cols))⟩, ?_, ⟨rfl, rfl, hk.symm⟩, fun q v hp => ?_⟩
    · unfold flattenBackward reshape
      rw [if_neg (fun hc => h1 (hc.1.trans s1)), if_neg (by rw [s1, s2]; simp), s3]
    · obtain ⟨hq, h0, hd⟩ := hp
      have hlt : ∀ c, c < x.rows * x.cols → 0 < x.cols ∧ c / x.cols < x.rows ∧ c % x.cols < x.cols := by
        intro c hc
        have hpos : 0 < x.cols := Nat.pos_of_ne_zero fun h => by rw [h] at hc; omega
        exact ⟨hpos, (Nat.div_lt_iff_lt_mul hpos).mpr hc, Nat.mod_lt _ hpos⟩
      have hel : ∀ (x' : Tensor ℝ), Shape x' x → ∀ r c k, (r, c, k) ∈ places (rowFlatten x) → el (rowFlatten x') (r, c, k) = el x' (c / x.cols, c % x.cols, 0) := by
        intro x' hs r c k hi
        obtain ⟨a1, a2, a3⟩ := mem_places.mp hi
        have a2 : c < x.rows * x.cols := by
          have : c < x.rows * x.cols * x.chans := a2
          rwa [hk, Nat.mul_one] at this
        show offsetGet x' c = x'.get (c / x.cols) (c % x.cols) 0
        unfold offsetGet
        rw [hs.1, hs.2.1, Nat.mul_comm x.cols, Nat.mod_eq_of_lt a2, Nat.div_eq_of_lt a2]
      have hin : ∀ r c k, (r, c, k) ∈ places (rowFlatten x) → (c / x.cols, c % x.cols, 0) ∈ places x := by
        intro r c k hi
        obtain ⟨a1, a2, a3⟩ := mem_places.mp hi
        have a2 : c < x.rows * x.cols := by
          have : c < x.rows * x.cols * x.chans := a2
          rwa [hk, Nat.mul_one] at this
        obtain ⟨b1, b2, b3⟩ := hlt c a2
        exact mem_places.mpr ⟨b2, b3, by show 0 < x.chans; omega⟩
      rw [show (fun s => flattenForward (q s)) = fun s => rowFlatten (q s) from funext fun s => hx _ (hq s)]
      refine ⟨⟨1, x.rows * x.cols, 1, fun _ c _ => v.get (c / x.cols) (c % x.cols) 0⟩, ⟨
        fun s => ⟨rfl, by show (q s).size = x.size; unfold Tensor.size; rw [(hq s).1, (hq s).2.1, (hq s).2.2], rfl⟩,
        fun i hi => by
          obtain ⟨r, c, k⟩ := i
          rw [hel (q 0) (hq 0) r c k hi, hel x ⟨rfl, rfl, rfl⟩ r c k hi]
          exact h0 _ (hin r c k hi),
        fun i hi => by
          obtain ⟨r, c, k⟩ := i
          have e1 : (fun s => el (rowFlatten (q s)) (r, c, k)) = fun s => el (q s) (c / x.cols, c % x.cols, 0) :=
            funext fun s => hel (q s) (hq s) r c k hi
          rw [e1]
          exact hd _ (hin r c k hi)⟩, ?_⟩
      rw [inner_finset, inner_finset]
      show (∑ k ∈ Finset.range e.chans, ∑ r ∈ Finset.range e.rows, ∑ c ∈ Finset.range e.cols, _) =
        ∑ k ∈ Finset.range 1, ∑ r ∈ Finset.range x.rows, ∑ c ∈ Finset.range x.cols, _
      rw [s1, s2, s3, Finset.sum_range_one, Finset.sum_range_one, Finset.sum_range_one, sum_flat]
      refine Finset.sum_congr rfl fun r hr => Finset.sum_congr rfl fun c hc => ?_
      have hr := Finset.mem_range.mp hr
      have hc := Finset.mem_range.mp hc
      have hp : r * x.cols + c < x.rows * x.cols := by
        calc r * x.cols + c < r * x.cols + x.cols := by omega
          _ = (r + 1) * x.cols := by ring
          _ ≤ x.rows * x.cols := Nat.mul_le_mul_right _ hr
      have d1 : (r * x.cols + c) / x.cols = r := by
        rw [Nat.mul_comm, Nat.mul_add_div (by omega), Nat.div_eq_of_lt hc, Nat.add_zero]
      have d2 : (r * x.cols + c) % x.cols = c := by
        rw [Nat.mul_comm, Nat.mul_add_mod, Nat.mod_eq_of_lt hc]
      show e.get 0 (r * x.cols + c) 0 * v.get ((r * x.cols + c) / x.cols) ((r * x.cols + c) % x.cols) 0 =
        offsetGet e (r * x.cols + c + 0 * (x.rows * x.cols)) * v.get r c 0
      rw [d1, d2, Nat.zero_mul, Nat.add_zero, offset_row s1 s2 hp]

/-- Multiplying a gradient by a constant. -/
theorem scaled {M : Tensor ℝ → Option ℝ} {p g : Tensor ℝ} (h : IsGradient M p g) (a : ℝ) :
    IsGradient (fun p' => (M p').map fun l => a * l) p (map (fun v => v * a) g) := by
  obtain ⟨hs, h⟩ := h
  refine ⟨hs, fun q v hq h0 hd => ?_⟩
  obtain ⟨f, hf, hfd⟩ := h q v hq h0 hd
  refine ⟨fun s => a * f s, fun s => by show (M (q s)).map _ = _; rw [hf s]; rfl, (hfd.const_mul a).congr_deriv ?_⟩
  unfold Calculus.inner
  show a * total g _ = total g _
  rw [← total_mul]
  refine total_congr fun i _ => ?_
  show a * (el g i * el v i) = el g i * a * el v i
  ring

/-- Clipping multiplies by a factor between 0 and 1. -/
theorem clip_scaled {threshold : ℝ} (ht : 0 < threshold) (g : Tensor ℝ) :
    ∃ a, 0 < a ∧ a ≤ 1 ∧ Statistics.clip Real.sqrt threshold g = map (fun v => v * a) g := by
  have h1 : g = map (fun v => v * 1) g := by
    obtain ⟨r, c, k, f⟩ := g
    simp [map]
  unfold Statistics.clip
  split
  · exact ⟨1, one_pos, le_refl _, h1⟩
  · rename_i n _
    split
    · rename_i hn
      exact ⟨threshold / n, div_pos ht (ht.trans hn), (div_le_one (ht.trans hn)).mpr hn.le, rfl⟩
    · exact ⟨1, one_pos, le_refl _, h1⟩

end Verif.Layers
