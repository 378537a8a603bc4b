import Verif.Lemmas.Precision
import Verif.Props.C126_Rounding

/-!
# C130: how far predictions move when the parameters are stored with 16 or 8 bits

The predictions of a network with its parameters and those of the network that keeps them with fewer bits differ by at most `(1 + grain)^depth - 1` times the sum of
the absolute values of everything that is added up on the way, where `grain` is 1/128 or 1/8 and `depth` counts the layers with parameters.
-/
namespace Verif.Precision
open Verif Rounding FloatBits Views

/-- Two tensors that differ by at most `g - 1` times their size. -/
def Apart (g : ℝ) (t t' X : Tensor ℝ) : Prop :=
  (t'.rows = t.rows ∧ t'.cols = t.cols ∧ t'.chans = t.chans) ∧ (X.rows = t.rows ∧ X.cols = t.cols ∧ X.chans = t.chans) ∧
    ∀ r c k, r < t.rows → c < t.cols → k < t.chans → |t.get r c k| ≤ X.get r c k ∧ |t'.get r c k - t.get r c k| ≤ (g - 1) * X.get r c k

/-- One product. -/
theorem product_apart (g e x x' X w w' W : ℝ) (hg : 1 ≤ g) (h1 : |x| ≤ X) (h2 : |x' - x| ≤ (g - 1) * X) (h3 : |w| ≤ W)
    (h4 : |w' - w| ≤ e * W) : |x * w| ≤ X * W ∧ |x' * w' - x * w| ≤ (g * (1 + e) - 1) * (X * W) := by
  have hX : 0 ≤ X := le_trans (abs_nonneg _) h1
  have hW : 0 ≤ W := le_trans (abs_nonneg _) h3
  have h5 : |x'| ≤ g * X := by
    calc |x'| = |x + (x' - x)| := by rw [add_sub_cancel]
      _ ≤ |x| + |x' - x| := abs_add_le _ _
      _ ≤ X + (g - 1) * X := add_le_add h1 h2
      _ = g * X := by ring
  constructor
  · rw [abs_mul]
    exact mul_le_mul h1 h3 (abs_nonneg _) hX
  · calc |x' * w' - x * w| = |x' * (w' - w) + (x' - x) * w| := by congr 1; ring
      _ ≤ |x' * (w' - w)| + |(x' - x) * w| := abs_add_le _ _
      _ = |x'| * |w' - w| + |x' - x| * |w| := by rw [abs_mul, abs_mul]
      _ ≤ g * X * (e * W) + (g - 1) * X * W := add_le_add
          (mul_le_mul h5 h4 (abs_nonneg _) (by positivity)) (mul_le_mul h2 h3 (abs_nonneg _) (mul_nonneg (by linarith) hX))
      _ = _ := by ring

/-- One layer. -/
theorem apart_layer (bits : Nat) (hb : bits = 32 ∨ bits = 16 ∨ bits = 8) (p : Part) (hp : p.Storable bits) (g : ℝ) (hg : 1 ≤ g) (t t' X u : Tensor ℝ) (l : Layers.Layer)
    (h : Apart g t t' X) (hf : (exact p).layer.forward t false = some (u, l)) :
    ∃ u' l', (exact (p.keep bits)).layer.forward t' false = some (u', l') ∧
      Apart (if p.stores then g * (1 + grain bits) else g) u u' (reachAfter bits p X) := by
  obtain ⟨⟨t1, t2, t3⟩, ⟨x1, x2, x3⟩, hn⟩ := h
  have he := grain_nonneg bits
  cases p with
  | dense w =>
    obtain ⟨k1, k2, k3, -⟩ := keep_spec bits w hp.1 hp.2.1
    change Option.map _ (Option.map _ (matmul t (reals w))) = _ at hf
    unfold matmul at hf
    by_cases h1 : t.cols ≠ (reals w).rows
    · rw [if_pos h1] at hf; cases hf
    rw [if_neg h1] at hf
    by_cases h2 : t.chans ≠ (reals w).chans
    · rw [if_pos h2] at hf; cases hf
    rw [if_neg h2] at hf
    have h1 : t.cols = w.rows := not_not.mp h1
    have h2 : t.chans = w.chans := not_not.mp h2
    cases hf
    have hmat : matmul t' (reals (keep bits w)) =
        some ⟨t'.rows, (keep bits w).cols, t'.chans, fun r c k => sumLoop t'.cols fun i => t'.get r i k * real ((keep bits w).get i c k)⟩ := by
      unfold matmul
      rw [if_neg (by show ¬ (t'.cols ≠ (keep bits w).rows); rw [k1, t2, h1]; simp), if_neg (by show ¬ (t'.chans ≠ (keep bits w).chans); rw [k3, t3, h2]; simp)]
      rfl
    refine ⟨⟨t'.rows, (keep bits w).cols, t'.chans, fun r c k => sumLoop t'.cols fun i => t'.get r i k * real ((keep bits w).get i c k)⟩,
      (exact ((Part.dense w).keep bits)).layer, by
        show Option.map _ (Option.map _ (matmul t' (reals (keep bits w)))) = _
        rw [hmat]
        rfl, ⟨t1, k2, t3⟩, ⟨x1, rfl, x3⟩, ?_⟩
    intro r c k hr hc hk
    have hr : r < t.rows := hr
    have hc : c < w.cols := hc
    have hk : k < t.chans := hk
    have hprod : ∀ i ∈ Finset.range t.cols, |t.get r i k * real (w.get i c k)| ≤ X.get r i k * (|real (w.get i c k)| + slack bits w) ∧
        |t'.get r i k * real ((keep bits w).get i c k) - t.get r i k * real (w.get i c k)| ≤
          (g * (1 + grain bits) - 1) * (X.get r i k * (|real (w.get i c k)| + slack bits w)) := by
      intro i hi
      have hi := Finset.mem_range.mp hi
      obtain ⟨a1, a2⟩ := hn r i k hr hi hk
      refine product_apart g (grain bits) _ _ _ _ _ _ hg a1 a2 ?_ (keep_error bits hb w hp i c k (by omega) hc (by omega))
      have := slack_nonneg bits w
      linarith
    simp only [Part.stores, if_true, reachAfter, reals]
    rw [sumLoop_eq_sum, sumLoop_eq_sum, t2, x2]
    constructor
    · exact le_trans (Finset.abs_sum_le_sum_abs _ _) (Finset.sum_le_sum fun i hi => (hprod i hi).1)
    · rw [← Finset.sum_sub_distrib, Finset.mul_sum]
      exact le_trans (Finset.abs_sum_le_sum_abs _ _) (Finset.sum_le_sum fun i hi => (hprod i hi).2)
  | bias b =>
    obtain ⟨k1, k2, k3, -⟩ := keep_spec bits b hp.1 hp.2.1
    change Option.map _ (Views.add t (reals b)) = _ at hf
    unfold Views.add zip at hf
    by_cases h1 : t.chans ≠ (reals b).chans ∨ t.rows ≠ (reals b).rows ∨ t.cols ≠ (reals b).cols
    · rw [if_pos h1] at hf; cases hf
    rw [if_neg h1] at hf
    cases hf
    push Not at h1
    obtain ⟨g1, g2, g3⟩ := h1
    have g1 : t.chans = b.chans := g1
    have g2 : t.rows = b.rows := g2
    have g3 : t.cols = b.cols := g3
    have hadd : Views.add t' (reals (keep bits b)) = some ⟨t'.rows, t'.cols, t'.chans, fun r c k => t'.get r c k + real ((keep bits b).get r c k)⟩ := by
      unfold Views.add zip
      rw [if_neg]
      · rfl
      show ¬ (t'.chans ≠ (keep bits b).chans ∨ t'.rows ≠ (keep bits b).rows ∨ t'.cols ≠ (keep bits b).cols)
      rw [t1, t2, t3, k1, k2, k3, g1, g2, g3]
      simp
    refine ⟨⟨t'.rows, t'.cols, t'.chans, fun r c k => t'.get r c k + real ((keep bits b).get r c k)⟩, (exact ((Part.bias b).keep bits)).layer, by
      show Option.map _ (Views.add t' (reals (keep bits b))) = _
      rw [hadd]
      rfl, ⟨t1, t2, t3⟩, ⟨x1, x2, x3⟩, ?_⟩
    intro r c k hr hc hk
    have hr : r < t.rows := hr
    have hc : c < t.cols := hc
    have hk : k < t.chans := hk
    obtain ⟨a1, a2⟩ := hn r c k hr hc hk
    have a3 := keep_error bits hb b hp r c k (by omega) (by omega) (by omega)
    have hs := slack_nonneg bits b
    simp only [Part.stores, if_true, reachAfter, reals]
    generalize hW : |real (b.get r c k)| + slack bits b = W at *
    have hbW : |real (b.get r c k)| ≤ W := by rw [← hW]; linarith
    have hW0 : 0 ≤ W := le_trans (abs_nonneg _) hbW
    have hX0 : 0 ≤ X.get r c k := le_trans (abs_nonneg _) a1
    constructor
    · exact le_trans (abs_add_le _ _) (add_le_add a1 hbW)
    · calc _ = |(t'.get r c k - t.get r c k) + (real ((keep bits b).get r c k) - real (b.get r c k))| := by congr 1; ring
        _ ≤ (g - 1) * X.get r c k + grain bits * W := le_trans (abs_add_le _ _) (add_le_add a2 a3)
        _ ≤ (g * (1 + grain bits) - 1) * X.get r c k + (g * (1 + grain bits) - 1) * W := by
            refine add_le_add (mul_le_mul_of_nonneg_right ?_ hX0) (mul_le_mul_of_nonneg_right ?_ hW0)
            · nlinarith
            · nlinarith
        _ = _ := by ring
  | activation kind =>
    cases hf
    refine ⟨_, _, rfl, ⟨t1, t2, t3⟩, ⟨x1, x2, x3⟩, fun r c k hr hc hk => ?_⟩
    obtain ⟨a1, a2⟩ := hn r c k hr hc hk
    simp only [Part.stores, reachAfter]
    have l1 := value_lipschitz kind (t.get r c k) 0
    have l2 := value_lipschitz kind (t'.get r c k) (t.get r c k)
    rw [sub_zero] at l1
    show |Activation.value kind (t.get r c k)| ≤ _ ∧ |Activation.value kind (t'.get r c k) - Activation.value kind (t.get r c k)| ≤ _
    constructor
    · calc |Activation.value kind (t.get r c k)| = |(Activation.value kind (t.get r c k) - Activation.value kind 0) + Activation.value kind 0| := by
            rw [sub_add_cancel]
        _ ≤ _ := le_trans (abs_add_le _ _) (by linarith)
    · have h0 := mul_nonneg (show 0 ≤ g - 1 by linarith) (abs_nonneg (Activation.value kind 0))
      have e : (g - 1) * (X.get r c k + |Activation.value kind 0|) = (g - 1) * X.get r c k + (g - 1) * |Activation.value kind 0| := by ring
      simp only [Bool.false_eq_true, if_false]
      rw [e]
      linarith
  | flatten =>
    cases hf
    refine ⟨_, _, rfl, ?_⟩
    simp only [Part.stores, reachAfter, Bool.false_eq_true, if_false]
    unfold Layers.flattenForward
    rw [t1, x1]
    by_cases h1 : t.rows = 1
    · rw [if_pos h1, if_pos h1, if_pos h1]
      exact ⟨⟨t1, t2, t3⟩, ⟨x1, x2, x3⟩, hn⟩
    · rw [if_neg h1, if_neg h1, if_neg h1]
      refine ⟨⟨rfl, ?_, rfl⟩, ⟨rfl, ?_, rfl⟩, ?_⟩
      · show t'.size = t.size
        unfold Tensor.size; rw [t1, t2, t3]
      · show X.size = t.size
        unfold Tensor.size; rw [x1, x2, x3]
      · intro r c k _ hc _
        have hc : c < t.rows * t.cols * t.chans := hc
        obtain ⟨p1, p2, p3⟩ := Wiring.offset_bounds _ _ _ _ hc
        have := hn _ _ _ p1 p2 p3
        show |offsetGet t c| ≤ offsetGet X c ∧ |offsetGet t' c - offsetGet t c| ≤ (g - 1) * offsetGet X c
        unfold offsetGet
        rw [t1, t2, x1, x2]
        exact this

/-- All layers. -/
theorem apart_network (bits : Nat) (hb : bits = 32 ∨ bits = 16 ∨ bits = 8) (net : List Part) (hp : ∀ p ∈ net, p.Storable bits) (g : ℝ) (hg : 1 ≤ g)
    (t t' X u : Tensor ℝ) (h : Apart g t t' X) (hf : Layers.predict (net.map exact) t = some u) :
    ∃ u', Layers.predict ((net.map (Part.keep bits)).map exact) t' = some u' ∧
      Apart (g * (1 + grain bits) ^ depth net) u u' (net.foldl (fun x p => reachAfter bits p x) X) := by
  have he := grain_nonneg bits
  induction net generalizing g t t' X with
  | nil =>
    cases hf
    refine ⟨t', rfl, ?_⟩
    simpa [depth] using h
  | cons p rest ih =>
    unfold Layers.predict at hf
    rw [List.map_cons] at hf
    unfold Layers.forwardAll at hf
    obtain ⟨s, hs, hs2⟩ := Option.map_eq_some_iff.mp hf
    obtain ⟨⟨u1, l1⟩, hu1, hu2⟩ := Option.bind_eq_some_iff.mp hs
    obtain ⟨s2, hs3, hs4⟩ := Option.map_eq_some_iff.mp hu2
    obtain ⟨u1', l1', e1, c1⟩ := apart_layer bits hb p (hp p List.mem_cons_self) g hg t t' X u1 l1 h hu1
    have hg' : 1 ≤ (if p.stores then g * (1 + grain bits) else g) := by
      split_ifs
      · nlinarith
      · exact hg
    obtain ⟨u', e2, c2⟩ := ih (fun q hq => hp q (List.mem_cons_of_mem _ hq)) _ hg' u1 u1' _ c1 (by
      unfold Layers.predict
      rw [hs3]
      rw [← hs4] at hs2
      simpa using hs2)
    refine ⟨u', ?_, ?_⟩
    · unfold Layers.predict at e2 ⊢
      rw [List.map_cons, List.map_cons]
      unfold Layers.forwardAll
      rw [e1]
      obtain ⟨s', hs1', hs2'⟩ := Option.map_eq_some_iff.mp e2
      simp only [Option.bind_some, hs1', Option.map_some]
      rw [← hs2']
    · have hd : (if p.stores then g * (1 + grain bits) else g) * (1 + grain bits) ^ depth rest = g * (1 + grain bits) ^ depth (p :: rest) := by
        unfold depth
        rw [List.countP_cons]
        split_ifs
        · rw [pow_succ]; ring
        · rw [Nat.add_zero]
      rw [← hd]
      exact c2

/-- **C130.** Whenever a network of full layers, biases, flatten layers and any of the seven activations predicts from an input, so does the network that keeps its
parameters with 32, 16 or 8 bits, and the two predictions, computed exactly, differ by at most `(1 + grain)^depth - 1` times `reach`. The parameters must be finite
and, for 8 bits, less than 1920 in absolute value. -/
theorem C130_partial (bits : Nat) (hb : bits = 32 ∨ bits = 16 ∨ bits = 8) (net : List Part) (hp : ∀ p ∈ net, p.Storable bits) (x y : Tensor ℝ)
    (hy : Layers.predict (net.map exact) x = some y) :
    ∃ z, Layers.predict ((net.map (Part.keep bits)).map exact) x = some z ∧ z.rows = y.rows ∧ z.cols = y.cols ∧ z.chans = y.chans ∧
      ∀ r c k, r < y.rows → c < y.cols → k < y.chans → |z.get r c k - y.get r c k| ≤ ((1 + grain bits) ^ depth net - 1) * (reach bits net x).get r c k := by
  obtain ⟨z, e, ⟨z1, z2, z3⟩, -, hn⟩ := apart_network bits hb net hp 1 (le_refl _) x x ⟨x.rows, x.cols, x.chans, fun r c k => |x.get r c k|⟩ y
    ⟨⟨rfl, rfl, rfl⟩, ⟨rfl, rfl, rfl⟩, fun r c k _ _ _ => ⟨le_refl _, by simp⟩⟩ hy
  refine ⟨z, e, z1, z2, z3, fun r c k hr hc hk => ?_⟩
  have := (hn r c k hr hc hk).2
  rwa [one_mul] at this

/-- With 32 bits nothing changes. -/
theorem C130_full (net : List Part) (hp : ∀ p ∈ net, p.Storable 32) (x y : Tensor ℝ) (hy : Layers.predict (net.map exact) x = some y) :
    ∃ z, Layers.predict ((net.map (Part.keep 32)).map exact) x = some z ∧ z.rows = y.rows ∧ z.cols = y.cols ∧ z.chans = y.chans ∧
      ∀ r c k, r < y.rows → c < y.cols → k < y.chans → z.get r c k = y.get r c k := by
  obtain ⟨z, e, z1, z2, z3, hn⟩ := C130_partial 32 (Or.inl rfl) net hp x y hy
  refine ⟨z, e, z1, z2, z3, fun r c k hr hc hk => ?_⟩
  have := hn r c k hr hc hk
  simp only [grain, if_true, add_zero, one_pow, sub_self, zero_mul] at this
  exact sub_eq_zero.mp (abs_nonpos_iff.mp this)

/-- The bound of C130 for one element. -/
noncomputable def allowance (bits : Nat) (net : List Part) (x : Tensor ℝ) (r c k : Nat) : ℝ :=
  ((1 + grain bits) ^ depth net - 1) * (reach bits net x).get r c k

/-- The order of two outputs is kept if they are far enough apart, so the same label wins. -/
theorem C130_decision_partial (bits : Nat) (hb : bits = 32 ∨ bits = 16 ∨ bits = 8) (net : List Part) (hp : ∀ p ∈ net, p.Storable bits) (x y z : Tensor ℝ)
    (hy : Layers.predict (net.map exact) x = some y) (hz : Layers.predict ((net.map (Part.keep bits)).map exact) x = some z)
    (r c k r' c' k' : Nat) (h1 : r < y.rows) (h2 : c < y.cols) (h3 : k < y.chans) (h1' : r' < y.rows) (h2' : c' < y.cols) (h3' : k' < y.chans)
    (hfar : y.get r c k + (allowance bits net x r c k + allowance bits net x r' c' k') < y.get r' c' k') : z.get r c k < z.get r' c' k' := by
  obtain ⟨z', e, -, -, -, hn⟩ := C130_partial bits hb net hp x y hy
  rw [hz] at e
  cases e
  have a := (abs_le.mp (hn r c k h1 h2 h3)).2
  have b := (abs_le.mp (hn r' c' k' h1' h2' h3')).1
  unfold allowance at hfar
  linarith

theorem exact_ofLayer (l : FloatNetwork.Layer) : exact (Part.ofLayer l) = Rounding.exact l := by
  cases l with
  | activation a => cases a <;> rfl
  | _ => rfl

theorem keep_ofLayer (bits : Nat) (l : FloatNetwork.Layer) : (Part.ofLayer l).keep bits = Part.ofLayer (keepLayer bits l) := by
  cases l with
  | activation a => cases a <;> rfl
  | _ => rfl

theorem keepLayer_finite (bits : Nat) (hb : bits = 32 ∨ bits = 16 ∨ bits = 8) (l : FloatNetwork.Layer) (h : (Part.ofLayer l).Storable bits) :
    FiniteLayer (keepLayer bits l) := by
  cases l with
  | dense w => exact keep_finite bits hb w h
  | bias b => exact keep_finite bits hb b h
  | activation a => trivial
  | flatten => trivial

/-- **Predictions in 32-bit floats with stored parameters**: both errors together. `net` are the layers with the parameters before they are stored, `y` what the network
predicts with the stored ones in floats, `t` what it would predict exactly without storing. -/
theorem C130_floats_partial (bits : Nat) (hb : bits = 32 ∨ bits = 16 ∨ bits = 8) (net : List FloatNetwork.Layer)
    (hp : ∀ l ∈ net, (Part.ofLayer l).Storable bits) (x y : Tensor F32) (hx : Every Rounding.Finite x)
    (hy : FloatNetwork.predict (net.map (keepLayer bits)) x = some y) (hm : Moderate (net.map (keepLayer bits)) x) (hs : steps (net.map (keepLayer bits)) ≤ 2 ^ 23)
    (t : Tensor ℝ) (ht : Layers.predict (net.map Rounding.exact) (reals x) = some t) :
    t.rows = y.rows ∧ t.cols = y.cols ∧ t.chans = y.chans ∧
      ∀ r c k, r < y.rows → c < y.cols → k < y.chans → Rounding.Finite (y.get r c k) ∧
        |real (y.get r c k) - t.get r c k| ≤ tolerance (net.map (keepLayer bits)) x r c k + allowance bits (net.map Part.ofLayer) (reals x) r c k := by
  have e1 : (net.map Part.ofLayer).map exact = net.map Rounding.exact := by simp [Function.comp_def, exact_ofLayer]
  have e2 : ((net.map Part.ofLayer).map (Part.keep bits)).map exact = (net.map (keepLayer bits)).map Rounding.exact := by
    simp [Function.comp_def, exact_ofLayer, keep_ofLayer]
  obtain ⟨z, hz, z1, z2, z3, hn⟩ := C130_partial bits hb (net.map Part.ofLayer) (by
    intro p hp'
    obtain ⟨l, hl', rfl⟩ := List.mem_map.mp hp'
    exact hp l hl') (reals x) t (by rw [e1]; exact ht)
  rw [e2] at hz
  obtain ⟨s, hs', s1, s2, s3, hc⟩ := C126_partial _ (by
    intro l hl
    obtain ⟨l', hl', rfl⟩ := List.mem_map.mp hl
    exact keepLayer_finite bits hb l' (hp l' hl')) x y hx hy hm hs
  rw [hz] at hs'
  cases hs'
  refine ⟨by omega, by omega, by omega, fun r c k hr hc' hk => ?_⟩
  obtain ⟨f1, f2⟩ := hc r c k hr hc' hk
  have f3 := hn r c k (by omega) (by omega) (by omega)
  refine ⟨f1, ?_⟩
  unfold tolerance allowance
  calc _ = |(real (y.get r c k) - z.get r c k) + (z.get r c k - t.get r c k)| := by congr 1; ring
    _ ≤ _ := le_trans (abs_add_le _ _) (add_le_add f2 f3)

theorem foldr_max_bound (l : List ℝ) (M : ℝ) (hM : 0 ≤ M) (h : ∀ v ∈ l, v ≤ M) : l.foldr max 0 ≤ M := by
  induction l with
  | nil => exact hM
  | cons a l ih =>
    rw [List.foldr_cons]
    exact max_le (h a List.mem_cons_self) (ih fun v hv => h v (List.mem_cons_of_mem _ hv))

theorem largest_le (t : Tensor F32) (M : ℝ) (hM : 0 ≤ M) (h : Every (fun v => |real v| ≤ M) t) : largest t ≤ M := by
  refine foldr_max_bound _ M hM fun v hv => ?_
  obtain ⟨a, ha, rfl⟩ := List.mem_map.mp hv
  obtain ⟨r, c, k, h1, h2, h3, rfl⟩ := (mem_elements t a).mp ha
  exact h r c k h1 h2 h3

/-- **C130 for one full layer with bias** whose `n` inputs, weights and biases are at most one in absolute value: storing the parameters moves every output by at most
`(n + 1) / 63` with 16 bits and by at most `4 (n + 1) / 15` with 8 bits. -/
theorem C130_unit (n m : Nat) (hn : 0 < n) (x : Tensor ℝ) (w b : Tensor F32) (hx : x.rows = 1 ∧ x.cols = n ∧ x.chans = 1) (hw : w.rows = n ∧ w.cols = m ∧ w.chans = 1)
    (hb : b.rows = 1 ∧ b.cols = m ∧ b.chans = 1) (h1 : Every (fun v => |v| ≤ 1) x) (h2 : Every (fun v => Rounding.Finite v ∧ |real v| ≤ 1) w)
    (h3 : Every (fun v => Rounding.Finite v ∧ |real v| ≤ 1) b) (bits : Nat) (hbits : bits = 16 ∨ bits = 8) :
    ∃ z, Layers.predict ([Part.dense w, .bias b].map fun p => exact (p.keep bits)) x = some z ∧ z.cols = m ∧ ∀ c, c < m →
      |z.get 0 c 0 - (∑ i ∈ Finset.range n, x.get 0 i 0 * real (w.get i c 0) + real (b.get 0 c 0))| ≤
        (if bits = 16 then ((n : ℝ) + 1) / 63 else 4 * (n + 1) / 15) := by
  obtain ⟨x1, x2, x3⟩ := hx
  obtain ⟨w1, w2, w3⟩ := hw
  obtain ⟨b1, b2, b3⟩ := hb
  have hmat : matmul x (reals w) = some ⟨x.rows, w.cols, x.chans, fun r c k => sumLoop x.cols fun i => x.get r i k * real (w.get i c k)⟩ := by
    unfold matmul
    rw [if_neg (by show ¬ (x.cols ≠ w.rows); rw [x2, w1]; simp), if_neg (by show ¬ (x.chans ≠ w.chans); rw [x3, w3]; simp)]
    rfl
  have hadd : Views.add (⟨x.rows, w.cols, x.chans, fun r c k => sumLoop x.cols fun i => x.get r i k * real (w.get i c k)⟩ : Tensor ℝ) (reals b) =
      some ⟨x.rows, w.cols, x.chans, fun r c k => (sumLoop x.cols fun i => x.get r i k * real (w.get i c k)) + real (b.get r c k)⟩ := by
    unfold Views.add zip
    rw [if_neg]
    · rfl
    show ¬ (x.chans ≠ b.chans ∨ x.rows ≠ b.rows ∨ w.cols ≠ b.cols)
    rw [x1, x3, w2, b1, b2, b3]
    simp
  have hy : Layers.predict ([Part.dense w, .bias b].map exact) x =
      some ⟨x.rows, w.cols, x.chans, fun r c k => (sumLoop x.cols fun i => x.get r i k * real (w.get i c k)) + real (b.get r c k)⟩ := by
    simp [Layers.predict, Layers.forwardAll, exact, Layers.Layer.forward, Layers.Dense.forward, Layers.Bias.forward, hmat, hadd]
  have hstore : ∀ t : Tensor F32, 0 < t.rows → 0 < t.chans → Every (fun v => Rounding.Finite v ∧ |real v| ≤ 1) t → Storable bits t := by
    intro t g1 g2 g3
    refine ⟨g1, g2, fun r c k a1 a2 a3 => ⟨(g3 r c k a1 a2 a3).1, fun _ => ?_⟩⟩
    have := (g3 r c k a1 a2 a3).2
    linarith
  obtain ⟨z, e, z1, z2, z3, hz⟩ := C130_partial bits (by tauto) [.dense w, .bias b] (by
    intro p hp
    rcases (by simpa using hp : p = .dense w ∨ p = .bias b) with rfl | rfl
    · exact hstore w (by omega) (by omega) h2
    · exact hstore b (by omega) (by omega) h3) x _ hy
  refine ⟨z, e, by rw [z2, ← w2], fun c hc => ?_⟩
  have hh := hz 0 c 0 (by rw [x1]; omega) (by show c < w.cols; omega) (by rw [x3]; omega)
  dsimp only at hh
  rw [x2, sumLoop_eq_sum] at hh
  refine le_trans hh ?_
  have hreach : (reach bits [.dense w, .bias b] x).get 0 c 0 =
      ∑ i ∈ Finset.range n, |x.get 0 i 0| * (|real (w.get i c 0)| + slack bits w) + (|real (b.get 0 c 0)| + slack bits b) := by
    rw [← x2]
    rfl
  have hdepth : depth [.dense w, .bias b] = 2 := rfl
  have hlw := largest_le w 1 (by norm_num) (fun r c k a1 a2 a3 => (h2 r c k a1 a2 a3).2)
  have hlb := largest_le b 1 (by norm_num) (fun r c k a1 a2 a3 => (h3 r c k a1 a2 a3).2)
  have bound : ∀ s : ℝ, 0 ≤ s → slack bits w ≤ s → slack bits b ≤ s → (reach bits [.dense w, .bias b] x).get 0 c 0 ≤ (n + 1) * (1 + s) := by
    intro s hs hsw hsb
    rw [hreach]
    have g1 : ∑ i ∈ Finset.range n, |x.get 0 i 0| * (|real (w.get i c 0)| + slack bits w) ≤ ∑ _i ∈ Finset.range n, (1 + s) := by
      refine Finset.sum_le_sum fun i hi => ?_
      have hi := Finset.mem_range.mp hi
      have a1 := h1 0 i 0 (by omega) (by omega) (by omega)
      have a2 := (h2 i c 0 (by omega) (by omega) (by omega)).2
      have a3 := slack_nonneg bits w
      calc _ ≤ 1 * (1 + s) := mul_le_mul a1 (by linarith) (add_nonneg (abs_nonneg _) a3) (by norm_num)
        _ = _ := one_mul _
    rw [Finset.sum_const, Finset.card_range, nsmul_eq_mul] at g1
    have g2 := (h3 0 c 0 (by omega) (by omega) (by omega)).2
    linarith
  rw [hdepth]
  have hN : (0 : ℝ) ≤ n := Nat.cast_nonneg _
  rcases hbits with rfl | rfl
  · have hb16 := bound (1 / 2 ^ 126) (by positivity) (by simp [slack]) (by simp [slack])
    have hs : (1 : ℝ) / 2 ^ 126 ≤ 1 / 1000 := by
      apply one_div_le_one_div_of_le (by norm_num)
      norm_num
    rw [if_pos rfl]
    have hg : (1 + grain 16) ^ 2 - 1 = 257 / 16384 := by unfold grain; norm_num
    rw [hg]
    generalize (1 : ℝ) / 2 ^ 126 = s at *
    have : ((n : ℝ) + 1) * (1 + s) ≤ (n + 1) * (1 + 1 / 1000) := mul_le_mul_of_nonneg_left (by linarith) (by linarith)
    linarith
  · have hb8 := bound (1 / 480 + 1 / 1024) (by positivity) (by simp only [slack]; norm_num; linarith) (by simp only [slack]; norm_num; linarith)
    rw [if_neg (by decide)]
    have hg : (1 + grain 8) ^ 2 - 1 = 17 / 64 := by unfold grain; norm_num
    rw [hg]
    have : (17 : ℝ) / 64 * (reach 8 [.dense w, .bias b] x).get 0 c 0 ≤ 17 / 64 * ((n + 1) * (1 + (1 / 480 + 1 / 1024))) :=
      mul_le_mul_of_nonneg_left hb8 (by norm_num)
    linarith

/-! ### What does not hold -/

/-- `-2^-20`, `4096` -/
def minusTiny : F32 := ⟨0xB5800000#32⟩
def large : F32 := ⟨0x45800000#32⟩

/-- One output, from the weights of a full layer. -/
theorem predict_dense (x : Tensor ℝ) (w : Tensor F32) (h1 : x.cols = w.rows) (h2 : x.chans = w.chans) :
    Layers.predict [exact (.dense w)] x = some ⟨x.rows, w.cols, x.chans, fun r c k => sumLoop x.cols fun i => x.get r i k * real (w.get i c k)⟩ := by
  have hmat : matmul x (reals w) = some ⟨x.rows, w.cols, x.chans, fun r c k => sumLoop x.cols fun i => x.get r i k * real (w.get i c k)⟩ := by
    unfold matmul
    rw [if_neg (by show ¬ (x.cols ≠ w.rows); rw [h1]; simp), if_neg (by show ¬ (x.chans ≠ w.chans); rw [h2]; simp)]
    rfl
  simp [Layers.predict, Layers.forwardAll, exact, Layers.Layer.forward, Layers.Dense.forward, hmat]

/-- **With 8 bits the sign of a prediction can change**: a full layer with the weights 1 and -2^-20 (both can be stored) has a negative output for the input (0, 1), and
a positive one after storing. -/
theorem C130_sign_violated : let w := column [one, minusTiny]; let x := reals (row [0, one])
    Storable 8 w ∧ ∃ y z, Layers.predict [exact (.dense w)] x = some y ∧ Layers.predict [exact ((Part.dense w).keep 8)] x = some z ∧
      y.get 0 0 0 < 0 ∧ 0 < z.get 0 0 0 := by
  intro w x
  have h1 : real one = 1 :=
    (real_of 0x3F800000#32 1 (by decide +kernel)).trans (by norm_num)
  have h0 : real 0 = 0 := real_zero
  have hm : value minusTiny.bits < 0 ∧ (value minusTiny.bits).natAbs < 1920 * 2 ^ 149 := by decide +kernel
  have hm1 : real minusTiny < 0 := div_neg_of_neg_of_pos (by exact_mod_cast hm.1) (by positivity)
  have hm2 : |real minusTiny| < 1920 := by
    rw [abs_value_real, div_lt_iff₀ (by positivity)]
    exact_mod_cast hm.2
  have hs : Storable 8 w := by
    refine ⟨by decide, by decide, fun r c k hr hc hk => ?_⟩
    have hr : r < 2 := hr
    rcases (by omega : r = 0 ∨ r = 1) with rfl | rfl
    · exact ⟨(by decide : Rounding.Finite one), fun _ => by show |real one| < 1920; rw [h1]; norm_num⟩
    · exact ⟨(by decide : Rounding.Finite minusTiny), fun _ => hm2⟩
  refine ⟨hs, _, _, predict_dense x w rfl rfl, predict_dense x (keep 8 w) ?_ ?_, ?_, ?_⟩
  · rw [(keep_spec 8 w hs.1 hs.2.1).1]; rfl
  · rw [(keep_spec 8 w hs.1 hs.2.1).2.2.1]; rfl
  · dsimp only
    rw [show x.cols = 2 from rfl, sumLoop_eq_sum, Finset.sum_range_succ, Finset.sum_range_one]
    show real 0 * real one + real one * real minusTiny < 0
    rw [h0, h1]
    linarith
  · dsimp only
    rw [show x.cols = 2 from rfl, sumLoop_eq_sum, Finset.sum_range_succ, Finset.sum_range_one]
    show 0 < real 0 * real _ + real one * real ((keep 8 w).get 1 0 0)
    have hk : 0 < value ((keep 8 w).get 1 0 0).bits := by decide +kernel
    have : 0 < real ((keep 8 w).get 1 0 0) := div_pos (by exact_mod_cast hk) (by positivity)
    rw [h0, h1]
    linarith

/-- **With 8 bits large parameters are cut off**: a full layer with the single weight 4096 predicts 4096 from 1, and 1920 after storing; C130 would allow a difference
of less than 514. -/
theorem C130_large_violated : let w := column [large]; let x := reals (row [one])
    ∃ y z, Layers.predict [exact (.dense w)] x = some y ∧ Layers.predict [exact ((Part.dense w).keep 8)] x = some z ∧
      y.get 0 0 0 = 4096 ∧ z.get 0 0 0 = 1920 ∧ allowance 8 [.dense w] x 0 0 0 < 514 := by
  intro w x
  have h1 : real one = 1 :=
    (real_of 0x3F800000#32 1 (by decide +kernel)).trans (by norm_num)
  have h2 : real large = 4096 :=
    (real_of 0x45800000#32 4096 (by decide +kernel)).trans (by norm_num)
  have hk := keep_spec 8 w (by decide) (by decide)
  refine ⟨_, _, predict_dense x w rfl rfl, predict_dense x (keep 8 w) ?_ ?_, ?_, ?_, ?_⟩
  · rw [hk.1]; rfl
  · rw [hk.2.2.1]; rfl
  · dsimp only
    rw [show x.cols = 1 from rfl, sumLoop_eq_sum, Finset.sum_range_one]
    show real one * real large = 4096
    rw [h1, h2]
    norm_num
  · dsimp only
    rw [show x.cols = 1 from rfl, sumLoop_eq_sum, Finset.sum_range_one]
    show real one * real ((keep 8 w).get 0 0 0) = 1920
    have : value ((keep 8 w).get 0 0 0).bits = 1920 * 2 ^ 149 := by decide +kernel
    rw [show real ((keep 8 w).get 0 0 0) = 1920 from (real_of _ 1920 this).trans (by norm_num), h1]
    norm_num
  · have hl : largest w ≤ 4096 := largest_le w 4096 (by norm_num) (by
      intro r c k hr hc _
      have hr : r < 1 := hr
      rcases (by omega : r = 0) with rfl
      show |real large| ≤ 4096
      rw [h2]
      norm_num)
    have hr : (reach 8 [.dense w] x).get 0 0 0 = ∑ i ∈ Finset.range 1, |x.get 0 i 0| * (|real (w.get i 0 0)| + slack 8 w) := rfl
    unfold allowance
    rw [hr, Finset.sum_range_one]
    show ((1 + grain 8) ^ 1 - 1) * (|real one| * (|real large| + slack 8 w)) < 514
    rw [h1, h2]
    have hs : slack 8 w = largest w / 480 + 1 / 1024 := by unfold slack; norm_num
    have hg : grain 8 = 1 / 8 := by unfold grain; norm_num
    rw [hs, hg]
    norm_num
    linarith

/-- The conditions of C130 hold for two layers with a sigmoid between them, with 16 and with 8 bits. -/
example (bits : Nat) : let net := [Part.dense (column [two, minusTiny]), .activation .sigmoid, .dense (column [one]), .bias (column [two]), .activation .tanh]
    (∀ p ∈ net, p.Storable bits) ∧ depth net = 3 ∧ (Layers.predict (net.map exact) (reals (row [one, two]))).isSome := by
  have h1 : real one = 1 :=
    (real_of 0x3F800000#32 1 (by decide +kernel)).trans (by norm_num)
  have h4 : real two = 2 :=
    (real_of 0x40000000#32 2 (by decide +kernel)).trans (by norm_num)
  have hm : (value minusTiny.bits).natAbs < 1920 * 2 ^ 149 := by decide +kernel
  have hm2 : |real minusTiny| < 1920 := by
    rw [abs_value_real, div_lt_iff₀ (by positivity)]
    exact_mod_cast hm
  intro net
  refine ⟨?_, rfl, ?_⟩
  · intro p hp
    have hp : p = .dense (column [two, minusTiny]) ∨ p = .activation .sigmoid ∨ p = .dense (column [one]) ∨ p = .bias (column [two]) ∨ p = .activation .tanh := by
      simpa [net] using hp
    rcases hp with rfl | rfl | rfl | rfl | rfl
    · refine ⟨by decide, by decide, fun r c k hr hc hk => ?_⟩
      have hr : r < 2 := hr
      rcases (by omega : r = 0 ∨ r = 1) with rfl | rfl
      · exact ⟨(by decide : Rounding.Finite two), fun _ => by show |real two| < 1920; rw [h4]; norm_num⟩
      · exact ⟨(by decide : Rounding.Finite minusTiny), fun _ => hm2⟩
    · trivial
    · refine ⟨by decide, by decide, fun r c k hr hc hk => ?_⟩
      have hr : r < 1 := hr
      rcases (by omega : r = 0) with rfl
      exact ⟨(by decide : Rounding.Finite one), fun _ => by show |real one| < 1920; rw [h1]; norm_num⟩
    · refine ⟨by decide, by decide, fun r c k hr hc hk => ?_⟩
      have hr : r < 1 := hr
      rcases (by omega : r = 0) with rfl
      exact ⟨(by decide : Rounding.Finite two), fun _ => by show |real two| < 1920; rw [h4]; norm_num⟩
    · trivial
  · simp [net, Layers.predict, Layers.forwardAll, exact, Layers.Layer.forward, Layers.Dense.forward, Layers.Bias.forward, matmul, Views.add, zip, reals, row, column,
      Activation.activate, map]

end Verif.Precision
