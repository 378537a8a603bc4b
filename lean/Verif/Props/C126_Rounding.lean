import Verif.Lemmas.RoundingNetwork

/-!
# C126: a prediction in 32-bit floats is close to the exact one

`Verif.FloatNetwork.predict` computes with floats, bit by bit; `Verif.Layers.predict` is the same network with real numbers. The two differ by at most
`steps · 2^-23` times the sum of the absolute values of everything that is added up on the way (plus a number of smallest floats), if nothing overflows.
-/
namespace Verif.Rounding
open Verif FloatBits Views FloatNetwork

/-- Floats near real numbers, element by element. -/
def Close (N : Nat) (f : Tensor F32) (t X B : Tensor ℝ) : Prop :=
  (t.rows = f.rows ∧ t.cols = f.cols ∧ t.chans = f.chans) ∧ (X.rows = f.rows ∧ X.cols = f.cols ∧ X.chans = f.chans) ∧
    (B.rows = f.rows ∧ B.cols = f.cols ∧ B.chans = f.chans) ∧
    ∀ r c k, r < f.rows → c < f.cols → k < f.chans → Near N (f.get r c k) (t.get r c k) (X.get r c k) (B.get r c k)

/-- One layer. -/
theorem close_layer (l : Layer) (N : Nat) (f f' : Tensor F32) (t X B : Tensor ℝ) (h : Close N f t X B) (hl : FiniteLayer l) (hf : l.forward f = some f')
    (hN : N + stepsOf l ≤ 2 ^ 23) (hX : Every (fun v => v ≤ 2 ^ 125) (sizeAfter l X)) (hB : Every (fun v => v ≤ 2 ^ 125) (tinyAfter l B)) :
    ∃ t' l', (exact l).layer.forward t false = some (t', l') ∧ Close (N + stepsOf l) f' t' (sizeAfter l X) (tinyAfter l B) := by
  obtain ⟨⟨t1, t2, t3⟩, ⟨x1, x2, x3⟩, ⟨b1, b2, b3⟩, hn⟩ := h
  cases l with
  | dense w =>
    unfold Layer.forward matmul at hf
    dsimp only at hf
    by_cases h1 : f.cols ≠ w.rows
    · rw [if_pos h1] at hf; cases hf
    rw [if_neg h1] at hf
    by_cases h2 : f.chans ≠ w.chans
    · rw [if_pos h2] at hf; cases hf
    rw [if_neg h2] at hf
    have h1 : f.cols = w.rows := not_not.mp h1
    have h2 : f.chans = w.chans := not_not.mp h2
    cases hf
    have hmat : matmul t ⟨w.rows, w.cols, w.chans, fun r c k => real (w.get r c k)⟩ =
        some ⟨t.rows, w.cols, t.chans, fun r c k => sumLoop t.cols fun i => t.get r i k * real (w.get i c k)⟩ := by
      unfold matmul
      rw [if_neg (by dsimp only; rw [t2, h1]; simp), if_neg (by dsimp only; rw [t3, h2]; simp)]
    refine ⟨⟨t.rows, w.cols, t.chans, fun r c k => sumLoop t.cols fun i => t.get r i k * real (w.get i c k)⟩, (exact (.dense w)).layer, by
      show (Option.map _ (Option.map _ (matmul t _))) = _
      rw [hmat]
      rfl, ⟨t1, rfl, t3⟩, ⟨x1, rfl, x3⟩, ⟨b1, rfl, b3⟩, ?_⟩
    intro r c k hr hc hk
    have hX' := hX r c k (by show r < X.rows; rw [x1]; exact hr) hc (by show k < X.chans; rw [x3]; exact hk)
    have hB' := hB r c k (by show r < B.rows; rw [b1]; exact hr) hc (by show k < B.chans; rw [b3]; exact hk)
    simp only [sizeAfter, tinyAfter] at hX' hB'
    simp only [sizeAfter, tinyAfter, stepsOf] at hN ⊢
    rw [x2] at hX' ⊢
    rw [b2] at hB' ⊢
    rw [t2, sumLoop_eq_sum]
    rw [← h1] at hN ⊢
    exact near_dense N f.cols (fun i => f.get r i k) (fun i => w.get i c k) (fun i => t.get r i k) (fun i => X.get r i k) (fun i => B.get r i k)
      (fun i hi => hn r i k hr hi hk) (fun i hi => hl i c k (by omega) hc (h2 ▸ hk)) hN hX' hB'
  | bias b =>
    unfold Layer.forward Views.add zip at hf
    dsimp only at hf
    by_cases h1 : f.chans ≠ b.chans ∨ f.rows ≠ b.rows ∨ f.cols ≠ b.cols
    · rw [if_pos h1] at hf; cases hf
    rw [if_neg h1] at hf
    cases hf
    push Not at h1
    obtain ⟨g1, g2, g3⟩ := h1
    have hadd : Views.add t ⟨b.rows, b.cols, b.chans, fun r c k => real (b.get r c k)⟩ =
        some ⟨t.rows, t.cols, t.chans, fun r c k => t.get r c k + real (b.get r c k)⟩ := by
      unfold Views.add zip
      rw [if_neg]
      dsimp only
      rw [t1, t2, t3, g1, g2, g3]
      simp
    refine ⟨⟨t.rows, t.cols, t.chans, fun r c k => t.get r c k + real (b.get r c k)⟩, (exact (.bias b)).layer, by
      show (Option.map _ (Views.add t _)) = _
      rw [hadd]
      rfl, ⟨t1, t2, t3⟩, ⟨x1, x2, x3⟩, ⟨b1, b2, b3⟩, ?_⟩
    intro r c k hr hc hk
    have hr : r < f.rows := hr
    have hc : c < f.cols := hc
    have hk : k < f.chans := hk
    have hX' := hX r c k (by show r < X.rows; omega) (by show c < X.cols; omega) (by show k < X.chans; omega)
    have hB' := hB r c k (by show r < B.rows; omega) (by show c < B.cols; omega) (by show k < B.chans; omega)
    exact near_bias N _ _ _ _ _ (hn r c k hr hc hk) (hl r c k (by omega) (by omega) (by omega)) hN hX' hB'
  | activation a =>
    cases hf
    cases a with
    | relu => exact ⟨_, _, rfl, ⟨t1, t2, t3⟩, ⟨x1, x2, x3⟩, ⟨b1, b2, b3⟩, fun r c k hr hc hk => near_relu _ _ _ _ _ (hn r c k hr hc hk)⟩
    | linear => exact ⟨_, _, rfl, ⟨t1, t2, t3⟩, ⟨x1, x2, x3⟩, ⟨b1, b2, b3⟩, fun r c k hr hc hk => hn r c k hr hc hk⟩
    | leaky =>
      refine ⟨_, _, rfl, ⟨t1, t2, t3⟩, ⟨x1, x2, x3⟩, ⟨b1, b2, b3⟩, fun r c k hr hc hk => ?_⟩
      have hr : r < f.rows := hr
      have hc : c < f.cols := hc
      have hk : k < f.chans := hk
      have hX' : X.get r c k ≤ 2 ^ 125 := hX r c k (by show r < X.rows; omega) (by show c < X.cols; omega) (by show k < X.chans; omega)
      have hB' : B.get r c k + 1 ≤ 2 ^ 125 := hB r c k (by show r < B.rows; omega) (by show c < B.cols; omega) (by show k < B.chans; omega)
      exact near_leaky N _ _ _ _ (hn r c k hr hc hk) (by simp only [stepsOf] at hN; omega) hX' (by linarith)
  | flatten =>
    cases hf
    refine ⟨_, _, rfl, ?_⟩
    unfold Layers.flattenForward sizeAfter tinyAfter stepsOf
    dsimp only
    rw [t1, x1, b1]
    by_cases h1 : f.rows = 1
    · rw [if_pos h1, if_pos h1, if_pos h1, if_pos h1]
      exact ⟨⟨t1, t2, t3⟩, ⟨x1, x2, x3⟩, ⟨b1, b2, b3⟩, hn⟩
    · rw [if_neg h1, if_neg h1, if_neg h1, if_neg h1]
      refine ⟨⟨rfl, ?_, rfl⟩, ⟨rfl, ?_, rfl⟩, ⟨rfl, ?_, rfl⟩, ?_⟩
      · show t.size = f.size
        unfold Tensor.size; rw [t1, t2, t3]
      · show X.size = f.size
        unfold Tensor.size; rw [x1, x2, x3]
      · show B.size = f.size
        unfold Tensor.size; rw [b1, b2, b3]
      · intro r c k _ hc _
        have hc : c < f.rows * f.cols * f.chans := hc
        obtain ⟨p1, p2, p3⟩ := Wiring.offset_bounds _ _ _ _ hc
        have := hn _ _ _ p1 p2 p3
        show Near N (offsetGet f c) (offsetGet t c) (offsetGet X c) (offsetGet B c)
        unfold offsetGet
        rw [t1, t2, x1, x2, b1, b2]
        exact this

/-- All layers. -/
theorem close_network (net : List Layer) (N : Nat) (f f' : Tensor F32) (t X B : Tensor ℝ) (h : Close N f t X B) (hl : ∀ l ∈ net, FiniteLayer l)
    (hf : FloatNetwork.predict net f = some f') (hN : N + steps net ≤ 2 ^ 23)
    (hm : ∀ n, n ≤ net.length → Every (fun v => v ≤ 2 ^ 125) (size (net.take n) X) ∧ Every (fun v => v ≤ 2 ^ 125) (tiny (net.take n) B)) :
    ∃ t', Layers.predict (net.map exact) t = some t' ∧ Close (N + steps net) f' t' (size net X) (tiny net B) := by
  induction net generalizing N f t X B with
  | nil =>
    cases hf
    exact ⟨t, rfl, h⟩
  | cons l rest ih =>
    unfold FloatNetwork.predict at hf
    obtain ⟨f1, hf1, hf2⟩ := Option.bind_eq_some_iff.mp hf
    have hsteps : steps (l :: rest) = stepsOf l + steps rest := by simp [steps]
    rw [hsteps] at hN ⊢
    have hm1 := hm 1 (by simp)
    obtain ⟨t1, l', e1, c1⟩ := close_layer l N f f1 t X B h (hl l List.mem_cons_self) hf1 (by omega) hm1.1 hm1.2
    obtain ⟨t2, e2, c2⟩ := ih (N + stepsOf l) f1 t1 _ _ c1 (fun x hx => hl x (List.mem_cons_of_mem _ hx)) hf2 (by omega) (by
      intro n hn
      have := hm (n + 1) (by simp; omega)
      exact this)
    refine ⟨t2, ?_, ?_⟩
    · unfold Layers.predict at e2 ⊢
      rw [List.map_cons]
      unfold Layers.forwardAll
      rw [e1]
      obtain ⟨s, hs1, hs2⟩ := Option.map_eq_some_iff.mp e2
      simp only [Option.bind_some, hs1, Option.map_some]
      rw [← hs2]
    · rw [show N + (stepsOf l + steps rest) = N + stepsOf l + steps rest by omega]
      exact c2

/-- **C126.** Whenever a network with finite parameters (full layers, biases, flatten layers; linear, relu or leaky relu activation) predicts in 32-bit
floats from a finite input, the exact prediction with the same parameters exists and has the same shape. If the sums of absolute values stay below 2^125
and there are at most 2^23 roundings on a way through the network, every element of the float prediction is finite and differs from the exact one by at most
`steps · 2^-23 · size + 2^-149 · tiny`. -/
theorem C126_partial (net : List Layer) (hl : ∀ l ∈ net, FiniteLayer l) (x y : Tensor F32) (hx : Every Finite x) (hy : FloatNetwork.predict net x = some y)
    (hm : Moderate net x) (hs : steps net ≤ 2 ^ 23) :
    ∃ t, Layers.predict (net.map exact) (reals x) = some t ∧ t.rows = y.rows ∧ t.cols = y.cols ∧ t.chans = y.chans ∧
      ∀ r c k, r < y.rows → c < y.cols → k < y.chans → Finite (y.get r c k) ∧
        |real (y.get r c k) - t.get r c k| ≤ steps net / 2 ^ 23 * (size net (sizes x)).get r c k + (tiny net (zeros x)).get r c k / 2 ^ 149 := by
  obtain ⟨t, e, ⟨t1, t2, t3⟩, -, -, hn⟩ := close_network net 0 x y (reals x) (sizes x) (zeros x) ⟨⟨rfl, rfl, rfl⟩, ⟨rfl, rfl, rfl⟩, ⟨rfl, rfl, rfl⟩, by
    intro r c k hr hc hk
    refine ⟨hx r c k hr hc hk, le_refl _, le_refl _, ?_⟩
    simp [reals, g, zeros]⟩ hl hy (by omega) hm
  refine ⟨t, e, t1, t2, t3, ?_⟩
  intro r c k hr hc hk
  obtain ⟨h1, h2, h3, h4⟩ := hn r c k hr hc hk
  refine ⟨h1, le_trans h4 ?_⟩
  have hX : 0 ≤ (size net (sizes x)).get r c k := le_trans (abs_nonneg _) h2
  rw [Nat.zero_add]
  have g1 := g_le _ hs
  have g2 := g_le_two _ hs
  have hη := mul_nonneg η_pos.le h3
  have k1 : (g (steps net) - 1) * (size net (sizes x)).get r c k ≤ steps net / 2 ^ 23 * (size net (sizes x)).get r c k := by
    refine mul_le_mul_of_nonneg_right ?_ hX
    have : 2 * (steps net : ℝ) * u = steps net / 2 ^ 23 := by unfold u; rw [pow_succ]; field_simp
    linarith
  have k2 : g (steps net) * (η * (tiny net (zeros x)).get r c k) ≤ (tiny net (zeros x)).get r c k / 2 ^ 149 := by
    have : 2 * (η * (tiny net (zeros x)).get r c k) = (tiny net (zeros x)).get r c k / 2 ^ 149 := by
      unfold η; rw [pow_succ]; field_simp
    rw [← this]
    exact mul_le_mul_of_nonneg_right g2 hη
  linarith

/-- The order of two floats is that of the numbers they denote. -/
theorem lt_real (a b : F32) (ha : Finite a) (hb : Finite b) : F32.lt a b = true ↔ real a < real b := by
  obtain ⟨a1, -⟩ := finite_not a ha
  obtain ⟨b1, -⟩ := finite_not b hb
  unfold F32.lt FloatArith.flt real
  rw [a1, b1]
  rw [div_lt_div_iff_of_pos_right (show (0 : ℝ) < 2 ^ 149 by positivity), Int.cast_lt]
  simp

/-- The bound of C126 for one element. -/
noncomputable def tolerance (net : List Layer) (x : Tensor F32) (r c k : Nat) : ℝ :=
  steps net / 2 ^ 23 * (size net (sizes x)).get r c k + (tiny net (zeros x)).get r c k / 2 ^ 149

/-- **C126, decisions.** Two elements of a prediction compare in floats as they do exactly, if they are further apart than their tolerances. -/
theorem C126_decision_partial (net : List Layer) (hl : ∀ l ∈ net, FiniteLayer l) (x y : Tensor F32) (hx : Every Finite x)
    (hy : FloatNetwork.predict net x = some y) (hm : Moderate net x) (hs : steps net ≤ 2 ^ 23) (t : Tensor ℝ)
    (ht : Layers.predict (net.map exact) (reals x) = some t) (r c k r' c' k' : Nat) (h1 : r < t.rows) (h2 : c < t.cols) (h3 : k < t.chans)
    (h1' : r' < t.rows) (h2' : c' < t.cols) (h3' : k' < t.chans)
    (hfar : t.get r c k + (tolerance net x r c k + tolerance net x r' c' k') < t.get r' c' k') : F32.lt (y.get r c k) (y.get r' c' k') = true := by
  obtain ⟨t', e, t1, t2, t3, hn⟩ := C126_partial net hl x y hx hy hm hs
  rw [ht] at e
  cases e
  obtain ⟨f1, d1⟩ := hn r c k (by omega) (by omega) (by omega)
  obtain ⟨f2, d2⟩ := hn r' c' k' (by omega) (by omega) (by omega)
  rw [lt_real _ _ f1 f2]
  have d1 := (abs_le.mp d1).2
  have d2 := (abs_le.mp d2).1
  unfold tolerance at hfar
  linarith

/-- **C126 for one full layer with bias** whose inputs, weights and biases are at most one in absolute value: the error is at most
`(n + 2)(n + 1) / 2^23 + n / 2^149` for `n` inputs. -/
theorem C126_unit (n m : Nat) (hn : n ≤ 2 ^ 22) (x w b : Tensor F32) (hx : x.rows = 1 ∧ x.cols = n ∧ x.chans = 1) (hw : w.rows = n ∧ w.cols = m ∧ w.chans = 1)
    (hb : b.rows = 1 ∧ b.cols = m ∧ b.chans = 1) (h1 : Every (fun v => Finite v ∧ |real v| ≤ 1) x) (h2 : Every (fun v => Finite v ∧ |real v| ≤ 1) w)
    (h3 : Every (fun v => Finite v ∧ |real v| ≤ 1) b) :
    ∃ y, FloatNetwork.predict [.dense w, .bias b] x = some y ∧ ∀ c, c < m → Finite (y.get 0 c 0) ∧
      |real (y.get 0 c 0) - (∑ i ∈ Finset.range n, real (x.get 0 i 0) * real (w.get i c 0) + real (b.get 0 c 0))| ≤
        (n + 2) * (n + 1) / 2 ^ 23 + n / 2 ^ 149 := by
  obtain ⟨x1, x2, x3⟩ := hx
  obtain ⟨w1, w2, w3⟩ := hw
  obtain ⟨b1, b2, b3⟩ := hb
  have hN : (n : ℝ) ≤ 2 ^ 22 := by exact_mod_cast hn
  have hmat : matmul x w = some ⟨x.rows, w.cols, x.chans, fun r c k => sumLoop x.cols fun i => x.get r i k * w.get i c k⟩ := by
    unfold matmul
    rw [if_neg (by rw [x2, w1]; simp), if_neg (by rw [x3, w3]; simp)]
  have hadd : Views.add (⟨x.rows, w.cols, x.chans, fun r c k => sumLoop x.cols fun i => x.get r i k * w.get i c k⟩ : Tensor F32) b =
      some ⟨x.rows, w.cols, x.chans, fun r c k => (sumLoop x.cols fun i => x.get r i k * w.get i c k) + b.get r c k⟩ := by
    unfold Views.add zip
    rw [if_neg]
    dsimp only
    rw [x1, x3, w2, b1, b2, b3]
    simp
  have hy : FloatNetwork.predict [.dense w, .bias b] x =
      some ⟨x.rows, w.cols, x.chans, fun r c k => (sumLoop x.cols fun i => x.get r i k * w.get i c k) + b.get r c k⟩ := by
    simp only [FloatNetwork.predict, Layer.forward, hmat, Option.bind_some, hadd]
  have hsz : ∀ r c k, r < 1 → c < m → k < 1 → ∑ i ∈ Finset.range n, |real (x.get r i k)| * |real (w.get i c k)| ≤ n := by
    intro r c k hr hc hk
    calc _ ≤ ∑ i ∈ Finset.range n, (1 : ℝ) := Finset.sum_le_sum fun i hi => by
            have hi := Finset.mem_range.mp hi
            have a1 := (h1 r i k (by omega) (by omega) (by omega)).2
            have a2 := (h2 i c k (by omega) (by omega) (by omega)).2
            have := abs_nonneg (real (x.get r i k))
            have := abs_nonneg (real (w.get i c k))
            nlinarith
      _ = n := by simp
  have hti : ∀ r c k, ∑ i ∈ Finset.range n, ((zeros x).get r i k * |real (w.get i c k)| + 1) = n := by
    intro r c k
    simp [zeros]
  have hbig : (2 : ℝ) ^ 22 + 1 ≤ 2 ^ 125 := by norm_num
  have hm : Moderate [.dense w, .bias b] x := by
    intro q hq
    have hq : q ≤ 2 := hq
    rcases (by omega : q = 0 ∨ q = 1 ∨ q = 2) with rfl | rfl | rfl
    · constructor
      · intro r c k hr hc hk
        have := (h1 r c k hr hc hk).2
        show |real (x.get r c k)| ≤ 2 ^ 125
        exact le_trans this (by norm_num)
      · intro r c k hr hc hk
        show (0 : ℝ) ≤ 2 ^ 125
        positivity
    · constructor
      · intro r c k hr hc hk
        have hr : r < x.rows := hr
        have hc : c < w.cols := hc
        have hk : k < x.chans := hk
        show ∑ i ∈ Finset.range x.cols, |real (x.get r i k)| * |real (w.get i c k)| ≤ 2 ^ 125
        rw [x2]
        have := hsz r c k (by omega) (by omega) (by omega)
        linarith
      · intro r c k hr hc hk
        show ∑ i ∈ Finset.range x.cols, ((zeros x).get r i k * |real (w.get i c k)| + 1) ≤ 2 ^ 125
        rw [x2, hti]
        linarith
    · constructor
      · intro r c k hr hc hk
        have hr : r < x.rows := hr
        have hc : c < w.cols := hc
        have hk : k < x.chans := hk
        show ∑ i ∈ Finset.range x.cols, |real (x.get r i k)| * |real (w.get i c k)| + |real (b.get r c k)| ≤ 2 ^ 125
        rw [x2]
        have := hsz r c k (by omega) (by omega) (by omega)
        have := (h3 r c k (by omega) (by omega) (by omega)).2
        linarith
      · intro r c k hr hc hk
        show ∑ i ∈ Finset.range x.cols, ((zeros x).get r i k * |real (w.get i c k)| + 1) ≤ 2 ^ 125
        rw [x2, hti]
        linarith
  have hsteps : steps [.dense w, .bias b] = n + 2 := by simp [steps, stepsOf, w1]
  obtain ⟨t, et, -, -, -, hn'⟩ := C126_partial [.dense w, .bias b] (by
    intro l hl
    rcases List.mem_cons.mp hl with rfl | hl
    · exact fun r c k hr hc hk => (h2 r c k hr hc hk).1
    · rw [List.mem_singleton.mp hl]
      exact fun r c k hr hc hk => (h3 r c k hr hc hk).1) x _ (fun r c k hr hc hk => (h1 r c k hr hc hk).1) hy hm (by rw [hsteps]; omega)
  refine ⟨_, hy, fun c hc => ?_⟩
  obtain ⟨f1, d1⟩ := hn' 0 c 0 (by show 0 < x.rows; omega) (by show c < w.cols; omega) (by show 0 < x.chans; omega)
  have hval : t.get 0 c 0 = ∑ i ∈ Finset.range n, real (x.get 0 i 0) * real (w.get i c 0) + real (b.get 0 c 0) := by
    have hm1 : matmul (reals x) ⟨w.rows, w.cols, w.chans, fun r c k => real (w.get r c k)⟩ =
        some ⟨x.rows, w.cols, x.chans, fun r c k => sumLoop x.cols fun i => real (x.get r i k) * real (w.get i c k)⟩ := by
      unfold matmul reals
      dsimp only
      rw [if_neg (by rw [x2, w1]; simp), if_neg (by rw [x3, w3]; simp)]
    have hm2 : Views.add (⟨x.rows, w.cols, x.chans, fun r c k => sumLoop x.cols fun i => real (x.get r i k) * real (w.get i c k)⟩ : Tensor ℝ)
        ⟨b.rows, b.cols, b.chans, fun r c k => real (b.get r c k)⟩ =
        some ⟨x.rows, w.cols, x.chans, fun r c k => (sumLoop x.cols fun i => real (x.get r i k) * real (w.get i c k)) + real (b.get r c k)⟩ := by
      unfold Views.add zip
      rw [if_neg]
      dsimp only
      rw [x1, x3, w2, b1, b2, b3]
      simp
    simp only [Layers.predict, List.map_cons, List.map_nil, Layers.forwardAll, exact, Layers.Layer.forward, Layers.Dense.forward, Layers.Bias.forward, hm1,
      hm2, Option.map_some, Option.bind_some, Option.some.injEq] at et
    rw [← et]
    show (sumLoop x.cols fun i => real (x.get 0 i 0) * real (w.get i c 0)) + real (b.get 0 c 0) = _
    rw [sumLoop_eq_sum, x2]
  refine ⟨f1, ?_⟩
  rw [hval] at d1
  refine le_trans d1 ?_
  have q1 : (size [.dense w, .bias b] (sizes x)).get 0 c 0 ≤ n + 1 := by
    show ∑ i ∈ Finset.range x.cols, |real (x.get 0 i 0)| * |real (w.get i c 0)| + |real (b.get 0 c 0)| ≤ n + 1
    rw [x2]
    have := hsz 0 c 0 (by omega) hc (by omega)
    have := (h3 0 c 0 (by omega) (by omega) (by omega)).2
    linarith
  have q2 : (tiny [.dense w, .bias b] (zeros x)).get 0 c 0 = n := by
    show ∑ i ∈ Finset.range x.cols, ((zeros x).get 0 i 0 * |real (w.get i c 0)| + 1) = n
    rw [x2, hti]
  rw [q2, hsteps]
  push_cast
  have : ((n : ℝ) + 2) / 2 ^ 23 * (size [.dense w, .bias b] (sizes x)).get 0 c 0 ≤ ((n : ℝ) + 2) / 2 ^ 23 * (n + 1) :=
    mul_le_mul_of_nonneg_left q1 (by positivity)
  calc _ ≤ ((n : ℝ) + 2) / 2 ^ 23 * (n + 1) + n / 2 ^ 149 := by linarith
    _ = _ := by ring

/-! ### Without the conditions -/

/-- A row and a column of floats. -/
def row (l : List F32) : Tensor F32 := ⟨1, l.length, 1, fun _ c _ => l.getD c 0⟩
def column (l : List F32) : Tensor F32 := ⟨l.length, 1, 1, fun r _ _ => l.getD r 0⟩

/-- `2^127`, `2`, `-2`, `2^24`, `-2^24`, `1` -/
def huge : F32 := ⟨0x7F000000#32⟩
def two : F32 := ⟨0x40000000#32⟩
def minusTwo : F32 := ⟨0xC0000000#32⟩
def big : F32 := ⟨0x4B800000#32⟩
def minusBig : F32 := ⟨0xCB800000#32⟩
def one : F32 := ⟨0x3F800000#32⟩

theorem finite_consts : Finite huge ∧ Finite two ∧ Finite minusTwo ∧ Finite big ∧ Finite one := by decide

theorem real_of (b : BitVec 32) (n : Int) (h : value b = n * 2 ^ 149) : real ⟨b⟩ = n := by
  unfold real
  rw [h, Int.cast_mul, Int.cast_pow]
  rw [show ((2 : Int) : ℝ) = 2 by norm_num, mul_div_cancel_right₀ _ (by positivity)]

/-- **C126 fails for large numbers**: a full layer with finite inputs and weights predicts NaN, although the exact prediction is 0. -/
theorem C126_overflow_violated :
    Every Finite (row [huge, huge]) ∧ Every Finite (column [two, minusTwo]) ∧
      (∃ y, FloatNetwork.predict [.dense (column [two, minusTwo])] (row [huge, huge]) = some y ∧ y.get 0 0 0 = F32.nan) ∧
      ∑ i ∈ Finset.range 2, real ((row [huge, huge]).get 0 i 0) * real ((column [two, minusTwo]).get i 0 0) = 0 := by
  refine ⟨?_, ?_, ⟨_, rfl, by decide +kernel⟩, ?_⟩
  · intro r c k _ hc _
    have hc : c < 2 := hc
    rcases (by omega : c = 0 ∨ c = 1) with rfl | rfl
    · exact finite_consts.1
    · exact finite_consts.1
  · intro r c k hr _ _
    have hr : r < 2 := hr
    rcases (by omega : r = 0 ∨ r = 1) with rfl | rfl
    · exact finite_consts.2.1
    · exact finite_consts.2.2.1
  · rw [Finset.sum_range_succ, Finset.sum_range_one]
    show real huge * real two + real huge * real minusTwo = 0
    rw [show real two = 2 from (real_of 0x40000000#32 2 (by decide +kernel)).trans (by norm_num),
      show real minusTwo = -2 from (real_of 0xC0000000#32 (-2) (by decide +kernel)).trans (by norm_num)]
    ring

/-- **The error is relative to the numbers that are added up, not to the result**: 2^24 + 1 - 2^24 is predicted as 0 although it is 1. -/
theorem C126_relative_violated :
    (∃ y, FloatNetwork.predict [.dense (column [one, one, one])] (row [big, one, minusBig]) = some y ∧ real (y.get 0 0 0) = 0) ∧
      ∑ i ∈ Finset.range 3, real ((row [big, one, minusBig]).get 0 i 0) * real ((column [one, one, one]).get i 0 0) = 1 := by
  have h1 : real one = 1 :=
    (real_of 0x3F800000#32 1 (by decide +kernel)).trans (by norm_num)
  have h2 : real big = 16777216 :=
    (real_of 0x4B800000#32 16777216 (by decide +kernel)).trans (by norm_num)
  have h3 : real minusBig = -16777216 :=
    (real_of 0xCB800000#32 (-16777216) (by decide +kernel)).trans (by norm_num)
  refine ⟨⟨_, rfl, ?_⟩, ?_⟩
  · have : (sumLoop 3 fun i => (row [big, one, minusBig]).get 0 i 0 * (column [one, one, one]).get i 0 0) = 0 := by decide +kernel
    exact (congrArg real this).trans real_zero
  · rw [Finset.sum_range_succ, Finset.sum_range_succ, Finset.sum_range_one]
    show real big * real one + real one * real one + real minusBig * real one = 1
    rw [h1, h2, h3]
    norm_num

/-- The conditions of C126 hold for two layers with leaky relu between them. -/
example : let net := [Layer.dense (column [two, minusTwo]), .activation .leaky, .dense (column [one]), .bias (column [two]), .activation .relu]
    (∀ l ∈ net, FiniteLayer l) ∧ Every Finite (row [one, big]) ∧ Moderate net (row [one, big]) ∧ steps net = 8 ∧
      (FloatNetwork.predict net (row [one, big])).isSome := by
  have h1 : real one = 1 :=
    (real_of 0x3F800000#32 1 (by decide +kernel)).trans (by norm_num)
  have h2 : real big = 16777216 :=
    (real_of 0x4B800000#32 16777216 (by decide +kernel)).trans (by norm_num)
  have h3 : real minusTwo = -2 :=
    (real_of 0xC0000000#32 (-2) (by decide +kernel)).trans (by norm_num)
  have h4 : real two = 2 :=
    (real_of 0x40000000#32 2 (by decide +kernel)).trans (by norm_num)
  intro net
  refine ⟨?_, ?_, ?_, rfl, rfl⟩
  · intro l hl
    have hl : l = .dense (column [two, minusTwo]) ∨ l = .activation .leaky ∨ l = .dense (column [one]) ∨ l = .bias (column [two]) ∨ l = .activation .relu := by
      simpa [net] using hl
    rcases hl with rfl | rfl | rfl | rfl | rfl
    · intro r c k hr _ _
      have hr : r < 2 := hr
      rcases (by omega : r = 0 ∨ r = 1) with rfl | rfl
      · exact finite_consts.2.1
      · exact finite_consts.2.2.1
    · trivial
    · intro r c k hr _ _
      have hr : r < 1 := hr
      rcases (by omega : r = 0) with rfl
      exact finite_consts.2.2.2.2
    · intro r c k hr _ _
      have hr : r < 1 := hr
      rcases (by omega : r = 0) with rfl
      exact finite_consts.2.1
    · trivial
  · intro r c k _ hc _
    have hc : c < 2 := hc
    rcases (by omega : c = 0 ∨ c = 1) with rfl | rfl
    · exact finite_consts.2.2.2.2
    · exact finite_consts.2.2.2.1
  · intro n hn
    have hn : n ≤ 5 := hn
    rcases (by omega : n = 0 ∨ n = 1 ∨ n = 2 ∨ n = 3 ∨ n = 4 ∨ n = 5) with rfl | rfl | rfl | rfl | rfl | rfl <;>
    · constructor
      all_goals
        intro r c k hr hc hk
        have hr : r < 1 := hr
        obtain rfl : r = 0 := by omega
        first
        | (have hc : c < 2 := hc
           rcases (by omega : c = 0 ∨ c = 1) with rfl | rfl <;>
             norm_num [size, tiny, sizeAfter, tinyAfter, sizes, zeros, row, column, net, h1, h2])
        | norm_num [size, tiny, sizeAfter, tinyAfter, sizes, zeros, row, column, net, h1, h2, h3, h4, Finset.sum_range_succ]

end Verif.Rounding
