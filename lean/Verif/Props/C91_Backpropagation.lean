import Verif.Lemmas.Network

/-!
C91. The error that reaches a layer during training is the gradient of the loss, for chains of dense, bias, activation and flatten layers
of any length and shape. Exact real arithmetic.
-/
namespace Verif.Layers
open Verif Views Calculus

/-! ### Lemmas -/

theorem setAll_self (ns : List Node) (P : Nat → Tensor ℝ) (h : ∀ i n, ns[i]? = some n → P i = n.layer.params) : setAll ns P = ns := by
  induction ns generalizing P with
  | nil => rfl
  | cons n rest ih =>
    simp only [setAll]
    rw [ih _ fun i m hm => h (i + 1) m (by simpa using hm), h 0 n rfl, withParams_self]

theorem setAll_set (ns : List Node) (i : Nat) (n : Node) (p : Tensor ℝ) (P : Nat → Tensor ℝ) (hn : ns[i]? = some n) (hi : P i = p)
    (h : ∀ j m, j ≠ i → ns[j]? = some m → P j = m.layer.params) :
    setAll ns P = ns.set i { n with layer := n.layer.withParams p } := by
  induction ns generalizing i P with
  | nil => simp at hn
  | cons m rest ih =>
    cases i with
    | zero =>
      simp only [List.getElem?_cons_zero, Option.some.injEq] at hn
      subst hn
      simp only [setAll, List.set_cons_zero, hi]
      rw [setAll_self rest _ fun j m hm => h (j + 1) m (by omega) (by simpa using hm)]
    | succ i =>
      simp only [setAll, List.set_cons_succ]
      rw [ih i _ (by simpa using hn) hi fun j m hj hm => h (j + 1) m (by omega) (by simpa using hm), h 0 m (by omega) rfl, withParams_self]

theorem IsGradient_iff (L : Tensor ℝ → Option ℝ) (p g : Tensor ℝ) :
    IsGradient L p g ↔ Shape g p ∧ ∀ q v, Path q p v → ∃ f : ℝ → ℝ, (∀ s, L (q s) = some (f s)) ∧ HasDerivAt f (Calculus.inner g v) 0 :=
  ⟨fun h => ⟨h.1, fun q v hp => h.2 q v hp.1 hp.2.1 hp.2.2⟩, fun h => ⟨h.1, fun q v a b c => h.2 q v ⟨a, b, c⟩⟩⟩

theorem regularised_shape {l : Layer} {data err : Tensor ℝ} (h : Regularised l data err) : Shape err data := by
  unfold Regularised at h
  split at h
  · split at h
    · subst h; exact ⟨rfl, rfl, rfl⟩
    · have hs := add_inv h
      rw [add_some hs] at h
      obtain rfl := Option.some.inj h
      exact ⟨rfl, rfl, rfl⟩
  · subst h; exact ⟨rfl, rfl, rfl⟩

/-- The queued error is the gradient of the penalised loss. -/
theorem regularised_gradient {l : Layer} {data err : Tensor ℝ} {M : Tensor ℝ → Option ℝ} (h : IsGradient M l.params data)
    (hr : Regularised l data err) : IsGradient (fun p => (M p).map fun v => v + l.penalty p) l.params err := by
  have h0 : IsGradient (fun p => (M p).map fun v => v + 0) l.params data := by
    have : (fun p => (M p).map fun v => v + 0) = M := by funext p; simp
    rw [this]; exact h
  unfold Regularised at hr
  unfold Layer.penalty
  cases l with
  | dense d =>
    simp only at hr ⊢
    cases hs : d.strength with
    | none => simp only [hs] at hr ⊢; subst hr; exact h0
    | some s =>
      simp only [hs] at hr ⊢
      obtain ⟨g', hg, hgr⟩ := penalised h s
      have hw : Layer.params (.dense d) = d.weights := rfl
      rw [hw, hr] at hg
      obtain rfl := Option.some.inj hg
      exact hgr
  | bias b => simp only at hr ⊢; subst hr; exact h0
  | activation k q => simp only at hr ⊢; subst hr; exact h0
  | flatten r c => simp only at hr ⊢; subst hr; exact h0

theorem alike_at {ns ns2 : List Node} (h : AlikeAll ns ns2) (i : Nat) (n n2 : Node) (h1 : ns[i]? = some n) (h2 : ns2[i]? = some n2) :
    n2.clip = n.clip ∧ Alike n.layer n2.layer := by
  induction h generalizing i with
  | nil => simp at h1
  | cons h _ ih =>
    cases i with
    | zero =>
      simp only [List.getElem?_cons_zero, Option.some.injEq] at h1 h2
      subst h1 h2; exact h
    | succ i => exact ih i (by simpa using h1) (by simpa using h2)

/-! ### C91 -/

/-- C91. The total derivative: when the input and all parameters move along differentiable paths, the loss changes at the rate given by the
errors that `backward` computes: the error returned for the input and, for each layer, the part of the queued error that comes from the
data (`Regularised` adds the layer's penalty). Clipping divides errors by factors of at least 1. -/
theorem C91_total_derivative (ns : List Node) (x y e : Tensor ℝ) (L : Tensor ℝ → Option ℝ) (hr : Ready ns) (hreg : Regular ns x)
    (hy : predict ns x = some y) (he : IsGradient L y e) :
    ∃ (ns1 ns2 : List Node) (g : Tensor ℝ) (E : Nat → Tensor ℝ) (k0 : ℝ) (k : Nat → ℝ),
      forwardAll ns x true = some (y, ns1) ∧ backwardAll ns1 e = some (g, ns2) ∧ Shape g x ∧
      (1 ≤ k0 ∧ ∀ i, 1 ≤ k i) ∧ (Unclipped ns → k0 = 1 ∧ ∀ i, k i = 1) ∧
      (∀ i n, ns[i]? = some n → n.layer.trainable = true → Shape (E i) n.layer.params ∧ ∃ n2 err, ns2[i]? = some n2 ∧
        n2.layer.params = n.layer.params ∧ n2.layer.queued = n.layer.queued ++ [err] ∧ Regularised n.layer (E i) err) ∧
      ∀ (qx : ℝ → Tensor ℝ) (vx : Tensor ℝ) (qp : Nat → ℝ → Tensor ℝ) (vp : Nat → Tensor ℝ), Path qx x vx →
        (∀ i n, ns[i]? = some n → Path (qp i) n.layer.params (vp i)) →
        ∃ f : ℝ → ℝ, (∀ s, lossOf (setAll ns fun i => qp i s) (qx s) L = some (f s)) ∧
          HasDerivAt f (k0 * Calculus.inner g vx + ∑ i ∈ Finset.range ns.length, k i * Calculus.inner (E i) (vp i)) 0 := by
  have hf0 := predict_training ns x
  rw [hy] at hf0
  obtain ⟨⟨y', ns1⟩, hf, hy'⟩ := Option.map_eq_some_iff.mp hf0
  clear hf0
  simp only at hy'
  subst hy'
  obtain ⟨hse, he⟩ := (IsGradient_iff L y' e).mp he
  obtain ⟨g, ns2, E, k0, k, hb, hsg, hal, _, hk0, hk, herr, hj⟩ := chain_joint ns x y' ns1 hr hreg hf e hse
  refine ⟨ns1, ns2, g, E, k0, k, hf, hb, hsg, ⟨hk0.1, fun i => (hk i).1⟩, fun hu => ⟨hk0.2 hu, fun i => (hk i).2 hu⟩, ?_, ?_⟩
  · intro i n hn ht
    obtain ⟨h1, n2, h2, h3⟩ := herr i n hn
    obtain ⟨err, h4, h5⟩ := h3 ht
    exact ⟨h1, n2, err, h2, (alike_at hal i n n2 hn h2).2.params, h4, h5⟩
  · intro qx vx qp vp hx hp
    obtain ⟨z, vz, hz, hpz, hin⟩ := hj qx vx qp vp hx hp
    obtain ⟨f, hff, hfd⟩ := he z vz hpz
    exact ⟨f, fun s => by unfold lossOf; rw [hz s]; exact hff s, hfd.congr_deriv hin⟩

/-- C91. Without clipping, the error returned for the input is the gradient of the loss with respect to the input, and the error queued by
each dense and bias layer is the gradient of the loss plus the layer's penalty with respect to its parameters. -/
theorem C91_gradient_partial (ns : List Node) (x y e : Tensor ℝ) (L : Tensor ℝ → Option ℝ) (hr : Ready ns) (hu : Unclipped ns) (hreg : Regular ns x)
    (hy : predict ns x = some y) (he : IsGradient L y e) :
    ∃ (ns1 ns2 : List Node) (g : Tensor ℝ), forwardAll ns x true = some (y, ns1) ∧ backwardAll ns1 e = some (g, ns2) ∧
      IsGradient (fun x' => lossOf ns x' L) x g ∧
      ∀ i n, ns[i]? = some n → n.layer.trainable = true → ∃ n2 err, ns2[i]? = some n2 ∧
        n2.layer.params = n.layer.params ∧ n2.layer.queued = n.layer.queued ++ [err] ∧
        IsGradient (fun p => (lossOf (ns.set i { n with layer := n.layer.withParams p }) x L).map fun v => v + n.layer.penalty p)
          n.layer.params err := by
  obtain ⟨ns1, ns2, g, E, k0, k, hf, hb, hsg, _, hk, herr, hj⟩ := C91_total_derivative ns x y e L hr hreg hy he
  obtain ⟨hk0, hk⟩ := hk hu
  have hpar : ∀ i n, ns[i]? = some n → paramsAt ns i = n.layer.params := by
    intro i n hn; unfold paramsAt; rw [hn]
  refine ⟨ns1, ns2, g, hf, hb, ?_, ?_⟩
  · refine (IsGradient_iff _ _ _).mpr ⟨hsg, fun q v hp => ?_⟩
    obtain ⟨f, h1, h2⟩ := hj q v (fun i _ => paramsAt ns i) (fun i => ⟨(paramsAt ns i).rows, (paramsAt ns i).cols, (paramsAt ns i).chans, fun _ _ _ => 0⟩) hp
      (fun i n hn => by rw [← hpar i n hn]; exact Path.const _)
    refine ⟨f, fun s => ?_, h2.congr_deriv ?_⟩
    · rw [← h1 s, setAll_self ns _ fun i n hn => hpar i n hn]
    · simp [hk0, inner_zero]
  · intro i n hn ht
    obtain ⟨hsE, n2, err, h1, h2, h3, h4⟩ := herr i n hn ht
    refine ⟨n2, err, h1, h2, h3, regularised_gradient ?_ h4⟩
    refine (IsGradient_iff _ _ _).mpr ⟨hsE, fun q v hp => ?_⟩
    obtain ⟨f, f1, f2⟩ := hj (fun _ => x) ⟨x.rows, x.cols, x.chans, fun _ _ _ => 0⟩
      (fun j s => if j = i then q s else paramsAt ns j)
      (fun j => if j = i then v else ⟨(paramsAt ns j).rows, (paramsAt ns j).cols, (paramsAt ns j).chans, fun _ _ _ => 0⟩) (Path.const x)
      (fun j m hm => by
        by_cases hji : j = i
        · subst hji
          rw [hn] at hm
          obtain rfl := Option.some.inj hm
          simp only [if_true]; exact hp
        · simp only [hji, if_false]
          rw [← hpar j m hm]; exact Path.const _)
    refine ⟨f, fun s => ?_, f2.congr_deriv ?_⟩
    · rw [← f1 s]
      rw [setAll_set ns i n (q s) _ hn (by simp) fun j m hj hm => by simp only [hj, if_false]; exact hpar j m hm]
    · have hi : i < ns.length := by
        by_contra h
        rw [List.getElem?_eq_none (by omega)] at hn
        cases hn
      rw [inner_zero, mul_zero, zero_add, Finset.sum_eq_single_of_mem i (Finset.mem_range.mpr hi)]
      · simp [hk]
      · intro j _ hj
        simp [hj, inner_zero]

/-- A network with two dense layers, biases and a sigmoid: two inputs, two hidden values, one output. -/
noncomputable def exampleNet : List Node :=
  [⟨.dense ⟨⟨2, 2, 1, fun r c _ => r + 2 * c⟩, 0, some 1, [], []⟩, none⟩, ⟨.bias ⟨⟨1, 2, 1, fun _ _ _ => 1⟩, 0, []⟩, none⟩, ⟨.activation .sigmoid [], none⟩,
    ⟨.dense ⟨⟨2, 1, 1, fun r _ _ => r⟩, 1, none, [], []⟩, none⟩]

/-- The hypotheses of `C91_gradient_partial` hold for a network with a regularised dense layer, a bias layer, an activation and a second
dense layer, for every loss with a gradient. -/
example (x y e : Tensor ℝ) (hx : x.rows = 1 ∧ x.cols = 2 ∧ x.chans = 1) (L : Tensor ℝ → Option ℝ) :
    Ready exampleNet ∧ Unclipped exampleNet ∧ Regular exampleNet x ∧ (predict exampleNet x).isSome := by
  refine ⟨?_, ?_, ?_, ?_⟩
  · intro n hn
    simp only [exampleNet, List.mem_cons, List.not_mem_nil, or_false] at hn
    rcases hn with rfl | rfl | rfl | rfl <;> simp [Layer.Clean]
  · intro n hn
    simp only [exampleNet, List.mem_cons, List.not_mem_nil, or_false] at hn
    rcases hn with rfl | rfl | rfl | rfl <;> rfl
  · refine ⟨trivial, fun _ _ => ⟨trivial, fun _ _ => ⟨⟨by decide, fun h => by rcases h with h | h <;> cases h⟩, fun _ _ => ⟨trivial, fun _ _ => trivial⟩⟩⟩⟩
  · simp [predict, exampleNet, forwardAll, Layer.forward, Dense.forward, Bias.forward, matmul, add, Views.zip, hx, Activation.activate, map]

/-- C91. A tensor with several rows and channels can be flattened, but no error of the result's shape can be sent back: training a network
that flattens the channels of a convolution throws. -/
theorem C91_flatten_violated (x e : Tensor ℝ) (h1 : x.rows ≠ 1) (h2 : x.chans ≠ 1) (h3 : 0 < x.rows * x.cols)
    (he : Shape e (flattenForward x)) : flattenBackward x.rows x.cols e = none := by
  unfold flattenForward at he
  rw [if_neg h1] at he
  obtain ⟨e1, e2, _⟩ := he
  have e1 : e.rows = 1 := e1
  have e2 : e.cols = x.rows * x.cols * x.chans := e2
  unfold flattenBackward reshape
  rw [if_neg fun h => h1 (h.1.trans e1), if_pos]
  rw [e1, e2, Nat.one_mul]
  intro h
  exact h2 (Nat.eq_of_mul_eq_mul_left h3 (by rw [h, Nat.mul_one]))

/-- The two channels of a 2×1 tensor. -/
example : ∃ x e : Tensor ℝ, x.rows ≠ 1 ∧ x.chans ≠ 1 ∧ 0 < x.rows * x.cols ∧ Shape e (flattenForward x) :=
  ⟨⟨2, 1, 2, fun r _ k => r + k⟩, ⟨1, 4, 1, fun _ c _ => c⟩, by decide, by decide, by decide, rfl, rfl, rfl⟩

end Verif.Layers
