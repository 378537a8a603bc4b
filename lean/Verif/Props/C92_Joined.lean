import Verif.Lemmas.Joined

/-!
C91, C92 and C94 for networks with several inputs that are joined by concatenation (trees of layers): what `backward` computes is the
gradient, a batch moves the parameters against the gradient of the mean loss, and predictions leave no trace. Exact real arithmetic.
-/
namespace Verif.Layers
open Verif Views Calculus

/-! ### Lemmas -/

theorem setAll_loss {t : Net} {P : Nat → Tensor ℝ} {given : List (Tensor ℝ)} {L : Tensor ℝ → Option ℝ} {z : Tensor ℝ} (hl : given.length = t.heads)
    (h : (t.setAll P).out given = some z) : (t.setAll P).lossOf given L = L z := by
  unfold Net.lossOf
  rw [predict_eq, heads_setAll, if_neg (not_not.mpr hl), h, Option.bind_some]

theorem predict_some {t : Net} {given : List (Tensor ℝ)} {y : Tensor ℝ} (h : t.predict given = some y) :
    given.length = t.heads ∧ ∃ t1, t.forward given true = some (y, t1) := by
  rw [predict_eq] at h
  by_cases hl : given.length = t.heads
  · rw [if_neg (not_not.mpr hl), ← net_training] at h
    obtain ⟨⟨y', t1⟩, hf, hy'⟩ := Option.map_eq_some_iff.mp h
    simp only at hy'
    subst hy'
    exact ⟨hl, t1, hf⟩
  · rw [if_pos hl] at h
    cases h

theorem net_record {t : Net} {r : Inputs} (hr : t.Ready) (hu : t.Unclipped) (hg : r.Good t) :
    ∃ (t2 : Net) (E : Nat → Tensor ℝ) (k : Nat → ℝ), t.trainRecord r.given r.derivative = some t2 ∧ AlikeNet t t2 ∧ Queued t.layers t2.layers E k ∧
      ∀ qp vp, Paths t.layers qp vp → ∃ f : ℝ → ℝ, (∀ s, (t.setAll fun i => qp i s).lossOf r.given r.loss = some (f s)) ∧
        HasDerivAt f (∑ i ∈ Finset.range t.layers.length, Calculus.inner (E i) (vp i)) 0 := by
  obtain ⟨hreg, y, e, hy, hd, he⟩ := hg
  obtain ⟨hl, t1, hf⟩ := predict_some hy
  obtain ⟨hse, he⟩ := (IsGradient_iff _ _ _).mp he
  obtain ⟨t2, E, k, hb, hal, hqd, hk, hj⟩ := net_joint t r.given y t1 hr.1 hr.2 hreg hf e hse
  refine ⟨t2, E, k, ?_, hal, hqd, fun qp vp hp => ?_⟩
  · unfold Net.trainRecord Net.predicting
    rw [if_neg (not_not.mpr hl), hf, Option.bind_some, hd, Option.bind_some, hb]
  · obtain ⟨z, vz, hz, hpz, hin⟩ := hj qp vp hp
    obtain ⟨f, hff, hfd⟩ := he z vz hpz
    refine ⟨f, fun s => by rw [setAll_loss hl (hz s)]; exact hff s, hfd.congr_deriv ?_⟩
    rw [hin]
    exact Finset.sum_congr rfl fun i _ => by rw [hk hu, one_mul]

/-- All records of a batch: one error per record is queued, in order. -/
theorem net_records : ∀ (rs : List Inputs) (t : Net), t.Ready → t.Unclipped → (∀ r ∈ rs, r.Good t) →
    ∃ (t2 : Net) (D : List (Nat → Tensor ℝ)),
      (rs.map fun r => (r.given, r.derivative)).foldlM (fun t r => Net.trainRecord t r.1 r.2) t = some t2 ∧ AlikeNet t t2 ∧ t2.Ready ∧
      D.length = rs.length ∧
      (∀ i n, t.layers[i]? = some n → (∀ d ∈ D, Shape (d i) n.layer.params) ∧ ∃ n2, t2.layers[i]? = some n2 ∧
        (n.layer.trainable = true → ∃ errs, n2.layer.queued = n.layer.queued ++ errs ∧ List.Forall₂ (fun d err => Regularised n.layer (d i) err) D errs)) ∧
      ∀ qp vp, Paths t.layers qp vp → ∃ f : ℝ → ℝ,
        (∀ s, (rs.mapM fun r => (t.setAll fun i => qp i s).lossOf r.given r.loss).map List.sum = some (f s)) ∧
        HasDerivAt f (D.map fun d => ∑ i ∈ Finset.range t.layers.length, Calculus.inner (d i) (vp i)).sum 0 := by
  intro rs
  induction rs with
  | nil =>
    intro t hr _ _
    exact ⟨t, [], rfl, AlikeNet.refl t, hr, rfl, fun i n hn => ⟨by simp, n, hn, fun _ => ⟨[], by simp, .nil⟩⟩,
      fun qp vp _ => ⟨fun _ => 0, fun s => rfl, by simpa using hasDerivAt_const (0 : ℝ) (0 : ℝ)⟩⟩
  | cons r rs ih =>
    intro t hr hu hg
    obtain ⟨t1, E, k, h1, h2, ⟨h3, _, h4⟩, h5⟩ := net_record hr hu (hg r List.mem_cons_self)
    obtain ⟨t2, D, g1, g2, g3, g4, g5, g6⟩ := ih t1 ⟨h3, h2.keeps.1 hr.2⟩ (h2.keeps.2.1 hu) fun r' hr' => h2.good (hg r' (List.mem_cons_of_mem _ hr'))
    refine ⟨t2, E :: D, ?_, h2.trans g2, g3, by simp [g4], ?_, ?_⟩
    · simp only [List.map_cons, List.foldlM_cons, h1]; exact g1
    · intro i n hn
      obtain ⟨a1, n1, a2, a3⟩ := h4 i n hn
      obtain ⟨b1, n2, b2, b3⟩ := g5 i n1 a2
      have hal := (alike_at h2.layers i n n1 hn a2).2
      refine ⟨fun d hd => ?_, n2, b2, fun ht => ?_⟩
      · rcases List.mem_cons.mp hd with rfl | hd
        · exact a1
        · rw [← hal.params]; exact b1 d hd
      · obtain ⟨err, c1, c2⟩ := a3 ht
        obtain ⟨errs, d1, d2⟩ := b3 (by rw [hal.trainable]; exact ht)
        refine ⟨err :: errs, by rw [d1, c1, List.append_assoc]; rfl, .cons c2 ?_⟩
        exact d2.imp fun d err' h => hal.regularised.mpr h
    · intro qp vp hp
      obtain ⟨f, f1, f2⟩ := h5 qp vp hp
      obtain ⟨f', f1', f2'⟩ := g6 qp vp (h2.layers.paths hp)
      refine ⟨fun s => f s + f' s, fun s => ?_, ?_⟩
      · have e1 : ∀ r : Inputs, (t1.setAll fun i => qp i s).lossOf r.given r.loss = (t.setAll fun i => qp i s).lossOf r.given r.loss := fun r => by
          unfold Net.lossOf; rw [(h2.setAll _).predict]
        have e2 := f1' s
        simp only [e1] at e2
        rw [List.mapM_cons, f1 s]
        obtain ⟨ls, hls, hsum⟩ := Option.map_eq_some_iff.mp e2
        rw [hls]
        simp [← hsum]
      · rw [List.map_cons, List.sum_cons]
        refine f2.add (f2'.congr_deriv ?_)
        rw [← h2.layers.length]

theorem net_batch (t : Net) (rs : List Inputs) (hr : t.Ready) (hu : t.Unclipped) (hq : NoErrors t.layers) (h0 : rs ≠ [])
    (hg : ∀ r ∈ rs, r.Good t) :
    ∃ (t2 : Net) (G : Nat → Tensor ℝ),
      (rs.map fun r => (r.given, r.derivative)).foldlM (fun t r => Net.trainRecord t r.1 r.2) t = some t2 ∧ AlikeNet t t2 ∧ t2.Ready ∧
      (∀ i n, t.layers[i]? = some n → Shape (G i) n.layer.params ∧ ∃ n2, t2.layers[i]? = some n2 ∧
        (n.layer.trainable = true → averageErrors n2.layer.queued = some (G i))) ∧
      ∀ qp vp, Paths t.layers qp vp → ∃ f : ℝ → ℝ, (∀ s, (t.setAll fun i => qp i s).objective rs = some (f s)) ∧
        HasDerivAt f (∑ i ∈ Finset.range t.layers.length, Calculus.inner (G i) (vp i)) 0 := by
  obtain ⟨t2, D, h1, h2, h3, h4, h5, h6⟩ := net_records rs t hr hu hg
  have hD : D ≠ [] := fun h => h0 (List.length_eq_zero_iff.mp (by rw [← h4, h]; rfl))
  choose G hG using averages hD hq h5
  refine ⟨t2, G, h1, h2, h3, fun i n hn => ⟨(hG i n hn).1, (hG i n hn).2.2⟩, fun qp vp hp => ?_⟩
  obtain ⟨f, f1, f2⟩ := h6 qp vp hp
  refine ⟨_, fun s => ?_, mean_deriv hp (fun i n hn => (hG i n hn).2.1) f2⟩
  obtain ⟨ls, l1, l2⟩ := Option.map_eq_some_iff.mp (f1 s)
  unfold Net.objective
  rw [l1, Option.map_some, l2, h4, layers_setAll]

theorem net_batch_eq {t t2 : Net} {rs : List Inputs} {o : Optimizer.Opt ℝ}
    (h : (rs.map fun r => (r.given, r.derivative)).foldlM (fun t r => Net.trainRecord t r.1 r.2) t = some t2) : t.batch o rs = t2.apply o := by
  unfold Net.batch Net.trainBatch
  rw [h, Option.bind_some]

theorem net_mbgd {t t2 : Net} {G : Nat → Tensor ℝ} {o : Optimizer.Opt ℝ} (ho : o.kind = .mbgd) (h2 : AlikeNet t t2)
    (h4 : ∀ i n, t.layers[i]? = some n → Shape (G i) n.layer.params ∧ ∃ n2, t2.layers[i]? = some n2 ∧
        (n.layer.trainable = true → averageErrors n2.layer.queued = some (G i))) :
    ∃ t', t2.apply o = some (t', o) ∧ AlikeNet (t.setAll fun i => along (t.params i) (G i) (-rateAt t.layers o i)) t' := by
  obtain ⟨ns', k1, k2⟩ := mbgd_batch ho h2.layers h4
  obtain ⟨ha, hs⟩ := net_apply t2 o
  rw [k1] at ha
  obtain ⟨⟨t', o'⟩, h5, h6⟩ := Option.map_eq_some_iff.mp ha
  simp only [Prod.mk.injEq] at h6
  obtain ⟨rfl, rfl⟩ := h6
  refine ⟨t', h5, (h2.setAll _).trans (SameNet.alike (hs t' o' h5) _ ?_)⟩
  exact (AlikeAll.setAll (AlikeAll.symm h2.layers) _).trans k2

/-! ### C91 -/

/-- C91 for joined networks. When all parameters move along differentiable paths, the loss changes at the rate given by the errors that
`backward` queues (without the penalties that `Regularised` adds). Clipping divides errors by factors of at least 1. -/
theorem C91_joined_total_derivative (t : Net) (given : List (Tensor ℝ)) (y e : Tensor ℝ) (L : Tensor ℝ → Option ℝ) (hr : t.Ready) (hreg : t.Regular given)
    (hy : t.predict given = some y) (he : IsGradient L y e) :
    ∃ (t1 t2 : Net) (E : Nat → Tensor ℝ) (k : Nat → ℝ),
      t.predicting given true = some (y, t1) ∧ t1.backward e = some t2 ∧ (∀ i, 1 ≤ k i) ∧ (t.Unclipped → ∀ i, k i = 1) ∧
      (∀ i n, t.layers[i]? = some n → n.layer.trainable = true → Shape (E i) n.layer.params ∧ ∃ n2 err, t2.layers[i]? = some n2 ∧
        n2.layer.params = n.layer.params ∧ n2.layer.queued = n.layer.queued ++ [err] ∧ Regularised n.layer (E i) err) ∧
      ∀ (qp : Nat → ℝ → Tensor ℝ) (vp : Nat → Tensor ℝ), (∀ i n, t.layers[i]? = some n → Path (qp i) n.layer.params (vp i)) →
        ∃ f : ℝ → ℝ, (∀ s, (t.setAll fun i => qp i s).lossOf given L = some (f s)) ∧
          HasDerivAt f (∑ i ∈ Finset.range t.layers.length, k i * Calculus.inner (E i) (vp i)) 0 := by
  obtain ⟨hl, t1, hf⟩ := predict_some hy
  obtain ⟨hse, he⟩ := (IsGradient_iff _ _ _).mp he
  obtain ⟨t2, E, k, hb, hal, hqd, hk, hj⟩ := net_joint t given y t1 hr.1 hr.2 hreg hf e hse
  refine ⟨t1, t2, E, k, ?_, hb, hqd.2.1, hk, fun i n hn ht => ?_, fun qp vp hp => ?_⟩
  · unfold Net.predicting
    rw [if_neg (not_not.mpr hl), hf]
  · obtain ⟨h1, n2, h2, h3⟩ := hqd.2.2 i n hn
    obtain ⟨err, h4, h5⟩ := h3 ht
    exact ⟨h1, n2, err, h2, (alike_at hal.layers i n n2 hn h2).2.params, h4, h5⟩
  · obtain ⟨z, vz, hz, hpz, hin⟩ := hj qp vp hp
    obtain ⟨f, hff, hfd⟩ := he z vz hpz
    exact ⟨f, fun s => by rw [setAll_loss hl (hz s)]; exact hff s, hfd.congr_deriv hin⟩

/-- C91 for joined networks. Without clipping, the error queued by each dense and bias layer, in whichever of the joined branches, is the
gradient of the loss plus the layer's penalty with respect to its parameters. -/
theorem C91_joined_partial (t : Net) (given : List (Tensor ℝ)) (y e : Tensor ℝ) (L : Tensor ℝ → Option ℝ) (hr : t.Ready) (hu : t.Unclipped)
    (hreg : t.Regular given) (hy : t.predict given = some y) (he : IsGradient L y e) :
    ∃ t1 t2 : Net, t.predicting given true = some (y, t1) ∧ t1.backward e = some t2 ∧
      ∀ i n, t.layers[i]? = some n → n.layer.trainable = true → ∃ n2 err, t2.layers[i]? = some n2 ∧
        n2.layer.params = n.layer.params ∧ n2.layer.queued = n.layer.queued ++ [err] ∧
        IsGradient (fun p => ((t.withParams i p).lossOf given L).map fun v => v + n.layer.penalty p) n.layer.params err := by
  obtain ⟨hl, t1, hf⟩ := predict_some hy
  have hyy := hy
  obtain ⟨hse, he⟩ := (IsGradient_iff _ _ _).mp he
  obtain ⟨t2, E, k, hb, hal, hqd, hk, hj⟩ := net_joint t given y t1 hr.1 hr.2 hreg hf e hse
  refine ⟨t1, t2, ?_, hb, fun i n hn ht => ?_⟩
  · unfold Net.predicting
    rw [if_neg (not_not.mpr hl), hf]
  · obtain ⟨h1, n2, h2, h3⟩ := hqd.2.2 i n hn
    obtain ⟨err, h4, h5⟩ := h3 ht
    refine ⟨n2, err, h2, (alike_at hal.layers i n n2 hn h2).2.params, h4, regularised_gradient ?_ h5⟩
    refine gradient_at (ns := t.layers) (obj := fun P => (t.setAll P).lossOf given L) (fun i n hn => (hqd.2.2 i n hn).1) (fun qp vp hp => ?_) i n hn
    obtain ⟨z, vz, hz, hpz, hin⟩ := hj qp vp hp
    obtain ⟨f, hff, hfd⟩ := he z vz hpz
    refine ⟨f, fun s => by rw [setAll_loss hl (hz s)]; exact hff s, hfd.congr_deriv ?_⟩
    rw [hin]
    exact Finset.sum_congr rfl fun i _ => by rw [hk hu, one_mul]

/-! ### C92 -/

/-- C92 for joined networks. The averaged error of each dense and bias layer is the gradient of the objective (the mean loss of the records
plus the penalties) with respect to the layer's parameters. -/
theorem C92_joined_gradient_partial (t : Net) (rs : List Inputs) (h0 : rs ≠ []) (hr : t.Ready) (hu : t.Unclipped) (hq : NoErrors t.layers)
    (hg : ∀ r ∈ rs, r.Good t) :
    ∃ t2, (rs.map fun r => (r.given, r.derivative)).foldlM (fun t r => Net.trainRecord t r.1 r.2) t = some t2 ∧
      ∀ i n, t.layers[i]? = some n → n.layer.trainable = true → ∃ n2 G, t2.layers[i]? = some n2 ∧ n2.layer.params = n.layer.params ∧
        averageErrors n2.layer.queued = some G ∧ IsGradient (fun p => (t.withParams i p).objective rs) n.layer.params G := by
  obtain ⟨t2, G, h1, h2, h3, h4, h5⟩ := net_batch t rs hr hu hq h0 hg
  refine ⟨t2, h1, fun i n hn ht => ?_⟩
  obtain ⟨_, n2, h6, h7⟩ := h4 i n hn
  exact ⟨n2, G i, h6, (alike_at h2.layers i n n2 hn h6).2.params, h7 ht,
    gradient_at (obj := fun P => (t.setAll P).objective rs) (fun i n hn => (h4 i n hn).1) h5 i n hn⟩

/-- C92 for joined networks. The optimizer is called once for each dense and bias layer, from the output to the inputs, the branches of a
join in order, with the layer's id, parameters and gradient; the results are the new parameters. Nothing else in the network changes, no
errors are kept, and the network is ready for the next batch. If one of the calls throws, so does the batch. -/
theorem C92_joined_apply_partial (t : Net) (o : Optimizer.Opt ℝ) (rs : List Inputs) (h0 : rs ≠ []) (hr : t.Ready) (hu : t.Unclipped)
    (hq : NoErrors t.layers) (hg : ∀ r ∈ rs, r.Good t) :
    ∃ G : Nat → Tensor ℝ,
      (∀ i n, t.layers[i]? = some n → n.layer.trainable = true → IsGradient (fun p => (t.withParams i p).objective rs) n.layer.params (G i)) ∧
      match Optimizer.run Real.sqrt o (calls t.layers G) with
      | none => t.batch o rs = none
      | some (o', log) => ∃ t', t.batch o rs = some (t', o') ∧ trained t'.layers = log.map (·.updated) ∧
          AlikeNet (t.setAll t'.params) t' ∧ NoErrors t'.layers ∧ t'.Ready := by
  obtain ⟨t2, G, h1, h2, h3, h4, h5⟩ := net_batch t rs hr hu hq h0 hg
  refine ⟨G, fun i n hn _ => gradient_at (obj := fun P => (t.setAll P).objective rs) (fun i n hn => (h4 i n hn).1) h5 i n hn, ?_⟩
  have h6 : ∀ i n, t2.layers[i]? = some n → n.layer.trainable = true → averageErrors n.layer.queued = some (G i) := by
    intro i m hm ht
    obtain ⟨n, hn, _⟩ := alike_get' h2.layers i m hm
    obtain ⟨_, m', h6, h7⟩ := h4 i n hn
    rw [hm] at h6
    obtain rfl := Option.some.inj h6
    exact h7 ((alike_at h2.layers i n m hn hm).2.trainable ▸ ht)
  have h7 := apply_run t2.layers G o h6
  rw [← calls_alike h2.layers] at h7
  rw [net_batch_eq h1]
  obtain ⟨ha, hs⟩ := net_apply t2 o
  cases hrun : Optimizer.run Real.sqrt o (calls t.layers G) with
  | none =>
    rw [hrun] at h7
    have h7 : applyAll t2.layers o = none := h7
    rw [h7] at ha
    exact Option.map_eq_none_iff.mp ha
  | some r =>
    obtain ⟨o', log⟩ := r
    rw [hrun] at h7
    obtain ⟨ns', k1, k2, k3, k4, k5⟩ := h7
    rw [k1] at ha
    obtain ⟨⟨t', o''⟩, h8, h9⟩ := Option.map_eq_some_iff.mp ha
    simp only [Prod.mk.injEq] at h9
    obtain ⟨rfl, rfl⟩ := h9
    have hal : AlikeNet (t2.setAll t'.params) t' := SameNet.alike (hs t' o'' h8) _ k2
    exact ⟨t', h8, k5, (h2.setAll _).trans hal, k3, k4 h3.1, hal.keeps.1 (sound_setAll t2 _ h3.2)⟩

/-- C92 for joined networks. With the mini-batch gradient descent optimizer, a batch subtracts from the parameters of each layer the gradient
of the objective times the learning rate for weights or for biases. -/
theorem C92_joined_mbgd_partial (t : Net) (o : Optimizer.Opt ℝ) (ho : o.kind = .mbgd) (rs : List Inputs) (h0 : rs ≠ []) (hr : t.Ready)
    (hu : t.Unclipped) (hq : NoErrors t.layers) (hg : ∀ r ∈ rs, r.Good t) :
    ∃ (G : Nat → Tensor ℝ) (t' : Net), t.batch o rs = some (t', o) ∧
      (∀ i n, t.layers[i]? = some n → n.layer.trainable = true → IsGradient (fun p => (t.withParams i p).objective rs) n.layer.params (G i)) ∧
      AlikeNet (t.setAll fun i => along (t.params i) (G i) (-rateAt t.layers o i)) t' := by
  obtain ⟨t2, G, h1, h2, h3, h4, h5⟩ := net_batch t rs hr hu hq h0 hg
  obtain ⟨t', k1, k2⟩ := net_mbgd ho h2 h4
  exact ⟨G, t', by rw [net_batch_eq h1, k1],
    fun i n hn _ => gradient_at (obj := fun P => (t.setAll P).objective rs) (fun i n hn => (h4 i n hn).1) h5 i n hn, k2⟩

/-- C92 for joined networks. Training makes progress: unless the objective is stationary, a batch with small enough learning rates (in any
proportion) makes the objective smaller. -/
theorem C92_joined_descent_partial (t : Net) (rs : List Inputs) (h0 : rs ≠ []) (hr : t.Ready) (hu : t.Unclipped) (hq : NoErrors t.layers)
    (hg : ∀ r ∈ rs, r.Good t) (hs : ¬ t.Stationary rs) (hyper : Optimizer.Hyper ℝ) (a b : ℝ) (ha : 0 < a) (hb : 0 < b) :
    ∃ before, t.objective rs = some before ∧ ∃ s0 > 0, ∀ s, 0 < s → s < s0 →
      ∃ t' o' after, t.batch (Optimizer.create .mbgd hyper (s * a) (s * b)) rs = some (t', o') ∧ t'.objective rs = some after ∧ after < before := by
  obtain ⟨t2, G, h1, h2, h3, h4, h5⟩ := net_batch t rs hr hu hq h0 hg
  obtain ⟨before, b1, s0, b2, b3⟩ := small_steps (obj := fun P => (t.setAll P).objective rs) (fun i n hn => (h4 i n hn).1) h5 hs hyper a b ha hb
  refine ⟨before, ?_, s0, b2, fun s hs1 hs2 => ?_⟩
  · rw [← b1]
    show _ = (t.setAll (paramsAt t.layers)).objective rs
    rw [net_setAll_self t _ fun i n hn => paramsAt_eq hn]
  obtain ⟨after, c1, c2⟩ := b3 s hs1 hs2
  obtain ⟨t', k1, k2⟩ := net_mbgd (o := Optimizer.create .mbgd hyper (s * a) (s * b)) rfl h2 h4
  exact ⟨t', _, after, by rw [net_batch_eq h1, k1], by rw [← k2.objective]; exact c1, c2⟩

/-! ### C94 -/

theorem net_after : ∀ (xs : List (List (Tensor ℝ))) (t t' : Net), t.afterPredictions xs = some t' →
    ∀ (z : List (Tensor ℝ)) (training : Bool), t'.predicting z training = t.predicting z training
  | [], t, t', h, z, _ => by obtain rfl := Option.some.inj h; rfl
  | x :: xs, t, t', h, z, training => by
    unfold Net.afterPredictions at h
    obtain ⟨r, h1, h2⟩ := Option.bind_eq_some_iff.mp h
    rw [net_after xs r.2 t' h2 z training]
    unfold Net.predicting at h1 ⊢
    split at h1
    · cases h1
    · obtain ⟨h3, h4⟩ := net_pure (y := r.1) (t' := r.2) h1
      rw [h3, h4]

/-- C94 for joined networks: after any predictions the network predicts the same, and training it with a batch of at least one record gives
the same network and optimizer as without the predictions. -/
theorem C94_joined (t t' : Net) (xs : List (List (Tensor ℝ))) (h : t.afterPredictions xs = some t') :
    (∀ z, t'.predict z = t.predict z) ∧
    ∀ (o : Optimizer.Opt ℝ) (record : List (Tensor ℝ) × (Tensor ℝ → Option (Tensor ℝ))) (records : List (List (Tensor ℝ) × (Tensor ℝ → Option (Tensor ℝ)))),
      t'.trainBatch o (record :: records) = t.trainBatch o (record :: records) := by
  have hf := net_after xs t t' h
  refine ⟨fun z => by unfold Net.predict; rw [hf], fun o record records => ?_⟩
  unfold Net.trainBatch
  have hr : t'.trainRecord record.1 record.2 = t.trainRecord record.1 record.2 := by unfold Net.trainRecord; rw [hf]
  rw [List.foldlM_cons, List.foldlM_cons, hr]

/-! ### An example -/

/-- A tensor with `n` rows and one column. -/
def tall (n : Nat) (v : ℝ) : Tensor ℝ := ⟨n, 1, 1, fun _ _ _ => v⟩

/-- Two inputs of one value each, each with its own weight; joined; one dense layer. All weights are `w`. -/
noncomputable def joinedNet (w : ℝ) : Net :=
  .layer ⟨.dense ⟨tall 2 w, 2, none, [], []⟩, none⟩
    (.join [1, 1] none (.cons (.layer ⟨.dense ⟨one w, 0, none, [], []⟩, none⟩ (.input 0)) (.cons (.layer ⟨.dense ⟨one w, 1, none, [], []⟩, none⟩ (.input 1)) .nil)))

theorem joinedNet_out (w a b : ℝ) : ∃ y, (joinedNet w).predict [one a, one b] = some y ∧ Shape y (one 1) ∧ y.get 0 0 0 = a * w * w + b * w * w := by
  refine ⟨_, rfl, ⟨rfl, rfl, rfl⟩, ?_⟩
  simp [sumLoop, one, tall, List.range_succ]

/-- The hypotheses of the theorems about training hold for this network, one record and the square of the distance to 3, and the objective is not
stationary. -/
example : ∃ (t : Net) (r : Inputs), r.given.length = 2 ∧ t.Ready ∧ t.Unclipped ∧ NoErrors t.layers ∧ r.Good t ∧ ¬ t.Stationary [r] := by
  refine ⟨joinedNet 1, ⟨[one 1, one 1], fun p => if p.rows = 1 ∧ p.cols = 1 ∧ p.chans = 1 then some ((p.get 0 0 0 - 3) ^ 2) else none,
    fun p => some (one (2 * (p.get 0 0 0 - 3)))⟩, rfl, ⟨?_, ?_⟩, ?_, ?_, ?_, ?_⟩
  · intro n hn
    simp only [joinedNet, Net.layers, Parts.layers, List.nil_append, List.append_assoc, List.cons_append, List.mem_cons, List.not_mem_nil, or_false] at hn
    rcases hn with rfl | rfl | rfl <;> exact ⟨rfl, by simp⟩
  · simp [joinedNet, Net.Sound, Parts.Sound]
  · simp [joinedNet, Net.Unclipped, Parts.Unclipped]
  · intro n hn
    simp only [joinedNet, Net.layers, Parts.layers, List.nil_append, List.append_assoc, List.cons_append, List.mem_cons, List.not_mem_nil, or_false] at hn
    rcases hn with rfl | rfl | rfl <;> rfl
  · obtain ⟨y, h1, h2, h3⟩ := joinedNet_out 1 1 1
    refine ⟨?_, y, _, h1, rfl, ?_⟩
    · simp only [joinedNet, Net.Regular, Parts.Regular, Layer.RegularAt, implies_true, and_true, true_and]
      intro ys hys
      have : (some ys : Option (List (Tensor ℝ))) = some [⟨1, 1, 1, fun _ _ _ => sumLoop 1 fun _ => 1 * 1⟩, ⟨1, 1, 1, fun _ _ _ => sumLoop 1 fun _ => 1 * 1⟩] := by
        rw [← hys]; rfl
      obtain rfl := Option.some.inj this
      simp
    · refine (IsGradient_iff _ _ _).mpr ⟨⟨h2.1.symm, h2.2.1.symm, h2.2.2.symm⟩, fun q v hp => ⟨fun s => ((q s).get 0 0 0 - 3) ^ 2, fun s => ?_, ?_⟩⟩
      · obtain ⟨a1, a2, a3⟩ := hp.1 s
        simp only
        rw [if_pos ⟨a1.trans h2.1, a2.trans h2.2.1, a3.trans h2.2.2⟩]
      · have hm : (0, 0, 0) ∈ places y := mem_places.mpr ⟨by rw [h2.1]; exact Nat.one_pos, by rw [h2.2.1]; exact Nat.one_pos, by rw [h2.2.2]; exact Nat.one_pos⟩
        have hq := ((hp.2.2 _ hm).sub_const 3).pow 2
        refine hq.congr_deriv ?_
        have h0 := hp.2.1 _ hm
        simp only [el] at h0 ⊢
        rw [h0]
        simp [Calculus.inner, total, places, el, one]
  · intro h
    have hd := h (fun _ => ⟨2, 1, 1, fun _ _ _ => 1⟩) (fun s => ((1 + s) * (1 + s) + (1 + s) * (1 + s) - 3) ^ 2) fun s => by
      have hset : ((joinedNet 1).setAll fun i => along ((joinedNet 1).params i) ⟨2, 1, 1, fun _ _ _ => 1⟩ s) = joinedNet (1 + s * 1) := rfl
      rw [hset]
      obtain ⟨y, h1, h2, h3⟩ := joinedNet_out (1 + s * 1) 1 1
      unfold Net.objective Net.lossOf
      simp only [List.mapM_cons, List.mapM_nil, h1, Option.bind_some, h3]
      rw [if_pos (show y.rows = 1 ∧ y.cols = 1 ∧ y.chans = 1 from h2)]
      simp [joinedNet, Net.layers, Parts.layers, Layer.penalty]
    have hd2 : HasDerivAt (fun s : ℝ => ((1 + s) * (1 + s) + (1 + s) * (1 + s) - 3) ^ 2) (-8) 0 := by
      have k := (hasDerivAt_id (0 : ℝ)).const_add 1
      have k2 := k.mul k
      refine (((k2.add k2).sub_const 3).pow 2).congr_deriv ?_
      simp
      norm_num
    have := hd.unique hd2
    norm_num at this

/-- C94: the network can predict. -/
example : ∃ t', (joinedNet 1).afterPredictions [[one 1, one 2], [one 3, one 4]] = some t' := ⟨_, rfl⟩

end Verif.Layers
