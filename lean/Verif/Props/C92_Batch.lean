import Verif.Props.C91_Backpropagation
import Verif.Props.C70_Optimizer
import Verif.Props.C67_Loss

/-!
C92. One batch of training moves the parameters against the gradient of the mean loss of the batch's records, and a small enough learning
rate makes that loss smaller. Exact real arithmetic, networks of C91.
-/
namespace Verif.Layers
open Verif Views Calculus

/-! ### Lemmas: what only depends on the parameters -/

theorem AlikeAll.refl (ns : List Node) : AlikeAll ns ns := by
  induction ns with
  | nil => exact .nil
  | cons n rest ih => exact .cons ⟨rfl, Alike.refl _⟩ ih

theorem AlikeAll.trans {a b c : List Node} (h : AlikeAll a b) (h' : AlikeAll b c) : AlikeAll a c := by
  induction h generalizing c with
  | nil => cases h'; exact .nil
  | cons h _ ih =>
    cases h' with
    | cons h' t' => exact .cons ⟨h'.1.trans h.1, h.2.trans h'.2⟩ (ih t')

theorem AlikeAll.predict {a b : List Node} (h : AlikeAll a b) (x : Tensor ℝ) : predict a x = predict b x := by
  induction h generalizing x with
  | nil => rfl
  | cons h _ ih =>
    rw [predict_cons, predict_cons, h.2.out]
    congr 1
    funext z; exact ih z

theorem AlikeAll.regular {a b : List Node} (h : AlikeAll a b) (x : Tensor ℝ) : Regular a x ↔ Regular b x := by
  induction h generalizing x with
  | nil => rfl
  | cons h _ ih =>
    simp only [Regular, h.2.regularAt x, h.2.out x]
    exact and_congr_right fun _ => forall_congr' fun z => imp_congr_right fun _ => ih z

theorem AlikeAll.setAll {a b : List Node} (h : AlikeAll a b) (P : Nat → Tensor ℝ) : AlikeAll (setAll a P) (setAll b P) := by
  induction h generalizing P with
  | nil => exact .nil
  | cons h _ ih => exact .cons ⟨h.1, h.2.withParams _⟩ (ih _)

theorem AlikeAll.good {a b : List Node} (h : AlikeAll a b) {r : Record} (hg : r.Good a) : r.Good b := by
  obtain ⟨h1, y, e, h2, h3⟩ := hg
  exact ⟨(h.regular _).mp h1, y, e, (h.predict _).symm.trans h2, h3⟩

theorem AlikeAll.objective {a b : List Node} (h : AlikeAll a b) (rs : List Record) : objective a rs = objective b rs := by
  have h1 : ∀ r : Record, lossOf a r.given r.loss = lossOf b r.given r.loss := fun r => by unfold lossOf; rw [h.predict]
  have h2 : (a.map fun n => n.layer.penalty n.layer.params) = b.map fun n => n.layer.penalty n.layer.params := by
    clear h1
    induction h with
    | nil => rfl
    | cons h _ ih => rw [List.map_cons, List.map_cons, ih, h.2.params, h.2.penalty]
  unfold Layers.objective
  simp only [h1, h2]

theorem AlikeAll.length {a b : List Node} (h : AlikeAll a b) : a.length = b.length := List.Forall₂.length_eq h

theorem alike_get {a b : List Node} (h : AlikeAll a b) (i : Nat) (n : Node) (hn : a[i]? = some n) :
    ∃ m, b[i]? = some m ∧ m.clip = n.clip ∧ Alike n.layer m.layer := by
  induction h generalizing i with
  | nil => simp at hn
  | cons h _ ih =>
    cases i with
    | zero => simp only [List.getElem?_cons_zero, Option.some.injEq] at hn; subst hn; exact ⟨_, rfl, h⟩
    | succ i => exact ih i (by simpa using hn)

theorem alike_get' {a b : List Node} (h : AlikeAll a b) (i : Nat) (m : Node) (hm : b[i]? = some m) :
    ∃ n, a[i]? = some n ∧ m.clip = n.clip ∧ Alike n.layer m.layer := by
  induction h generalizing i with
  | nil => simp at hm
  | cons h _ ih =>
    cases i with
    | zero => simp only [List.getElem?_cons_zero, Option.some.injEq] at hm; subst hm; exact ⟨_, rfl, h⟩
    | succ i => exact ih i (by simpa using hm)

theorem AlikeAll.unclipped {a b : List Node} (h : AlikeAll a b) (hu : Unclipped a) : Unclipped b := by
  intro m hm
  obtain ⟨i, hi⟩ := List.mem_iff_getElem?.mp hm
  obtain ⟨n, hn, hc, _⟩ := alike_get' h i m hi
  rw [hc]
  exact hu n (List.mem_of_getElem? hn)

/-- Paths for all parameters. -/
def Paths (ns : List Node) (qp : Nat → ℝ → Tensor ℝ) (vp : Nat → Tensor ℝ) : Prop :=
  ∀ i n, ns[i]? = some n → Path (qp i) n.layer.params (vp i)

theorem AlikeAll.paths {a b : List Node} (h : AlikeAll a b) {qp vp} (hp : Paths a qp vp) : Paths b qp vp := by
  intro i m hm
  obtain ⟨n, hn, _, hl⟩ := alike_get' h i m hm
  rw [hl.params]
  exact hp i n hn

/-! ### Lemmas: one record, then all records -/

theorem record_joint {ns : List Node} {r : Record} (hr : Ready ns) (hu : Unclipped ns) (hg : r.Good ns) :
    ∃ (ns2 : List Node) (E : Nat → Tensor ℝ), trainRecord ns r.given r.derivative = some ns2 ∧ AlikeAll ns ns2 ∧ Ready ns2 ∧
      (∀ i n, ns[i]? = some n → Shape (E i) n.layer.params ∧ ∃ n2, ns2[i]? = some n2 ∧
        (n.layer.trainable = true → ∃ err, n2.layer.queued = n.layer.queued ++ [err] ∧ Regularised n.layer (E i) err)) ∧
      ∀ qp vp, Paths ns qp vp → ∃ f : ℝ → ℝ, (∀ s, lossOf (setAll ns fun i => qp i s) r.given r.loss = some (f s)) ∧
        HasDerivAt f (∑ i ∈ Finset.range ns.length, Calculus.inner (E i) (vp i)) 0 := by
  obtain ⟨hreg, y, e, hy, hd, he⟩ := hg
  have hf0 := predict_training ns r.given
  rw [hy] at hf0
  obtain ⟨⟨y', ns1⟩, hf, hy'⟩ := Option.map_eq_some_iff.mp hf0
  clear hf0
  simp only at hy'
  subst hy'
  obtain ⟨hse, he⟩ := (IsGradient_iff _ _ _).mp he
  obtain ⟨g, ns2, E, k0, k, hb, hsg, hal, hrd, hk0, hk, herr, hj⟩ := chain_joint ns r.given y' ns1 hr hreg hf e hse
  refine ⟨ns2, E, by simp [trainRecord, hf, hd, hb], hal, hrd, herr, fun qp vp hp => ?_⟩
  obtain ⟨z, vz, hz, hpz, hin⟩ := hj (fun _ => r.given) _ qp vp (Path.const _) hp
  obtain ⟨f, hff, hfd⟩ := he z vz hpz
  refine ⟨f, fun s => by unfold lossOf; rw [hz s]; exact hff s, hfd.congr_deriv ?_⟩
  rw [hin, inner_zero, mul_zero, zero_add]
  exact Finset.sum_congr rfl fun i _ => by rw [(hk i).2 hu, one_mul]

/-- All records of a batch: one error per record is queued, in order. -/
theorem records_joint : ∀ (rs : List Record) (ns : List Node), Ready ns → Unclipped ns → (∀ r ∈ rs, r.Good ns) →
    ∃ (ns2 : List Node) (D : List (Nat → Tensor ℝ)),
      (rs.map fun r => (r.given, r.derivative)).foldlM (fun ns r => trainRecord ns r.1 r.2) ns = some ns2 ∧ AlikeAll ns ns2 ∧ Ready ns2 ∧
      D.length = rs.length ∧
      (∀ i n, ns[i]? = some n → (∀ d ∈ D, Shape (d i) n.layer.params) ∧ ∃ n2, ns2[i]? = some n2 ∧
        (n.layer.trainable = true → ∃ errs, n2.layer.queued = n.layer.queued ++ errs ∧ List.Forall₂ (fun d err => Regularised n.layer (d i) err) D errs)) ∧
      ∀ qp vp, Paths ns qp vp → ∃ f : ℝ → ℝ,
        (∀ s, (rs.mapM fun r => lossOf (setAll ns fun i => qp i s) r.given r.loss).map List.sum = some (f s)) ∧
        HasDerivAt f (D.map fun d => ∑ i ∈ Finset.range ns.length, Calculus.inner (d i) (vp i)).sum 0 := by
  intro rs
  induction rs with
  | nil =>
    intro ns hr _ _
    exact ⟨ns, [], rfl, AlikeAll.refl ns, hr, rfl, fun i n hn => ⟨by simp, n, hn, fun _ => ⟨[], by simp, .nil⟩⟩,
      fun qp vp _ => ⟨fun _ => 0, fun s => rfl, by simpa using hasDerivAt_const (0 : ℝ) (0 : ℝ)⟩⟩
  | cons r rs ih =>
    intro ns hr hu hg
    obtain ⟨ns1, E, h1, h2, h3, h4, h5⟩ := record_joint hr hu (hg r List.mem_cons_self)
    obtain ⟨ns2, D, g1, g2, g3, g4, g5, g6⟩ := ih ns1 h3 (h2.unclipped hu) fun r' hr' => h2.good (hg r' (List.mem_cons_of_mem _ hr'))
    refine ⟨ns2, E :: D, ?_, h2.trans g2, g3, by simp [g4], ?_, ?_⟩
    · simp only [List.map_cons, List.foldlM_cons, h1]; exact g1
    · intro i n hn
      obtain ⟨a1, n1, a2, a3⟩ := h4 i n hn
      obtain ⟨b1, n2, b2, b3⟩ := g5 i n1 a2
      have hal := (alike_at h2 i n n1 hn a2).2
      refine ⟨fun d hd => ?_, n2, b2, fun ht => ?_⟩
      · rcases List.mem_cons.mp hd with rfl | hd
        · exact a1
        · rw [← hal.params]; exact b1 d hd
      · obtain ⟨err, c1, c2⟩ := a3 ht
        obtain ⟨errs, d1, d2⟩ := b3 (by rw [hal.trainable]; exact ht)
        refine ⟨err :: errs, by rw [d1, c1, List.append_assoc]; rfl, .cons c2 ?_⟩
        exact d2.imp fun d err' h => hal.regularised.mpr h
    · intro qp vp hp
      obtain ⟨f, f1, f2⟩ := h5 qp vp hp
      obtain ⟨f', f1', f2'⟩ := g6 qp vp (h2.paths hp)
      refine ⟨fun s => f s + f' s, fun s => ?_, ?_⟩
      · have e1 : ∀ r : Record, lossOf (setAll ns1 fun i => qp i s) r.given r.loss = lossOf (setAll ns fun i => qp i s) r.given r.loss := fun r => by
          unfold lossOf; rw [(h2.setAll _).predict]
        have e2 := f1' s
        simp only [e1] at e2
        rw [List.mapM_cons, f1 s]
        obtain ⟨ls, hls, hsum⟩ := Option.map_eq_some_iff.mp e2
        rw [hls]
        simp [← hsum]
      · rw [List.map_cons, List.sum_cons]
        refine f2.add (f2'.congr_deriv ?_)
        rw [← h2.length]

/-! ### Lemmas: the average of the queue -/

theorem drain_eq {p : Tensor ℝ} : ∀ (q : List (Tensor ℝ)) (x : Tensor ℝ), Shape x p → (∀ y ∈ q, Shape y p) →
    ∃ t, drain (x :: q) = some t ∧ Shape t p ∧ ∀ i, el t i = el x i + (q.map fun y => el y i).sum := by
  intro q
  induction q with
  | nil => intro x hx _; exact ⟨x, rfl, hx, fun i => by simp⟩
  | cons y q ih =>
    intro x hx hq
    have hxy : Shape x y := Loss.Shape.trans hx ⟨(hq y List.mem_cons_self).1.symm, (hq y List.mem_cons_self).2.1.symm, (hq y List.mem_cons_self).2.2.symm⟩
    obtain ⟨t, h1, h2, h3⟩ := ih ⟨x.rows, x.cols, x.chans, fun r c k => x.get r c k + y.get r c k⟩ hx fun z hz => hq z (List.mem_cons_of_mem _ hz)
    refine ⟨t, ?_, h2, fun i => ?_⟩
    · rw [← h1]
      simp only [drain, List.foldlM_cons, add_some hxy, Option.bind_eq_bind, Option.bind_some]
    · rw [h3, List.map_cons, List.sum_cons, ← add_assoc]; rfl

theorem averageErrors_eq {p : Tensor ℝ} (q : List (Tensor ℝ)) (h0 : q ≠ []) (h : ∀ y ∈ q, Shape y p) :
    ∃ t, averageErrors q = some t ∧ Shape t p ∧ ∀ i, el t i = (q.map fun y => el y i).sum / q.length := by
  cases q with
  | nil => exact absurd rfl h0
  | cons x q =>
    obtain ⟨t, h1, h2, h3⟩ := drain_eq q x (h x List.mem_cons_self) fun y hy => h y (List.mem_cons_of_mem _ hy)
    refine ⟨map (fun v => v / ((x :: q).length : ℝ)) t, by unfold averageErrors; rw [h1]; rfl, h2, fun i => ?_⟩
    show el t i / _ = _
    rw [h3]; rfl

theorem inner_sum (p v : Tensor ℝ) (D : List (Tensor ℝ)) (h : ∀ d ∈ D, Shape d p) (t : Tensor ℝ) (ht : Shape t p)
    (he : ∀ i ∈ places p, el t i = (D.map fun d => el d i).sum) : Calculus.inner t v = (D.map fun d => Calculus.inner d v).sum := by
  have h1 : Calculus.inner t v = total p fun i => (D.map fun d => el d i).sum * el v i := by
    unfold Calculus.inner
    rw [total_congr_shape ht]
    exact total_congr fun i hi => by rw [he i hi]
  rw [h1]
  clear h1 he
  induction D with
  | nil => unfold total; simp
  | cons d D ih =>
    have e1 : total p (fun i => ((d :: D).map fun d => el d i).sum * el v i) =
        total p (fun i => el d i * el v i + (D.map fun d => el d i).sum * el v i) := total_congr fun i _ => by
      rw [List.map_cons, List.sum_cons]; ring
    rw [e1, total_add, ih fun d hd => h d (List.mem_cons_of_mem _ hd), List.map_cons, List.sum_cons]
    congr 1
    unfold Calculus.inner
    rw [total_congr_shape (h d List.mem_cons_self)]

/-! ### Lemmas: the penalty -/

/-- The derivative of a layer's penalty in direction `v`. -/
noncomputable def penaltyRate (l : Layer) (v : Tensor ℝ) : ℝ :=
  match l with
  | .dense d => match d.strength with
    | none => 0
    | some s => s * Calculus.inner d.weights v
  | _ => 0

theorem penalty_deriv (l : Layer) (q : ℝ → Tensor ℝ) (v : Tensor ℝ) (hp : Path q l.params v) :
    HasDerivAt (fun s => (l.withParams (q s)).penalty (l.withParams (q s)).params) (penaltyRate l v) 0 := by
  obtain ⟨h1, h2, h3⟩ := hp
  cases l with
  | dense d =>
    simp only [Layer.withParams, Layer.penalty, Layer.params, penaltyRate] at h1 h2 h3 ⊢
    cases hs : d.strength with
    | none => simpa using hasDerivAt_const (0 : ℝ) (0 : ℝ)
    | some w =>
      simp only
      have e1 : (fun s => w / 2 * total (q s) fun i => el (q s) i ^ 2) = fun s => w / 2 * total d.weights fun i => el (q s) i ^ 2 :=
        funext fun s => by rw [total_congr_shape (h1 s)]
      rw [e1]
      have h4 : HasDerivAt (fun t => total d.weights fun i => el (q t) i ^ 2) (total d.weights fun i => 2 * el (q 0) i * el v i) 0 := by
        refine total_deriv d.weights (fun i t => el (q t) i ^ 2) _ 0 fun i hi => ?_
        refine ((h3 i hi).pow 2).congr_deriv ?_
        norm_num
      refine (h4.const_mul (w / 2)).congr_deriv ?_
      have e2 : total d.weights (fun i => 2 * el (q 0) i * el v i) = total d.weights (fun i => 2 * (el d.weights i * el v i)) :=
        total_congr fun i hi => by rw [h2 i hi]; ring
      rw [e2, total_mul]
      unfold Calculus.inner
      ring
  | bias b => simpa [Layer.withParams, Layer.penalty, penaltyRate] using hasDerivAt_const (0 : ℝ) (0 : ℝ)
  | activation k i => simpa [Layer.withParams, Layer.penalty, penaltyRate] using hasDerivAt_const (0 : ℝ) (0 : ℝ)
  | flatten r c => simpa [Layer.withParams, Layer.penalty, penaltyRate] using hasDerivAt_const (0 : ℝ) (0 : ℝ)

theorem regularised_inner {l : Layer} {data err : Tensor ℝ} (h : Regularised l data err) (v : Tensor ℝ) :
    Calculus.inner err v = Calculus.inner data v + penaltyRate l v := by
  unfold Regularised at h
  unfold penaltyRate
  cases l with
  | dense d =>
    simp only at h ⊢
    cases hs : d.strength with
    | none => simp only [hs] at h ⊢; rw [h, add_zero]
    | some w =>
      simp only [hs] at h ⊢
      have hsh : Shape data d.weights := by have h' := add_inv h; exact h'
      rw [add_some (b := map (fun v => v * w) d.weights) hsh] at h
      obtain rfl := Option.some.inj h
      unfold Calculus.inner
      show total data (fun i => (el data i + el d.weights i * w) * el v i) = _
      rw [← total_mul, ← total_congr_shape hsh, ← total_add]
      exact total_congr fun i _ => by ring
  | bias b => simp only at h ⊢; rw [h, add_zero]
  | activation k q => simp only at h ⊢; rw [h, add_zero]
  | flatten r c => simp only at h ⊢; rw [h, add_zero]

theorem penalties_deriv : ∀ (ns : List Node) (qp : Nat → ℝ → Tensor ℝ) (vp : Nat → Tensor ℝ), Paths ns qp vp →
    ∃ R : Nat → ℝ, (∀ i n, ns[i]? = some n → R i = penaltyRate n.layer (vp i)) ∧
      HasDerivAt (fun s => ((setAll ns fun i => qp i s).map fun n => n.layer.penalty n.layer.params).sum) (∑ i ∈ Finset.range ns.length, R i) 0 := by
  intro ns
  induction ns with
  | nil => intro qp vp _; exact ⟨fun _ => 0, by simp, by simpa [setAll] using hasDerivAt_const (0 : ℝ) (0 : ℝ)⟩
  | cons n rest ih =>
    intro qp vp hp
    obtain ⟨R, h1, h2⟩ := ih (fun i => qp (i + 1)) (fun i => vp (i + 1)) fun i m hm => hp (i + 1) m (by simpa using hm)
    refine ⟨fun i => Nat.casesOn i (penaltyRate n.layer (vp 0)) R, ?_, ?_⟩
    · intro i m hm
      cases i with
      | zero => simp only [List.getElem?_cons_zero, Option.some.injEq] at hm; subst hm; rfl
      | succ i => exact h1 i m (by simpa using hm)
    · rw [List.length_cons, Finset.sum_range_succ', add_comm]
      simp only [setAll, List.map_cons, List.sum_cons]
      exact (penalty_deriv n.layer (qp 0) (vp 0) (hp 0 n rfl)).add h2

/-! ### Lemmas: the gradient of the objective -/

theorem untrainable_empty {l : Layer} (h : l.trainable = false) : l.params.rows = 0 := by
  cases l <;> simp_all [Layer.trainable, Layer.params]

/-- The averages of the queued errors. -/
theorem averages {ns ns2 : List Node} {D : List (Nat → Tensor ℝ)} (hD : D ≠ []) (hq : NoErrors ns)
    (h5 : ∀ i n, ns[i]? = some n → (∀ d ∈ D, Shape (d i) n.layer.params) ∧ ∃ n2, ns2[i]? = some n2 ∧
        (n.layer.trainable = true → ∃ errs, n2.layer.queued = n.layer.queued ++ errs ∧ List.Forall₂ (fun d err => Regularised n.layer (d i) err) D errs)) :
    ∀ i, ∃ g : Tensor ℝ, ∀ n, ns[i]? = some n → Shape g n.layer.params ∧
      (∀ v, Calculus.inner g v = (D.map fun d => Calculus.inner (d i) v).sum / D.length + penaltyRate n.layer v) ∧
      ∃ n2, ns2[i]? = some n2 ∧ (n.layer.trainable = true → averageErrors n2.layer.queued = some g) := by
  intro i
  cases hn : ns[i]? with
  | none => exact ⟨⟨0, 0, 0, fun _ _ _ => 0⟩, by simp⟩
  | some n =>
    obtain ⟨a1, n2, a2, a3⟩ := h5 i n hn
    cases ht : n.layer.trainable with
    | false =>
      refine ⟨n.layer.params, fun m hm => ?_⟩
      obtain rfl := Option.some.inj hm
      have he := untrainable_empty ht
      refine ⟨⟨rfl, rfl, rfl⟩, fun v => ?_, n2, a2, by simp [ht]⟩
      have e1 : (D.map fun d => Calculus.inner (d i) v) = D.map fun _ => (0 : ℝ) :=
        List.map_congr_left fun d hd => inner_empty ((a1 d hd).1.trans he) v
      have e2 : penaltyRate n.layer v = 0 := by
        unfold penaltyRate
        cases hl : n.layer <;> rw [hl] at ht <;> simp_all [Layer.trainable]
      rw [inner_empty he, e1, e2]; simp
    | true =>
      obtain ⟨errs, b1, b2⟩ := a3 ht
      rw [hq n (List.mem_of_getElem? hn), List.nil_append] at b1
      have hlen : errs.length = D.length := (List.Forall₂.length_eq b2).symm
      have hne : errs ≠ [] := fun h => hD (List.length_eq_zero_iff.mp (by rw [← hlen, h]; rfl))
      have hsh : ∀ y ∈ errs, Shape y n.layer.params := by
        clear hlen hne b1 hD h5 a3
        induction b2 with
        | nil => simp
        | cons h _ ih =>
          intro y hy
          rcases List.mem_cons.mp hy with rfl | hy
          · exact Loss.Shape.trans (regularised_shape h) (a1 _ List.mem_cons_self)
          · exact ih (fun d hd => a1 d (List.mem_cons_of_mem _ hd)) y hy
      obtain ⟨g, c1, c2, c3⟩ := averageErrors_eq errs hne hsh
      refine ⟨g, fun m hm => ?_⟩
      obtain rfl := Option.some.inj hm
      refine ⟨c2, fun v => ?_, n2, a2, fun _ => by rw [b1]; exact c1⟩
      -- the inner product with the average
      have hnz : (errs.length : ℝ) ≠ 0 := by
        have := List.length_pos_of_ne_nil hne
        positivity
      have e1 : Calculus.inner (map (fun w => w * (errs.length : ℝ)) g) v = (errs.map fun y => Calculus.inner y v).sum := by
        refine inner_sum n.layer.params v errs hsh _ c2 fun j _ => ?_
        show el g j * _ = _
        rw [c3, div_mul_cancel₀ _ hnz]
      rw [inner_scaled] at e1
      have e2 : (errs.map fun y => Calculus.inner y v).sum = (D.map fun d => Calculus.inner (d i) v).sum + D.length * penaltyRate n.layer v := by
        clear e1 hnz c3 c2 c1 hsh hne hlen b1 hD h5 a1 a3
        induction b2 with
        | nil => simp
        | cons h _ ih =>
          simp only [List.map_cons, List.sum_cons, List.length_cons, ih, regularised_inner h v]
          push_cast; ring
      rw [e2, hlen] at e1
      rw [hlen] at hnz
      field_simp
      linarith

/-- The mean loss and the penalties. -/
theorem mean_deriv {ns : List Node} {D : List (Nat → Tensor ℝ)} {G : Nat → Tensor ℝ} {qp : Nat → ℝ → Tensor ℝ} {vp : Nat → Tensor ℝ} (hp : Paths ns qp vp)
    (hG : ∀ i n, ns[i]? = some n → ∀ v, Calculus.inner (G i) v = (D.map fun d => Calculus.inner (d i) v).sum / D.length + penaltyRate n.layer v)
    {f : ℝ → ℝ} (f2 : HasDerivAt f (D.map fun d => ∑ i ∈ Finset.range ns.length, Calculus.inner (d i) (vp i)).sum 0) :
    HasDerivAt (fun s => f s / D.length + ((setAll ns fun i => qp i s).map fun n => n.layer.penalty n.layer.params).sum)
      (∑ i ∈ Finset.range ns.length, Calculus.inner (G i) (vp i)) 0 := by
  obtain ⟨R, r1, r2⟩ := penalties_deriv ns qp vp hp
  refine ((f2.div_const _).add r2).congr_deriv ?_
  have e1 : ∀ i ∈ Finset.range ns.length, Calculus.inner (G i) (vp i) = (D.map fun d => Calculus.inner (d i) (vp i)).sum / D.length + R i := by
    intro i hi
    have hi := Finset.mem_range.mp hi
    have hn : ns[i]? = some ns[i] := List.getElem?_eq_getElem hi
    rw [hG i _ hn, r1 i _ hn]
  rw [Finset.sum_congr rfl e1, Finset.sum_add_distrib, ← Finset.sum_div]
  congr 2
  clear e1 r1 r2 R f2 hG G
  induction D with
  | nil => simp
  | cons d D ih => simp only [List.map_cons, List.sum_cons, Finset.sum_add_distrib, ih]

theorem batch_joint (ns : List Node) (rs : List Record) (hr : Ready ns) (hu : Unclipped ns) (hq : NoErrors ns) (h0 : rs ≠ [])
    (hg : ∀ r ∈ rs, r.Good ns) :
    ∃ (ns2 : List Node) (G : Nat → Tensor ℝ),
      (rs.map fun r => (r.given, r.derivative)).foldlM (fun ns r => trainRecord ns r.1 r.2) ns = some ns2 ∧ AlikeAll ns ns2 ∧ Ready ns2 ∧
      (∀ i n, ns[i]? = some n → Shape (G i) n.layer.params ∧ ∃ n2, ns2[i]? = some n2 ∧
        (n.layer.trainable = true → averageErrors n2.layer.queued = some (G i))) ∧
      ∀ qp vp, Paths ns qp vp → ∃ f : ℝ → ℝ, (∀ s, objective (setAll ns fun i => qp i s) rs = some (f s)) ∧
        HasDerivAt f (∑ i ∈ Finset.range ns.length, Calculus.inner (G i) (vp i)) 0 := by
  obtain ⟨ns2, D, h1, h2, h3, h4, h5, h6⟩ := records_joint rs ns hr hu hg
  have hD : D ≠ [] := fun h => h0 (List.length_eq_zero_iff.mp (by rw [← h4, h]; rfl))
  choose G hG using averages hD hq h5
  refine ⟨ns2, G, h1, h2, h3, fun i n hn => ⟨(hG i n hn).1, (hG i n hn).2.2⟩, fun qp vp hp => ?_⟩
  obtain ⟨f, f1, f2⟩ := h6 qp vp hp
  refine ⟨_, fun s => ?_, mean_deriv hp (fun i n hn => (hG i n hn).2.1) f2⟩
  obtain ⟨ls, l1, l2⟩ := Option.map_eq_some_iff.mp (f1 s)
  unfold objective
  rw [l1, Option.map_some, l2, h4]

/-! ### Lemmas: `apply` -/

/-- The call of the optimizer for one layer with the gradient `g`. -/
def layerCall (l : Layer) (g : Tensor ℝ) : List (Optimizer.Call ℝ) :=
  match l with
  | .dense d => [.change true d.id d.weights g]
  | .bias b => [.change false b.id b.bias g]
  | _ => []

/-- The calls of the optimizer that `apply` makes, from the last layer to the first. -/
def calls : List Node → (Nat → Tensor ℝ) → List (Optimizer.Call ℝ)
  | [], _ => []
  | n :: rest, G => calls rest (fun i => G (i + 1)) ++ layerCall n.layer (G 0)

theorem run_append (sqrt : ℝ → ℝ) (o : Optimizer.Opt ℝ) (a b : List (Optimizer.Call ℝ)) :
    Optimizer.run sqrt o (a ++ b) = (Optimizer.run sqrt o a).bind fun r => (Optimizer.run sqrt r.1 b).map fun r' => (r'.1, r.2 ++ r'.2) := by
  induction a generalizing o with
  | nil => simp [Optimizer.run]
  | cons c cs ih =>
    simp only [List.cons_append, Optimizer.run]
    cases Optimizer.call sqrt o c with
    | none => rfl
    | some r =>
      simp only [Option.bind_some, ih]
      cases Optimizer.run sqrt r.1 cs with
      | none => rfl
      | some r' =>
        simp only [Option.map_some, Option.bind_some]
        cases Optimizer.run sqrt r'.1 b with
        | none => rfl
        | some r'' => simp

/-- The parameters of the layers that are trained, from the last to the first. -/
def trained : List Node → List (Tensor ℝ)
  | [] => []
  | n :: rest => trained rest ++ if n.layer.trainable then [n.layer.params] else []

theorem layer_changed (l : Layer) (o : Optimizer.Opt ℝ) (g : Tensor ℝ) (h : l.trainable = true → averageErrors l.queued = some g) :
    match Optimizer.run Real.sqrt o (layerCall l g) with
    | none => l.apply o = none
    | some (o', log) => ∃ l', l.apply o = some (l', o') ∧ Alike (l.withParams l'.params) l' ∧ l'.queued = [] ∧ (l.Clean → l'.Clean) ∧
        (if l'.trainable then [l'.params] else []) = log.map (·.updated) := by
  cases l with
  | dense d =>
    have hg : averageErrors d.errors = some g := h rfl
    simp only [Layer.apply, Dense.apply, hg, Option.bind_some, layerCall, Optimizer.run, Optimizer.call]
    cases Optimizer.calculateWeightsChange o Real.sqrt d.id d.weights g with
    | none => rfl
    | some r => exact ⟨_, rfl, ⟨rfl, rfl, rfl⟩, rfl, id, rfl⟩
  | bias b =>
    have hg : averageErrors b.errors = some g := h rfl
    simp only [Layer.apply, Bias.apply, hg, Option.bind_some, layerCall, Optimizer.run, Optimizer.call]
    cases Optimizer.calculateBiasChange o Real.sqrt b.id b.bias g with
    | none => rfl
    | some r => exact ⟨_, rfl, ⟨rfl, rfl⟩, rfl, id, rfl⟩
  | activation k q => exact ⟨_, rfl, rfl, rfl, id, rfl⟩
  | flatten r c => exact ⟨_, rfl, trivial, rfl, id, rfl⟩

theorem apply_run (ns : List Node) (G : Nat → Tensor ℝ) (o : Optimizer.Opt ℝ)
    (h : ∀ i n, ns[i]? = some n → n.layer.trainable = true → averageErrors n.layer.queued = some (G i)) :
    match Optimizer.run Real.sqrt o (calls ns G) with
    | none => applyAll ns o = none
    | some (o', log) => ∃ ns', applyAll ns o = some (ns', o') ∧ AlikeAll (setAll ns (paramsAt ns')) ns' ∧ NoErrors ns' ∧ (Ready ns → Ready ns') ∧
        trained ns' = log.map (·.updated) := by
  induction ns generalizing G with
  | nil => exact ⟨[], rfl, .nil, by simp [NoErrors], id, rfl⟩
  | cons n rest ih =>
    have ih := ih (fun i => G (i + 1)) fun i m hm => h (i + 1) m (by simpa using hm)
    rw [calls, run_append]
    cases hr : Optimizer.run Real.sqrt o (calls rest fun i => G (i + 1)) with
    | none =>
      rw [hr] at ih
      simp only [Option.bind_none]
      simp only [applyAll]
      rw [ih]; rfl
    | some r =>
      obtain ⟨o1, log1⟩ := r
      rw [hr] at ih
      obtain ⟨rest', h1, h2, h3, h4, h5⟩ := ih
      have hl := layer_changed n.layer o1 (G 0) (h 0 n rfl)
      simp only [Option.bind_some]
      cases hr2 : Optimizer.run Real.sqrt o1 (layerCall n.layer (G 0)) with
      | none =>
        rw [hr2] at hl
        simp only [Option.map_none]
        simp only [applyAll]
        rw [h1, Option.bind_some, hl]; rfl
      | some r2 =>
        obtain ⟨o2, log2⟩ := r2
        rw [hr2] at hl
        obtain ⟨l', k1, k2, k3, k4, k5⟩ := hl
        refine ⟨{ n with layer := l' } :: rest', ?_, ?_, ?_, ?_, ?_⟩
        · simp only [applyAll]
          rw [h1, Option.bind_some, k1]; rfl
        · refine .cons ⟨rfl, k2⟩ ?_
          exact h2
        · intro m hm
          rcases List.mem_cons.mp hm with rfl | hm
          · exact k3
          · exact h3 m hm
        · intro hrd m hm
          rcases List.mem_cons.mp hm with rfl | hm
          · exact ⟨k4 (hrd n List.mem_cons_self).1, (hrd n List.mem_cons_self).2⟩
          · exact h4 (fun m hm => hrd m (List.mem_cons_of_mem _ hm)) m hm
        · simp only [trained, h5, k5, List.map_append]

/-- The learning rate for a layer's parameters. -/
def rateOf (o : Optimizer.Opt ℝ) : Layer → ℝ
  | .dense _ => o.weights.rate
  | .bias _ => o.bias.rate
  | _ => 0

/-- The learning rate for the parameters of the `i`-th layer. -/
def rateAt (ns : List Node) (o : Optimizer.Opt ℝ) (i : Nat) : ℝ :=
  match ns[i]? with
  | none => 0
  | some n => rateOf o n.layer

theorem step_eq {p g : Tensor ℝ} (h : Shape g p) (rate : ℝ) : subtract p (map (fun x => x * rate) g) = some (along p g (-rate)) := by
  obtain ⟨h1, h2, h3⟩ := h
  unfold subtract Views.zip
  rw [if_neg (by rw [not_or, not_or, not_not, not_not, not_not]; exact ⟨h3.symm, h1.symm, h2.symm⟩)]
  unfold along map
  congr 2
  funext r c k
  ring

theorem mbgd_apply (ns : List Node) (G : Nat → Tensor ℝ) (o : Optimizer.Opt ℝ) (ho : o.kind = .mbgd)
    (h : ∀ i n, ns[i]? = some n → Shape (G i) n.layer.params ∧ (n.layer.trainable = true → averageErrors n.layer.queued = some (G i))) :
    ∃ ns', applyAll ns o = some (ns', o) ∧ AlikeAll (setAll ns fun i => along (paramsAt ns i) (G i) (-rateAt ns o i)) ns' := by
  obtain ⟨kind, hyper, step, nextId, weights, bias⟩ := o
  simp only at ho
  subst ho
  obtain ⟨o, heo⟩ : ∃ o : Optimizer.Opt ℝ, o = ⟨.mbgd, hyper, step, nextId, weights, bias⟩ := ⟨_, rfl⟩
  rw [← heo]
  induction ns generalizing G with
  | nil => exact ⟨[], rfl, .nil⟩
  | cons n rest ih =>
    obtain ⟨rest', h1, h2⟩ := ih (fun i => G (i + 1)) fun i m hm => h (i + 1) m (by simpa using hm)
    obtain ⟨h3, h4⟩ := h 0 n rfl
    have hl : ∃ l', n.layer.apply o = some (l', o) ∧ Alike (n.layer.withParams (along n.layer.params (G 0) (-rateOf o n.layer))) l' := by
      cases hl : n.layer with
      | dense d =>
        rw [hl] at h3 h4
        have hg : averageErrors d.errors = some (G 0) := h4 rfl
        have h3 : Shape (G 0) d.weights := h3
        refine ⟨.dense { d with weights := along d.weights (G 0) (-o.weights.rate), errors := [] }, ?_, rfl, rfl, rfl⟩
        subst heo
        simp only [Layer.apply, Dense.apply, hg, Option.bind_some, Optimizer.calculateWeightsChange, Optimizer.change]
        rw [step_eq h3]
        rfl
      | bias b =>
        rw [hl] at h3 h4
        have hg : averageErrors b.errors = some (G 0) := h4 rfl
        have h3 : Shape (G 0) b.bias := h3
        refine ⟨.bias { b with bias := along b.bias (G 0) (-o.bias.rate), errors := [] }, ?_, rfl, rfl⟩
        subst heo
        simp only [Layer.apply, Bias.apply, hg, Option.bind_some, Optimizer.calculateBiasChange, Optimizer.change]
        rw [step_eq h3]
        rfl
      | activation k q => exact ⟨_, rfl, rfl⟩
      | flatten r c => exact ⟨_, rfl, trivial⟩
    obtain ⟨l', k1, k2⟩ := hl
    refine ⟨{ n with layer := l' } :: rest', ?_, .cons ⟨rfl, k2⟩ h2⟩
    simp only [applyAll]
    rw [h1, Option.bind_some, k1]; rfl

theorem path_along (p v : Tensor ℝ) (c : ℝ) : Path (fun s => along p v (s * c)) p (map (fun x => x * c) v) := by
  refine ⟨fun s => shape_along p v _, fun i _ => by show el (along p v (0 * c)) i = _; rw [zero_mul, along_zero], fun i _ => ?_⟩
  show HasDerivAt (fun s => el p i + s * c * el v i) (el v i * c) 0
  have h := (((hasDerivAt_id (0 : ℝ)).mul_const c).mul_const (el v i)).const_add (el p i)
  refine h.congr_deriv ?_
  ring

theorem paramsAt_eq {ns : List Node} {i : Nat} {n : Node} (h : ns[i]? = some n) : paramsAt ns i = n.layer.params := by
  unfold paramsAt; rw [h]

/-- An objective as a function of all parameters, with its derivative along all paths. -/
theorem gradient_at {ns : List Node} {obj : (Nat → Tensor ℝ) → Option ℝ} {G : Nat → Tensor ℝ} (hsh : ∀ i n, ns[i]? = some n → Shape (G i) n.layer.params)
    (hj : ∀ qp vp, Paths ns qp vp → ∃ f : ℝ → ℝ, (∀ s, obj (fun i => qp i s) = some (f s)) ∧
        HasDerivAt f (∑ i ∈ Finset.range ns.length, Calculus.inner (G i) (vp i)) 0) (i : Nat) (n : Node) (hn : ns[i]? = some n) :
    IsGradient (fun p => obj fun j => if j = i then p else paramsAt ns j) n.layer.params (G i) := by
  refine (IsGradient_iff _ _ _).mpr ⟨hsh i n hn, fun q v hp => ?_⟩
  obtain ⟨f, f1, f2⟩ := hj (fun j s => if j = i then q s else paramsAt ns j)
    (fun j => if j = i then v else ⟨(paramsAt ns j).rows, (paramsAt ns j).cols, (paramsAt ns j).chans, fun _ _ _ => 0⟩)
    (fun j m hm => by
      by_cases hji : j = i
      · subst hji
        rw [hn] at hm
        obtain rfl := Option.some.inj hm
        simp only [if_true]; exact hp
      · simp only [hji, if_false]
        rw [← paramsAt_eq hm]; exact Path.const _)
  refine ⟨f, fun s => f1 s, f2.congr_deriv ?_⟩
  have hi : i < ns.length := by
    by_contra h
    rw [List.getElem?_eq_none (by omega)] at hn
    cases hn
  rw [Finset.sum_eq_single_of_mem i (Finset.mem_range.mpr hi)]
  · simp
  · intro j _ hj
    simp [hj, inner_zero]

theorem gradient_of_joint {ns : List Node} {rs : List Record} {G : Nat → Tensor ℝ} (hsh : ∀ i n, ns[i]? = some n → Shape (G i) n.layer.params)
    (hj : ∀ qp vp, Paths ns qp vp → ∃ f : ℝ → ℝ, (∀ s, objective (setAll ns fun i => qp i s) rs = some (f s)) ∧
        HasDerivAt f (∑ i ∈ Finset.range ns.length, Calculus.inner (G i) (vp i)) 0) (i : Nat) (n : Node) (hn : ns[i]? = some n) :
    IsGradient (fun p => objective (ns.set i { n with layer := n.layer.withParams p }) rs) n.layer.params (G i) := by
  have h := gradient_at (obj := fun P => objective (setAll ns P) rs) hsh hj i n hn
  have e : (fun p => objective (ns.set i { n with layer := n.layer.withParams p }) rs) =
      fun p => objective (setAll ns fun j => if j = i then p else paramsAt ns j) rs := by
    funext p
    rw [setAll_set ns i n p _ hn (by simp) fun j m hj hm => by simp only [hj, if_false]; exact paramsAt_eq hm]
  rw [e]
  exact h

theorem batch_eq {ns ns2 : List Node} {rs : List Record} {o : Optimizer.Opt ℝ}
    (h : (rs.map fun r => (r.given, r.derivative)).foldlM (fun ns r => trainRecord ns r.1 r.2) ns = some ns2) : batch ns o rs = applyAll ns2 o := by
  unfold batch trainBatch
  rw [h, Option.bind_some]

theorem calls_alike {a b : List Node} (h : AlikeAll a b) (G : Nat → Tensor ℝ) : calls a G = calls b G := by
  induction h generalizing G with
  | nil => rfl
  | cons h _ ih =>
    rename_i n m _ _ _
    simp only [calls, ih]
    congr 1
    have h := h.2
    cases hn : n.layer <;> cases hm : m.layer <;> rw [hn, hm] at h <;> simp only [Alike] at h <;> simp [layerCall, h]

theorem rateAt_alike {a b : List Node} (h : AlikeAll a b) (o : Optimizer.Opt ℝ) (i : Nat) : rateAt a o i = rateAt b o i := by
  induction h generalizing i with
  | nil => rfl
  | cons h _ ih =>
    rename_i n m _ _ _
    cases i with
    | zero =>
      have h := h.2
      show rateOf o n.layer = rateOf o m.layer
      cases hn : n.layer <;> cases hm : m.layer <;> rw [hn, hm] at h <;> simp only [Alike] at h <;> rfl
    | succ i => exact ih i

theorem paramsAt_alike {a b : List Node} (h : AlikeAll a b) (i : Nat) : paramsAt a i = paramsAt b i := by
  induction h generalizing i with
  | nil => rfl
  | cons h _ ih =>
    cases i with
    | zero => exact h.2.params.symm
    | succ i => exact ih i

theorem mbgd_batch {ns ns2 : List Node} {G : Nat → Tensor ℝ} {o : Optimizer.Opt ℝ} (ho : o.kind = .mbgd) (h2 : AlikeAll ns ns2)
    (h4 : ∀ i n, ns[i]? = some n → Shape (G i) n.layer.params ∧ ∃ n2, ns2[i]? = some n2 ∧
        (n.layer.trainable = true → averageErrors n2.layer.queued = some (G i))) :
    ∃ ns', applyAll ns2 o = some (ns', o) ∧ AlikeAll (setAll ns fun i => along (paramsAt ns i) (G i) (-rateAt ns o i)) ns' := by
  obtain ⟨ns', k1, k2⟩ := mbgd_apply ns2 G o ho fun i m hm => by
    obtain ⟨n, hn, _⟩ := alike_get' h2 i m hm
    obtain ⟨hsh, m', h6, h7⟩ := h4 i n hn
    rw [hm] at h6
    obtain rfl := Option.some.inj h6
    have hal := (alike_at h2 i n m hn hm).2
    exact ⟨hal.params ▸ hsh, fun ht => h7 (hal.trainable ▸ ht)⟩
  refine ⟨ns', k1, ?_⟩
  have : (fun i => along (paramsAt ns i) (G i) (-rateAt ns o i)) = fun i => along (paramsAt ns2 i) (G i) (-rateAt ns2 o i) := by
    funext i; rw [paramsAt_alike h2, rateAt_alike h2]
  rw [this]
  exact (h2.setAll _).trans k2

theorem inner_times (a b : Tensor ℝ) (c : ℝ) : Calculus.inner a (map (fun x => x * c) b) = Calculus.inner a b * c := by
  rw [inner_finset, inner_finset, Finset.sum_mul]
  refine Finset.sum_congr rfl fun _ _ => ?_
  rw [Finset.sum_mul]
  refine Finset.sum_congr rfl fun _ _ => ?_
  rw [Finset.sum_mul]
  refine Finset.sum_congr rfl fun _ _ => ?_
  show _ * (_ * c) = _
  ring

theorem inner_of_null {a b : Tensor ℝ} (h : ∀ i ∈ places a, el a i = 0) : Calculus.inner a b = 0 := by
  unfold Calculus.inner total
  refine List.sum_eq_zero fun x hx => ?_
  obtain ⟨i, hi, rfl⟩ := List.mem_map.mp hx
  rw [h i hi, zero_mul]

/-- Small steps against the gradient make the objective smaller. -/
theorem small_steps {ns : List Node} {obj : (Nat → Tensor ℝ) → Option ℝ} {G : Nat → Tensor ℝ} (hsh : ∀ i n, ns[i]? = some n → Shape (G i) n.layer.params)
    (hj : ∀ qp vp, Paths ns qp vp → ∃ f : ℝ → ℝ, (∀ s, obj (fun i => qp i s) = some (f s)) ∧
        HasDerivAt f (∑ i ∈ Finset.range ns.length, Calculus.inner (G i) (vp i)) 0)
    (hs : ¬ ∀ (V : Nat → Tensor ℝ) (f : ℝ → ℝ), (∀ s, obj (fun i => along (paramsAt ns i) (V i) s) = some (f s)) → HasDerivAt f 0 0)
    (hyper : Optimizer.Hyper ℝ) (a b : ℝ) (ha : 0 < a) (hb : 0 < b) :
    ∃ before, obj (paramsAt ns) = some before ∧ ∃ s0 > 0, ∀ s, 0 < s → s < s0 → ∃ after,
      obj (fun i => along (paramsAt ns i) (G i) (-rateAt ns (Optimizer.create .mbgd hyper (s * a) (s * b)) i)) = some after ∧ after < before := by
  -- the path that training takes as the learning rates grow
  let c : Nat → ℝ := fun i => -rateAt ns (Optimizer.create .mbgd hyper a b) i
  have hc : ∀ s i, -rateAt ns (Optimizer.create .mbgd hyper (s * a) (s * b)) i = s * c i := by
    intro s i
    simp only [c]
    unfold rateAt
    split
    · simp
    · rename_i n _
      cases n.layer <;> simp [rateOf, Optimizer.create]
  obtain ⟨f, f1, f2⟩ := hj (fun i s => along (paramsAt ns i) (G i) (s * c i)) (fun i => map (fun x => x * c i) (G i))
    (fun i n hn => by rw [← paramsAt_eq hn]; exact path_along _ _ _)
  have hf0 : obj (paramsAt ns) = some (f 0) := by
    rw [← f1 0]; simp only [zero_mul, along_zero]
  -- the slope
  have hslope : ∑ i ∈ Finset.range ns.length, Calculus.inner (G i) (map (fun x => x * c i) (G i)) < 0 := by
    have hle : ∀ i ∈ Finset.range ns.length, Calculus.inner (G i) (map (fun x => x * c i) (G i)) ≤ 0 := by
      intro i _
      rw [inner_times]
      refine mul_nonpos_of_nonneg_of_nonpos (total_nonneg fun j _ => mul_self_nonneg _) ?_
      simp only [c, Left.neg_nonpos_iff]
      unfold rateAt
      split
      · exact le_refl 0
      · rename_i n _
        cases n.layer <;> simp [rateOf, Optimizer.create, ha.le, hb.le]
    refine lt_of_le_of_ne (Finset.sum_nonpos hle) fun hz => hs ?_
    intro V g hg1
    have hz := (Finset.sum_eq_zero_iff_of_nonpos hle).mp hz
    obtain ⟨g', g1, g2⟩ := hj (fun i s => along (paramsAt ns i) (V i) (s * 1)) (fun i => map (fun x => x * 1) (V i))
      (fun i n hn => by rw [← paramsAt_eq hn]; exact path_along _ _ _)
    have hgg : g = g' := by
      funext s
      have := g1 s
      simp only [mul_one] at this
      rw [hg1 s] at this
      exact Option.some.inj this
    rw [hgg]
    refine g2.congr_deriv (Finset.sum_eq_zero fun i hi => ?_)
    obtain ⟨n, hn⟩ : ∃ n, ns[i]? = some n := ⟨_, List.getElem?_eq_getElem (Finset.mem_range.mp hi)⟩
    have hzi := hz i hi
    rw [inner_times] at hzi
    rw [inner_times, mul_one]
    cases ht : n.layer.trainable with
    | false => exact inner_empty ((hsh i _ hn).1.trans (untrainable_empty ht)) _
    | true =>
      have hci : c i ≠ 0 := by
        simp only [c]
        unfold rateAt
        rw [hn]
        show -rateOf _ n.layer ≠ 0
        cases hl : n.layer <;> rw [hl] at ht <;> simp [Layer.trainable] at ht <;> simp [rateOf, Optimizer.create, ha.ne', hb.ne']
      have h0 : Calculus.inner (G i) (G i) = 0 := (mul_eq_zero.mp hzi).resolve_right hci
      refine inner_of_null fun j hj => ?_
      by_contra hne
      have : 0 < Calculus.inner (G i) (G i) := total_pos (fun k _ => mul_self_nonneg _) ⟨j, hj, mul_self_pos.mpr hne⟩
      exact this.ne' h0
  obtain ⟨s0, hs0, hdec⟩ := decreases f2 hslope
  refine ⟨f 0, hf0, s0, hs0, fun s hs1 hs2 => ⟨f s, ?_, hdec s hs1 hs2⟩⟩
  simp only [hc]
  exact f1 s

/-! ### C92 -/

/-- C92. What a batch computes: all records are processed, and the averaged error of each dense and bias layer is the gradient of the
objective (the mean loss of the records plus the penalties) with respect to the layer's parameters. -/
theorem C92_gradient_partial (ns : List Node) (rs : List Record) (h0 : rs ≠ []) (hr : Ready ns) (hu : Unclipped ns) (hq : NoErrors ns)
    (hg : ∀ r ∈ rs, r.Good ns) :
    ∃ ns2, (rs.map fun r => (r.given, r.derivative)).foldlM (fun ns r => trainRecord ns r.1 r.2) ns = some ns2 ∧
      ∀ i n, ns[i]? = some n → n.layer.trainable = true → ∃ n2 G, ns2[i]? = some n2 ∧ n2.layer.params = n.layer.params ∧
        averageErrors n2.layer.queued = some G ∧
        IsGradient (fun p => objective (ns.set i { n with layer := n.layer.withParams p }) rs) n.layer.params G := by
  obtain ⟨ns2, G, h1, h2, h3, h4, h5⟩ := batch_joint ns rs hr hu hq h0 hg
  refine ⟨ns2, h1, fun i n hn ht => ?_⟩
  obtain ⟨_, n2, h6, h7⟩ := h4 i n hn
  exact ⟨n2, G i, h6, (alike_at h2 i n n2 hn h6).2.params, h7 ht, gradient_of_joint (fun i n hn => (h4 i n hn).1) h5 i n hn⟩

/-- C92. The optimizer is called once for each dense and bias layer, from the last layer to the first, with the layer's id, parameters and
gradient; the results are the new parameters. Nothing else in the network changes, no errors are kept, and the network is ready for the next batch.
If one of the calls throws, so does the batch. -/
theorem C92_apply_partial (ns : List Node) (o : Optimizer.Opt ℝ) (rs : List Record) (h0 : rs ≠ []) (hr : Ready ns) (hu : Unclipped ns) (hq : NoErrors ns)
    (hg : ∀ r ∈ rs, r.Good ns) :
    ∃ G : Nat → Tensor ℝ,
      (∀ i n, ns[i]? = some n → n.layer.trainable = true →
        IsGradient (fun p => objective (ns.set i { n with layer := n.layer.withParams p }) rs) n.layer.params (G i)) ∧
      match Optimizer.run Real.sqrt o (calls ns G) with
      | none => batch ns o rs = none
      | some (o', log) => ∃ ns', batch ns o rs = some (ns', o') ∧ trained ns' = log.map (·.updated) ∧
          AlikeAll (setAll ns (paramsAt ns')) ns' ∧ NoErrors ns' ∧ Ready ns' := by
  obtain ⟨ns2, G, h1, h2, h3, h4, h5⟩ := batch_joint ns rs hr hu hq h0 hg
  refine ⟨G, fun i n hn _ => gradient_of_joint (fun i n hn => (h4 i n hn).1) h5 i n hn, ?_⟩
  have h6 : ∀ i n, ns2[i]? = some n → n.layer.trainable = true → averageErrors n.layer.queued = some (G i) := by
    intro i m hm ht
    obtain ⟨n, hn, _⟩ := alike_get' h2 i m hm
    obtain ⟨_, m', h6, h7⟩ := h4 i n hn
    rw [hm] at h6
    obtain rfl := Option.some.inj h6
    exact h7 ((alike_at h2 i n m hn hm).2.trainable ▸ ht)
  have h7 := apply_run ns2 G o h6
  rw [← calls_alike h2] at h7
  rw [batch_eq h1]
  cases hrun : Optimizer.run Real.sqrt o (calls ns G) with
  | none => rw [hrun] at h7; exact h7
  | some r =>
    obtain ⟨o', log⟩ := r
    rw [hrun] at h7
    obtain ⟨ns', k1, k2, k3, k4, k5⟩ := h7
    exact ⟨ns', k1, k5, (h2.setAll _).trans k2, k3, k4 h3⟩

/-- C92. With the mini-batch gradient descent optimizer, a batch subtracts from the parameters of each layer the gradient of the objective
times the learning rate for weights or for biases. -/
theorem C92_mbgd_partial (ns : List Node) (o : Optimizer.Opt ℝ) (ho : o.kind = .mbgd) (rs : List Record) (h0 : rs ≠ []) (hr : Ready ns)
    (hu : Unclipped ns) (hq : NoErrors ns) (hg : ∀ r ∈ rs, r.Good ns) :
    ∃ (G : Nat → Tensor ℝ) (ns' : List Node), batch ns o rs = some (ns', o) ∧
      (∀ i n, ns[i]? = some n → n.layer.trainable = true →
        IsGradient (fun p => objective (ns.set i { n with layer := n.layer.withParams p }) rs) n.layer.params (G i)) ∧
      AlikeAll (setAll ns fun i => along (paramsAt ns i) (G i) (-rateAt ns o i)) ns' := by
  obtain ⟨ns2, G, h1, h2, h3, h4, h5⟩ := batch_joint ns rs hr hu hq h0 hg
  obtain ⟨ns', k1, k2⟩ := mbgd_batch ho h2 h4
  exact ⟨G, ns', by rw [batch_eq h1, k1], fun i n hn _ => gradient_of_joint (fun i n hn => (h4 i n hn).1) h5 i n hn, k2⟩

/-- C92. Training makes progress: unless the objective is stationary, a batch with small enough learning rates (in any proportion) makes
the objective smaller. -/
theorem C92_descent_partial (ns : List Node) (rs : List Record) (h0 : rs ≠ []) (hr : Ready ns) (hu : Unclipped ns) (hq : NoErrors ns)
    (hg : ∀ r ∈ rs, r.Good ns) (hs : ¬ Stationary ns rs) (hyper : Optimizer.Hyper ℝ) (a b : ℝ) (ha : 0 < a) (hb : 0 < b) :
    ∃ before, objective ns rs = some before ∧ ∃ s0 > 0, ∀ s, 0 < s → s < s0 →
      ∃ ns' o' after, batch ns (Optimizer.create .mbgd hyper (s * a) (s * b)) rs = some (ns', o') ∧ objective ns' rs = some after ∧ after < before := by
  obtain ⟨ns2, G, h1, h2, h3, h4, h5⟩ := batch_joint ns rs hr hu hq h0 hg
  obtain ⟨before, b1, s0, b2, b3⟩ := small_steps (obj := fun P => objective (setAll ns P) rs) (fun i n hn => (h4 i n hn).1) h5 hs hyper a b ha hb
  refine ⟨before, ?_, s0, b2, fun s hs1 hs2 => ?_⟩
  · rw [← b1]
    show _ = objective (setAll ns (paramsAt ns)) rs
    rw [setAll_self ns _ fun i n hn => paramsAt_eq hn]
  obtain ⟨after, c1, c2⟩ := b3 s hs1 hs2
  obtain ⟨ns', k1, k2⟩ := mbgd_batch (o := Optimizer.create .mbgd hyper (s * a) (s * b)) rfl h2 h4
  exact ⟨ns', _, after, by rw [batch_eq h1, k1], by rw [← k2.objective]; exact c1, c2⟩

/-! ### Mean squared error -/

/-- A record for the mean squared error. The derivative that the loss function reports is the gradient of the sum of the squared errors (C67), so
this sum is what training minimises. -/
noncomputable def mseRecord (c : Loss.Constants) (given truth : Tensor ℝ) : Record :=
  ⟨given, fun p => (Loss.lossOf c .mse truth p).map fun v => v * truth.size, Loss.reported c .mse truth⟩

theorem mse_good (c : Loss.Constants) (ns : List Node) (x t y : Tensor ℝ) (hr : Regular ns x) (hy : predict ns x = some y) (hs : Shape y t)
    (hn : 0 < y.size) : (mseRecord c x t).Good ns := by
  obtain ⟨g, h1, h2, h3⟩ := Loss.C67_mse c hs hn
  refine ⟨hr, y, g, hy, h1, ?_⟩
  rw [IsGradient_iff] at h3 ⊢
  refine ⟨h2, fun q v hp => ?_⟩
  obtain ⟨f, f1, f2⟩ := h3.2 q v hp
  refine ⟨fun s => f s * t.size, fun s => by simp [mseRecord, f1 s], (f2.mul_const (t.size : ℝ)).congr_deriv ?_⟩
  have hc : map (fun v => (1 / (y.size : ℝ)) * v) g = map (fun v => v * (1 / (y.size : ℝ))) g := by
    unfold map; congr 1; funext _ _ _; ring
  rw [hc, inner_scaled, ← Loss.size_shape hs]
  have : (y.size : ℝ) ≠ 0 := by positivity
  field_simp

/-- C92 for the mean squared error: the reported derivative is right for every network and all records whose predictions have the shape of
their truths, so training with small enough learning rates makes the objective smaller. -/
theorem C92_mse_partial (c : Loss.Constants) (ns : List Node) (data : List (Tensor ℝ × Tensor ℝ)) (h0 : data ≠ []) (hr : Ready ns)
    (hu : Unclipped ns) (hq : NoErrors ns)
    (hg : ∀ d ∈ data, Regular ns d.1 ∧ ∃ y, predict ns d.1 = some y ∧ Shape y d.2 ∧ 0 < y.size)
    (hs : ¬ Stationary ns (data.map fun d => mseRecord c d.1 d.2)) (hyper : Optimizer.Hyper ℝ) (a b : ℝ) (ha : 0 < a) (hb : 0 < b) :
    ∃ before, objective ns (data.map fun d => mseRecord c d.1 d.2) = some before ∧ ∃ s0 > 0, ∀ s, 0 < s → s < s0 →
      ∃ ns' o' after, batch ns (Optimizer.create .mbgd hyper (s * a) (s * b)) (data.map fun d => mseRecord c d.1 d.2) = some (ns', o') ∧
        objective ns' (data.map fun d => mseRecord c d.1 d.2) = some after ∧ after < before := by
  refine C92_descent_partial ns _ (by simpa using h0) hr hu hq ?_ hs hyper a b ha hb
  intro r hr
  obtain ⟨d, hd, rfl⟩ := List.mem_map.mp hr
  obtain ⟨h1, y, h2, h3, h4⟩ := hg d hd
  exact mse_good c ns d.1 d.2 y h1 h2 h3 h4

/-- A 1×1 tensor. -/
def one (v : ℝ) : Tensor ℝ := ⟨1, 1, 1, fun _ _ _ => v⟩

/-- The hypotheses of `C92_mse_partial`, and with them those of the other theorems, hold for two records with different truths and a network with one
dense layer. -/
example (c : Loss.Constants) : ∃ (ns : List Node) (data : List (Tensor ℝ × Tensor ℝ)), data.length = 2 ∧ Ready ns ∧ Unclipped ns ∧ NoErrors ns ∧
    (∀ d ∈ data, Regular ns d.1 ∧ ∃ y, predict ns d.1 = some y ∧ Shape y d.2 ∧ 0 < y.size) ∧
    ¬ Stationary ns (data.map fun d => mseRecord c d.1 d.2) := by
  refine ⟨[⟨.dense ⟨one 1, 0, none, [], []⟩, none⟩], [(one 1, one 2), (one 1, one 3)], rfl, ?_, ?_, ?_, ?_, ?_⟩
  · intro n hn
    obtain rfl := List.mem_singleton.mp hn
    exact ⟨rfl, by simp⟩
  · intro n hn
    obtain rfl := List.mem_singleton.mp hn
    rfl
  · intro n hn
    obtain rfl := List.mem_singleton.mp hn
    rfl
  · intro d hd
    simp only [List.mem_cons, List.not_mem_nil, or_false] at hd
    rcases hd with rfl | rfl <;>
      exact ⟨⟨trivial, fun _ _ => trivial⟩, _, rfl, ⟨rfl, rfl, rfl⟩, by decide⟩
  · intro h
    have hf : ∀ w t : ℝ, lossOf [⟨.dense ⟨one w, 0, none, [], []⟩, none⟩] (one 1) (mseRecord c (one 1) (one t)).loss = some ((w - t) ^ 2) := by
      intro w t
      have hp : predict [⟨.dense ⟨one w, 0, none, [], []⟩, none⟩] (one 1) = some ⟨1, 1, 1, fun r c k => 0 + 1 * w⟩ := rfl
      unfold lossOf mseRecord
      rw [hp, Option.bind_some]
      simp only
      rw [Loss.mse_closed c (p := ⟨1, 1, 1, fun r c k => 0 + 1 * w⟩) (t := one t) ⟨rfl, rfl, rfl⟩]
      simp [total, places, el, one, Tensor.size]
    have hd := h (fun _ => one 1) (fun s => ((1 + s * 1 - 2) ^ 2 + (1 + s * 1 - 3) ^ 2) / 2) fun s => by
      have h1 := hf (1 + s * 1) 2
      have h2 := hf (1 + s * 1) 3
      have hset : (setAll [⟨.dense ⟨one 1, 0, none, [], []⟩, none⟩] fun i =>
          along (paramsAt [⟨.dense ⟨one 1, 0, none, [], []⟩, none⟩] i) ((fun _ => one 1) i) s) = [⟨.dense ⟨one (1 + s * 1), 0, none, [], []⟩, none⟩] := rfl
      rw [hset]
      unfold objective
      simp only [List.map_cons, List.map_nil, List.mapM_cons, List.mapM_nil]
      have e1 : (mseRecord c (one 1) (one 2)).given = one 1 := rfl
      have e2 : (mseRecord c (one 1) (one 3)).given = one 1 := rfl
      rw [e1, e2, h1, h2]
      simp [Layer.penalty]
    have hd2 : HasDerivAt (fun s : ℝ => ((1 + s * 1 - 2) ^ 2 + (1 + s * 1 - 3) ^ 2) / 2) (-3) 0 := by
      have k : ∀ t : ℝ, HasDerivAt (fun s : ℝ => (1 + s * 1 - t) ^ 2) (2 * (1 - t)) 0 := fun t => by
        have := ((((hasDerivAt_id (0 : ℝ)).mul_const 1).const_add 1).sub_const t).pow 2
        refine this.congr_deriv ?_
        simp
      refine (((k 2).add (k 3)).div_const 2).congr_deriv ?_
      norm_num
    have := hd.unique hd2
    norm_num at this

end Verif.Layers
