import Verif.Lemmas.Layers

namespace Verif.Layers
open Verif Views Calculus

/-- The weights error of a dense layer and what is queued. -/
def Regularised (l : Layer) (data err : Tensor ℝ) : Prop :=
  match l with
  | .dense d => match d.strength with
    | none => err = data
    | some s => add data (map (fun v => v * s) d.weights) = some err
  | _ => err = data

/-- Two layers that differ only in what they remember of inputs and errors. -/
def Alike : Layer → Layer → Prop
  | .dense d, .dense d' => d'.weights = d.weights ∧ d'.id = d.id ∧ d'.strength = d.strength
  | .bias b, .bias b' => b'.bias = b.bias ∧ b'.id = b.id
  | .activation k _, .activation k' _ => k' = k
  | .flatten _ _, .flatten _ _ => True
  | _, _ => False

theorem Alike.refl (l : Layer) : Alike l l := by cases l <;> simp [Alike]

theorem Alike.trans {a b c : Layer} (h : Alike a b) (h' : Alike b c) : Alike a c := by
  cases a <;> cases b <;> simp only [Alike] at h <;> cases c <;> simp only [Alike] at h' ⊢
  all_goals first | exact ⟨h'.1.trans h.1, h'.2.1.trans h.2.1, h'.2.2.trans h.2.2⟩ | exact ⟨h'.1.trans h.1, h'.2.trans h.2⟩ | exact h'.trans h

theorem Alike.out {a b : Layer} (h : Alike a b) (x : Tensor ℝ) : a.out x = b.out x := by
  cases a <;> cases b <;> simp only [Alike] at h <;>
    simp [Layer.out, Layer.forward, Dense.forward, Bias.forward, h, Option.map_map, Function.comp_def]

theorem Alike.params {a b : Layer} (h : Alike a b) : b.params = a.params := by
  cases a <;> cases b <;> simp only [Alike] at h <;> simp [Layer.params, h]

theorem Alike.withParams {a b : Layer} (h : Alike a b) (p : Tensor ℝ) : Alike (a.withParams p) (b.withParams p) := by
  cases a <;> cases b <;> simp only [Alike] at h <;> simp [Layer.withParams, Alike, h]

theorem Alike.penalty {a b : Layer} (h : Alike a b) (p : Tensor ℝ) : b.penalty p = a.penalty p := by
  cases a <;> cases b <;> simp only [Alike] at h <;> simp [Layer.penalty, h]

theorem Alike.regularAt {a b : Layer} (h : Alike a b) (x : Tensor ℝ) : a.RegularAt x ↔ b.RegularAt x := by
  cases a <;> cases b <;> simp only [Alike] at h <;> simp [Layer.RegularAt, h]

theorem Alike.trainable {a b : Layer} (h : Alike a b) : b.trainable = a.trainable := by
  cases a <;> cases b <;> simp only [Alike] at h <;> simp [Layer.trainable]

theorem Alike.regularised {a b : Layer} (h : Alike a b) {d e : Tensor ℝ} : Regularised a d e ↔ Regularised b d e := by
  cases a <;> cases b <;> simp only [Alike] at h <;> simp [Regularised, h]

theorem withParams_self (l : Layer) : l.withParams l.params = l := by cases l <;> rfl

theorem inner_empty {a : Tensor ℝ} (h : a.rows = 0) (b : Tensor ℝ) : Calculus.inner a b = 0 := by
  rw [inner_finset, h]; simp

theorem Path.const (p : Tensor ℝ) : Path (fun _ => p) p ⟨p.rows, p.cols, p.chans, fun _ _ _ => 0⟩ :=
  ⟨fun _ => ⟨rfl, rfl, rfl⟩, fun _ _ => rfl, fun _ _ => hasDerivAt_const _ _⟩

theorem inner_zero (a : Tensor ℝ) (r c k : Nat) : Calculus.inner a ⟨r, c, k, fun _ _ _ => 0⟩ = 0 := by
  rw [inner_finset]; simp

/-- One layer: `backward` is adjoint to the derivative of what the layer computes, jointly in its input and its parameters. -/
theorem layer_joint {l l1 : Layer} {x y : Tensor ℝ} (hc : l.Clean) (hreg : l.RegularAt x) (hf : l.forward x true = some (y, l1))
    (e : Tensor ℝ) (he : Shape e y) :
    ∃ g data l2, l1.backward e = some (g, l2) ∧ Shape g x ∧ Shape data l.params ∧ l2.Clean ∧ Alike l l2 ∧
      (l.trainable = true → ∃ err, l2.queued = l.queued ++ [err] ∧ Regularised l data err) ∧
      ∀ qx vx qp vp, Path qx x vx → Path qp l.params vp →
        ∃ z vz, (∀ s, (l.withParams (qp s)).out (qx s) = some (z s)) ∧ Path z y vz ∧
          Calculus.inner e vz = Calculus.inner g vx + Calculus.inner data vp := by
  cases l with
  | dense d =>
    simp only [Layer.forward, Dense.forward, Option.map_map, Option.map_eq_some_iff] at hf
    obtain ⟨y', hy, hf⟩ := hf
    simp only [Function.comp, if_true, Prod.mk.injEq] at hf
    obtain ⟨rfl, rfl⟩ := hf
    obtain ⟨h1, h2⟩ := matmul_inv hy
    rw [matmul_some h1 h2] at hy
    obtain rfl := Option.some.inj hy
    obtain ⟨s1, s2, s3⟩ := he
    simp only at s1 s2 s3
    have m1 := matmul_some (a := e) (b := transpose d.weights) s2 (by show e.chans = d.weights.chans; rw [s3, h2])
    have m2 := matmul_some (a := transpose x) (b := e) s1.symm s3.symm
    obtain ⟨g, hg⟩ : ∃ g : Tensor ℝ, g = ⟨e.rows, d.weights.rows, e.chans, fun r i k => ∑ c ∈ Finset.range e.cols, e.get r c k * d.weights.get i c k⟩ := ⟨_, rfl⟩
    obtain ⟨data, hdata⟩ : ∃ t : Tensor ℝ, t = ⟨x.cols, e.cols, x.chans, fun i c k => ∑ r ∈ Finset.range x.rows, x.get r i k * e.get r c k⟩ := ⟨_, rfl⟩
    have m1 : matmul e (transpose d.weights) = some g := by rw [m1, hg]; rfl
    have m2 : matmul (transpose x) e = some data := by rw [m2, hdata]; rfl
    have hsd : Shape data d.weights := by rw [hdata]; exact ⟨h1, s2, h2⟩
    have hreg' : ∃ err, d.regularise data = some err ∧ Regularised (.dense d) data err := by
      unfold Regularised Dense.regularise
      cases hstr : d.strength with
      | none => exact ⟨data, rfl, by simp [hstr]⟩
      | some s => exact ⟨_, add_some (b := map (fun v => v * s) d.weights) hsd, by simp only [hstr]; exact add_some (b := map (fun v => v * s) d.weights) hsd⟩
    obtain ⟨err, herr, hregd⟩ := hreg'
    refine ⟨g, data, .dense { d with inputs := [], errors := d.errors ++ [err] }, ?_, ?_, hsd, rfl, ⟨rfl, rfl, rfl⟩, fun _ => ⟨err, rfl, hregd⟩, ?_⟩
    · have hq : d.inputs = [] := hc
      have hr : Dense.regularise { d with inputs := d.inputs ++ [x] } data = some err := herr
      simp only [Layer.backward, Dense.backward, hq, List.nil_append, averageInputs, Option.bind_some, m1, m2]
      rw [hq, List.nil_append] at hr
      rw [hr]; rfl
    · rw [hg]; exact ⟨s1, h1.symm, s3⟩
    intro qx vx qp vp ⟨x1, x2, x3⟩ ⟨p1, p2, p3⟩
    simp only [Layer.params] at p1 p2 p3
    refine ⟨fun s => ⟨x.rows, d.weights.cols, x.chans, fun r c k => ∑ i ∈ Finset.range x.cols, (qx s).get r i k * (qp s).get i c k⟩,
      ⟨x.rows, d.weights.cols, x.chans, fun r c k => ∑ i ∈ Finset.range x.cols, (vx.get r i k * d.weights.get i c k + x.get r i k * vp.get i c k)⟩,
      ?_, ⟨fun s => ⟨rfl, rfl, rfl⟩, ?_, ?_⟩, ?_⟩
    · intro s
      obtain ⟨a1, a2, a3⟩ := x1 s
      obtain ⟨b1, b2, b3⟩ := p1 s
      simp only [Layer.withParams, Layer.out, Layer.forward, Dense.forward, Option.map_map]
      rw [matmul_some (by rw [a2, b1, h1]) (by rw [a3, b3, h2]), Option.map_some, a1, a2, a3, b2]
      rfl
    · rintro ⟨r, c, k⟩ hi
      obtain ⟨a1, a2, a3⟩ := mem_places.mp hi
      show (∑ i ∈ Finset.range x.cols, (qx 0).get r i k * (qp 0).get i c k) = ∑ i ∈ Finset.range x.cols, x.get r i k * d.weights.get i c k
      refine Finset.sum_congr rfl fun j hj => ?_
      have hj := Finset.mem_range.mp hj
      have e1 := x2 (r, j, k) (mem_places.mpr ⟨a1, hj, a3⟩)
      have e2 := p2 (j, c, k) (mem_places.mpr ⟨h1 ▸ hj, a2, h2 ▸ a3⟩)
      simp only [el] at e1 e2
      rw [e1, e2]
    · rintro ⟨r, c, k⟩ hi
      obtain ⟨a1, a2, a3⟩ := mem_places.mp hi
      show HasDerivAt (fun s => ∑ i ∈ Finset.range x.cols, (qx s).get r i k * (qp s).get i c k)
        (∑ i ∈ Finset.range x.cols, (vx.get r i k * d.weights.get i c k + x.get r i k * vp.get i c k)) 0
      refine HasDerivAt.fun_sum fun j hj => ?_
      have hj := Finset.mem_range.mp hj
      have i1 : (r, j, k) ∈ places x := mem_places.mpr ⟨a1, hj, a3⟩
      have i2 : (j, c, k) ∈ places d.weights := mem_places.mpr ⟨h1 ▸ hj, a2, h2 ▸ a3⟩
      have e1 := x2 _ i1
      have e2 := p2 _ i2
      have d1 := x3 _ i1
      have d2 := p3 _ i2
      have := d1.mul d2
      simp only [el] at e1 e2 this
      rw [e1, e2] at this
      exact this
    · rw [inner_finset, inner_finset, inner_finset, hg, hdata]
      show (∑ k ∈ Finset.range e.chans, ∑ r ∈ Finset.range e.rows, ∑ c ∈ Finset.range e.cols,
          e.get r c k * ∑ i ∈ Finset.range x.cols, (vx.get r i k * d.weights.get i c k + x.get r i k * vp.get i c k)) =
        (∑ k ∈ Finset.range e.chans, ∑ r ∈ Finset.range e.rows, ∑ i ∈ Finset.range d.weights.rows,
          (∑ c ∈ Finset.range e.cols, e.get r c k * d.weights.get i c k) * vx.get r i k) +
        ∑ k ∈ Finset.range x.chans, ∑ i ∈ Finset.range x.cols, ∑ c ∈ Finset.range e.cols,
          (∑ r ∈ Finset.range x.rows, x.get r i k * e.get r c k) * vp.get i c k
      rw [s3, s1, ← Finset.sum_add_distrib]
      refine Finset.sum_congr rfl fun k _ => ?_
      simp only [Finset.sum_add_distrib, mul_add, Finset.mul_sum, Finset.sum_mul]
      congr 1
      · refine Finset.sum_congr rfl fun r _ => ?_
        rw [Finset.sum_comm, h1]
        exact Finset.sum_congr rfl fun i _ => Finset.sum_congr rfl fun c _ => by ring
      · calc _ = ∑ r ∈ Finset.range x.rows, ∑ i ∈ Finset.range x.cols, ∑ c ∈ Finset.range e.cols, e.get r c k * (x.get r i k * vp.get i c k) :=
              Finset.sum_congr rfl fun r _ => Finset.sum_comm
          _ = ∑ i ∈ Finset.range x.cols, ∑ r ∈ Finset.range x.rows, ∑ c ∈ Finset.range e.cols, e.get r c k * (x.get r i k * vp.get i c k) := Finset.sum_comm
          _ = _ := Finset.sum_congr rfl fun i _ => by
              rw [Finset.sum_comm]
              exact Finset.sum_congr rfl fun c _ => Finset.sum_congr rfl fun r _ => by ring
  | bias b =>
    simp only [Layer.forward, Bias.forward, Option.map_eq_some_iff, Prod.mk.injEq] at hf
    obtain ⟨y', hy, rfl, rfl⟩ := hf
    have hs := add_inv hy
    rw [add_some hs] at hy
    obtain rfl := Option.some.inj hy
    refine ⟨e, e, .bias { b with errors := b.errors ++ [e] }, rfl, he, Loss.Shape.trans he hs, trivial, ⟨rfl, rfl⟩, fun _ => ⟨e, rfl, rfl⟩, ?_⟩
    intro qx vx qp vp ⟨x1, x2, x3⟩ ⟨p1, p2, p3⟩
    simp only [Layer.params] at p1 p2 p3
    rw [(places_congr hs).symm] at p2 p3
    refine ⟨fun s => ⟨x.rows, x.cols, x.chans, fun r c k => (qx s).get r c k + (qp s).get r c k⟩,
      ⟨x.rows, x.cols, x.chans, fun r c k => vx.get r c k + vp.get r c k⟩, ?_, ⟨fun s => ⟨rfl, rfl, rfl⟩, ?_, ?_⟩, ?_⟩
    · intro s
      have a := x1 s
      have bb := p1 s
      simp only [Layer.withParams, Layer.out, Layer.forward, Bias.forward, Option.map_map]
      rw [add_some (a := qx s) (b := qp s) ⟨a.1.trans (hs.1.trans bb.1.symm), a.2.1.trans (hs.2.1.trans bb.2.1.symm), a.2.2.trans (hs.2.2.trans bb.2.2.symm)⟩,
        Option.map_some, a.1, a.2.1, a.2.2]
      rfl
    · intro i hi
      have e1 := x2 i hi
      have e2 := p2 i hi
      simp only [el] at e1 e2 ⊢
      rw [e1, e2]
    · exact fun i hi => (x3 i hi).add (p3 i hi)
    · unfold Calculus.inner
      rw [← total_add]
      refine total_congr fun i _ => ?_
      show el e i * (el vx i + el vp i) = _
      ring
  | activation k q =>
    obtain rfl : q = [] := hc
    simp only [Layer.forward, Option.some.injEq, Prod.mk.injEq, if_true, List.nil_append] at hf
    obtain ⟨rfl, rfl⟩ := hf
    obtain ⟨hk, hz⟩ := hreg
    have hse : Shape (Activation.derivative k x) e := ⟨he.1.symm, he.2.1.symm, he.2.2.symm⟩
    refine ⟨⟨x.rows, x.cols, x.chans, fun r c j => Activation.slope k (x.get r c j) * e.get r c j⟩, ⟨0, 0, 0, fun _ _ _ => 0⟩, .activation k [],
      ?_, ⟨rfl, rfl, rfl⟩, ⟨rfl, rfl, rfl⟩, rfl, rfl, fun h => by simp [Layer.trainable] at h, ?_⟩
    · simp only [Layer.backward, Activation.backward, multiply]
      rw [Loss.zip_of_shape hse]
      rfl
    intro qx vx qp vp ⟨x1, x2, x3⟩ _
    refine ⟨fun s => Activation.activate k (qx s), ⟨x.rows, x.cols, x.chans, fun r c j => Activation.slope k (x.get r c j) * vx.get r c j⟩,
      fun s => rfl, ⟨fun s => x1 s, ?_, ?_⟩, ?_⟩
    · intro i hi
      show Activation.value k (el (qx 0) i) = Activation.value k (el x i)
      rw [x2 i hi]
    · intro i hi
      have hs : HasDerivAt (Activation.value k) (Activation.slope k (el x i)) (el (qx 0) i) := by
        rw [x2 i hi]; exact Activation.C68_derivative_partial k hk _ (fun hkk => hz hkk i hi)
      exact hs.comp 0 (x3 i hi)
    · rw [inner_empty (a := ⟨0, 0, 0, _⟩) rfl, add_zero]
      unfold Calculus.inner
      refine (total_congr_shape (b := x) he _).trans ?_
      refine Eq.trans ?_ (total_congr_shape (a := ⟨x.rows, x.cols, x.chans, _⟩) (b := x) ⟨rfl, rfl, rfl⟩ _).symm
      refine total_congr fun i _ => ?_
      show el e i * (Activation.slope k (el x i) * el vx i) = Activation.slope k (el x i) * el e i * el vx i
      ring
  | flatten fr fc =>
    simp only [Layer.forward, Option.some.injEq, Prod.mk.injEq] at hf
    obtain ⟨rfl, rfl⟩ := hf
    obtain ⟨g, hg, hsg, hj⟩ := flatten_joint hreg e he
    refine ⟨g, ⟨0, 0, 0, fun _ _ _ => 0⟩, .flatten x.rows x.cols, by simp [Layer.backward, hg], hsg, ⟨rfl, rfl, rfl⟩, trivial, trivial,
      fun h => by simp [Layer.trainable] at h, ?_⟩
    intro qx vx qp vp hx _
    obtain ⟨vz, hp, hi⟩ := hj qx vx hx
    exact ⟨fun s => flattenForward (qx s), vz, fun s => rfl, hp, by rw [hi, inner_empty (a := ⟨0, 0, 0, _⟩) rfl, add_zero]⟩

theorem predict_nil (x : Tensor ℝ) : predict [] x = some x := rfl

theorem predict_cons (n : Node) (rest : List Node) (x : Tensor ℝ) : predict (n :: rest) x = (n.layer.out x).bind (predict rest) := by
  unfold predict Layer.out
  simp only [forwardAll]
  cases n.layer.forward x false with
  | none => rfl
  | some r =>
    simp only [Option.bind_some, Option.map_some, Option.map_map]
    rfl

/-- Training does not change what is computed. -/
theorem out_training (l : Layer) (x : Tensor ℝ) : (l.forward x true).map (·.1) = l.out x := by
  cases l <;> simp [Layer.out, Layer.forward, Dense.forward, Option.map_map, Function.comp_def]

theorem predict_training (ns : List Node) (x : Tensor ℝ) : (forwardAll ns x true).map (·.1) = predict ns x := by
  induction ns generalizing x with
  | nil => rfl
  | cons n rest ih =>
    rw [predict_cons, ← out_training]
    simp only [forwardAll]
    cases n.layer.forward x true with
    | none => rfl
    | some r =>
      simp only [Option.bind_some, Option.map_some, Option.map_map]
      rw [← ih r.1]
      rfl

/-- Networks that differ only in what they remember of inputs and errors. -/
def AlikeAll (ns ns' : List Node) : Prop := List.Forall₂ (fun a b => b.clip = a.clip ∧ Alike a.layer b.layer) ns ns'

/-- A factor that is at least 1, and 1 if nothing is clipped. -/
def Factor (ns : List Node) (k : ℝ) : Prop := 1 ≤ k ∧ ((∀ n ∈ ns, n.clip = none) → k = 1)

theorem Factor.cons {ns : List Node} {k : ℝ} (h : Factor ns k) (n : Node) : Factor (n :: ns) k :=
  ⟨h.1, fun hn => h.2 fun m hm => hn m (List.mem_cons_of_mem _ hm)⟩

theorem inner_scaled (g v : Tensor ℝ) (a : ℝ) : Calculus.inner (map (fun w => w * a) g) v = a * Calculus.inner g v := by
  unfold Calculus.inner
  rw [← total_mul]
  show total g _ = total g _
  refine total_congr fun i _ => ?_
  show el g i * a * el v i = _
  ring

/-- A chain of layers: `backward` is adjoint to the derivative of `predict`, jointly in the input and all parameters; clipping multiplies
errors by factors. -/
theorem chain_joint : ∀ (ns : List Node) (x y : Tensor ℝ) (ns1 : List Node), Ready ns → Regular ns x → forwardAll ns x true = some (y, ns1) →
    ∀ e, Shape e y → ∃ (g : Tensor ℝ) (ns2 : List Node) (E : Nat → Tensor ℝ) (k0 : ℝ) (k : Nat → ℝ),
      backwardAll ns1 e = some (g, ns2) ∧ Shape g x ∧ AlikeAll ns ns2 ∧ Ready ns2 ∧ Factor ns k0 ∧ (∀ i, Factor ns (k i)) ∧
      (∀ i n, ns[i]? = some n → Shape (E i) n.layer.params ∧ ∃ n2, ns2[i]? = some n2 ∧
        (n.layer.trainable = true → ∃ err, n2.layer.queued = n.layer.queued ++ [err] ∧ Regularised n.layer (E i) err)) ∧
      ∀ (qx : ℝ → Tensor ℝ) (vx : Tensor ℝ) (qp : Nat → ℝ → Tensor ℝ) (vp : Nat → Tensor ℝ), Path qx x vx →
        (∀ i n, ns[i]? = some n → Path (qp i) n.layer.params (vp i)) →
        ∃ z vz, (∀ s, predict (setAll ns fun i => qp i s) (qx s) = some (z s)) ∧ Path z y vz ∧
          Calculus.inner e vz = k0 * Calculus.inner g vx + ∑ i ∈ Finset.range ns.length, k i * Calculus.inner (E i) (vp i) := by
  intro ns
  induction ns with
  | nil =>
    intro x y ns1 _ _ hf e he
    simp only [forwardAll, Option.some.injEq, Prod.mk.injEq] at hf
    obtain ⟨rfl, rfl⟩ := hf
    refine ⟨e, [], fun _ => e, 1, fun _ => 1, rfl, he, .nil, by simp [Ready], ⟨le_refl _, fun _ => rfl⟩, fun _ => ⟨le_refl _, fun _ => rfl⟩, by simp, ?_⟩
    intro qx vx qp vp hx _
    exact ⟨qx, vx, fun s => rfl, hx, by simp⟩
  | cons n rest ih =>
    intro x y ns1 hready hreg hf e he
    simp only [forwardAll] at hf
    obtain ⟨⟨z0, l1⟩, hl, hf⟩ := Option.bind_eq_some_iff.mp hf
    obtain ⟨⟨y', rest1⟩, hr, hf⟩ := Option.map_eq_some_iff.mp hf
    simp only [Prod.mk.injEq] at hf hr
    obtain ⟨rfl, rfl⟩ := hf
    obtain ⟨hreg1, hreg2⟩ := hreg
    have hout : n.layer.out x = some z0 := by rw [← out_training, hl]; rfl
    obtain ⟨g', rest2, E', k0', k', hb, hsg, hal, hrd, hk0, hk, herr, hj⟩ :=
      ih z0 y' rest1 (fun m hm => hready m (List.mem_cons_of_mem _ hm)) (hreg2 z0 hout) hr e he
    obtain ⟨hcl, hth⟩ := hready n List.mem_cons_self
    obtain ⟨g'', data, l2, hb2, hsg2, hsd, hcl2, hal2, herr2, hj2⟩ := layer_joint hcl hreg1 hl g' hsg
    obtain ⟨a, ha0, ha1, ha2, hclip⟩ : ∃ a : ℝ, 0 < a ∧ a ≤ 1 ∧ (n.clip = none → a = 1) ∧
        clipped n.clip g'' = map (fun v => v * a) g'' := by
      cases hc : n.clip with
      | none => exact ⟨1, one_pos, le_refl _, fun _ => rfl, by show g'' = map (fun v => v * 1) g''; unfold map; simp only [mul_one]⟩
      | some t =>
        obtain ⟨a, h1, h2, h3⟩ := clip_scaled (hth t hc) g''
        exact ⟨a, h1, h2, fun h => by simp at h, h3⟩
    refine ⟨map (fun v => v * a) g'', { n with layer := l2 } :: rest2, fun i => Nat.casesOn i data E', k0' / a,
      fun i => Nat.casesOn i k0' k', ?_, hsg2, .cons ⟨rfl, hal2⟩ hal, ?_, ⟨?_, ?_⟩, ?_, ?_, ?_⟩
    · have hnb : Node.backward { n with layer := l1 } g' = some (map (fun v => v * a) g'', { n with layer := l2 }) := by
        simp only [Node.backward, hb2, Option.map_some, hclip]
      simp only [backwardAll, hb, Option.bind_some, hnb, Option.map_some]
    · intro m hm
      rcases List.mem_cons.mp hm with rfl | hm
      · exact ⟨hcl2, hth⟩
      · exact hrd m hm
    · rw [le_div_iff₀ ha0]
      have := hk0.1
      linarith
    · intro hn
      rw [ha2 (hn n List.mem_cons_self), hk0.2 fun m hm => hn m (List.mem_cons_of_mem _ hm), div_one]
    · intro i
      cases i with
      | zero => exact hk0.cons n
      | succ i => exact (hk i).cons n
    · intro i m hm
      cases i with
      | zero =>
        simp only [List.getElem?_cons_zero, Option.some.injEq] at hm
        subst hm
        exact ⟨hsd, _, rfl, herr2⟩
      | succ i =>
        simp only [List.getElem?_cons_succ] at hm ⊢
        exact herr i m hm
    · intro qx vx qp vp hx hp
      obtain ⟨z, vz, hz, hpz, hin⟩ := hj2 qx vx (qp 0) (vp 0) hx (hp 0 n rfl)
      obtain ⟨w, vw, hw, hpw, hin2⟩ := hj z vz (fun i => qp (i + 1)) (fun i => vp (i + 1)) hpz (fun i m hm => hp (i + 1) m (by simpa using hm))
      refine ⟨w, vw, fun s => ?_, hpw, ?_⟩
      · show predict ({ n with layer := n.layer.withParams (qp 0 s) } :: setAll rest fun i => qp (i + 1) s) (qx s) = _
        rw [predict_cons, hz s]
        exact hw s
      · rw [hin2, hin, List.length_cons, Finset.sum_range_succ', inner_scaled]
        have ha : k0' / a * (a * Calculus.inner g'' vx) = k0' * Calculus.inner g'' vx := by
          rw [← mul_assoc, div_mul_cancel₀ _ ha0.ne']
        rw [ha]
        show _ = k0' * Calculus.inner g'' vx + (_ + k0' * Calculus.inner data (vp 0))
        ring

end Verif.Layers
