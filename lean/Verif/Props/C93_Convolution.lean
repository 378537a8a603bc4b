import Verif.Lemmas.Convolution
import Verif.Lemmas.Network
import Verif.Props.C91_Backpropagation
import Verif.Props.C67_Loss

/-!
C41 (the layer) and C93. The convolution layer: what it computes, what it learns from, and how a batch changes its kernels.
-/
namespace Verif.Layers
open Verif Views Calculus

/-! ### C41 -/

/-- C41, the convolution layer: for every input and kernels that fit, channel `f` of the result at `(r, c)` is the sum over all channels of the
input and all places of the kernel of filter `f` of their products. -/
theorem C41_layer {F : Type} [Field F] (l : Conv F) (K : Nat) (x : Tensor F) (hf : l.Fits K x) (training : Bool) :
    ∃ y l', l.forward x training = some (y, l') ∧ y.rows = l.inRows - K + 1 ∧ y.cols = l.inCols - K + 1 ∧ y.chans = l.weights.length ∧
      l'.weights = l.weights ∧
      ∀ r c f w, l.weights[f]? = some w → y.get r c f =
        ∑ k ∈ Finset.range l.depth, ∑ i ∈ Finset.range K, ∑ j ∈ Finset.range K, w.get i j k * x.get (r + i) (c + j) k := by
  obtain ⟨y, h1, h2, h3⟩ := forward_eq hf training
  refine ⟨y, _, h1, h2.1, h2.2.1, h2.2.2, by split <;> rfl, fun r c f w hw => ?_⟩
  have hlt : f < l.weights.length := by
    by_contra h
    rw [List.getElem?_eq_none (by omega)] at hw; cases hw
  rw [h3 r c f hlt]
  rw [kernelAt_eq hlt] at hw
  obtain rfl := Option.some.inj hw
  rfl

/-! ### Lemmas for C93 -/

section
variable {F : Type} [Field F]

theorem rotate4 (R A B C D : Finset Nat) (U : Nat → Nat → Nat → Nat → Nat → F) :
    ∑ r ∈ R, ∑ a ∈ A, ∑ b ∈ B, ∑ c ∈ C, ∑ d ∈ D, U r a b c d = ∑ a ∈ A, ∑ b ∈ B, ∑ c ∈ C, ∑ d ∈ D, ∑ r ∈ R, U r a b c d := by
  rw [Finset.sum_comm]
  refine Finset.sum_congr rfl fun a _ => ?_
  rw [Finset.sum_comm]
  refine Finset.sum_congr rfl fun b _ => ?_
  rw [Finset.sum_comm]
  refine Finset.sum_congr rfl fun c _ => ?_
  rw [Finset.sum_comm]

theorem rotate2 (R A B : Finset Nat) (U : Nat → Nat → Nat → F) :
    ∑ r ∈ R, ∑ a ∈ A, ∑ b ∈ B, U r a b = ∑ a ∈ A, ∑ b ∈ B, ∑ r ∈ R, U r a b := by
  rw [Finset.sum_comm]
  refine Finset.sum_congr rfl fun a _ => ?_
  rw [Finset.sum_comm]

/-- Moving the kernels: the errors of the kernels. -/
theorem adjoint_kernels (R C D n K : Nat) (e x : Nat → Nat → Nat → F) (v : Nat → Nat → Nat → Nat → F) :
    ∑ r ∈ Finset.range R, ∑ c ∈ Finset.range C, ∑ f ∈ Finset.range n, e r c f *
        ∑ k ∈ Finset.range D, ∑ a ∈ Finset.range K, ∑ b ∈ Finset.range K, v f a b k * x (r + a) (c + b) k =
      ∑ f ∈ Finset.range n, ∑ a ∈ Finset.range K, ∑ b ∈ Finset.range K, ∑ k ∈ Finset.range D,
        (∑ r ∈ Finset.range R, ∑ c ∈ Finset.range C, e r c f * x (a + r) (b + c) k) * v f a b k := by
  simp only [Finset.mul_sum, Finset.sum_mul]
  have h1 : ∀ r, ∑ c ∈ Finset.range C, ∑ f ∈ Finset.range n, ∑ k ∈ Finset.range D, ∑ a ∈ Finset.range K, ∑ b ∈ Finset.range K,
      e r c f * (v f a b k * x (r + a) (c + b) k) = _ := fun r => rotate4 _ _ _ _ _ _
  simp only [h1]
  rw [rotate4]
  refine Finset.sum_congr rfl fun f _ => ?_
  rw [rotate2]
  refine Finset.sum_congr rfl fun a _ => Finset.sum_congr rfl fun b _ => Finset.sum_congr rfl fun k _ =>
    Finset.sum_congr rfl fun r _ => Finset.sum_congr rfl fun c _ => ?_
  rw [add_comm r a, add_comm c b]; ring

/-- Moving the input: the error of the input. -/
theorem adjoint_inputs (R C N M D n K : Nat) (hN : R + K = N + 1) (hM : C + K = M + 1) (e v : Nat → Nat → Nat → F) (w : Nat → Nat → Nat → Nat → F) :
    ∑ r ∈ Finset.range R, ∑ c ∈ Finset.range C, ∑ f ∈ Finset.range n, e r c f *
        ∑ k ∈ Finset.range D, ∑ a ∈ Finset.range K, ∑ b ∈ Finset.range K, w f a b k * v (r + a) (c + b) k =
      ∑ r ∈ Finset.range N, ∑ c ∈ Finset.range M, ∑ k ∈ Finset.range D,
        (∑ f ∈ Finset.range n, ∑ a ∈ Finset.range K, ∑ b ∈ Finset.range K, w f a b k *
          (if a ≤ r ∧ r - a < R ∧ b ≤ c ∧ c - b < C then e (r - a) (c - b) f else 0)) * v r c k := by
  simp only [Finset.mul_sum, Finset.sum_mul]
  have h1 : ∀ r, ∑ c ∈ Finset.range C, ∑ f ∈ Finset.range n, ∑ k ∈ Finset.range D, ∑ a ∈ Finset.range K, ∑ b ∈ Finset.range K,
      e r c f * (w f a b k * v (r + a) (c + b) k) = _ := fun r => rotate4 _ _ _ _ _ _
  simp only [h1]
  rw [rotate4]
  have h2 : ∀ r c, ∑ k ∈ Finset.range D, ∑ f ∈ Finset.range n, ∑ a ∈ Finset.range K, ∑ b ∈ Finset.range K,
      w f a b k * (if a ≤ r ∧ r - a < R ∧ b ≤ c ∧ c - b < C then e (r - a) (c - b) f else 0) * v r c k =
      ∑ f ∈ Finset.range n, ∑ k ∈ Finset.range D, ∑ a ∈ Finset.range K, ∑ b ∈ Finset.range K,
      w f a b k * (if a ≤ r ∧ r - a < R ∧ b ≤ c ∧ c - b < C then e (r - a) (c - b) f else 0) * v r c k := fun r c => Finset.sum_comm
  simp only [h2]
  have h3 : ∀ r, ∑ c ∈ Finset.range M, ∑ f ∈ Finset.range n, ∑ k ∈ Finset.range D, ∑ a ∈ Finset.range K, ∑ b ∈ Finset.range K,
      w f a b k * (if a ≤ r ∧ r - a < R ∧ b ≤ c ∧ c - b < C then e (r - a) (c - b) f else 0) * v r c k = _ := fun r => rotate4 _ _ _ _ _ _
  simp only [h3]
  refine Eq.trans ?_ (rotate4 _ _ _ _ _ _).symm
  refine Finset.sum_congr rfl fun f _ => Finset.sum_congr rfl fun k _ => Finset.sum_congr rfl fun a ha => Finset.sum_congr rfl fun b hb => ?_
  have ha := Finset.mem_range.mp ha
  have hb := Finset.mem_range.mp hb
  have h := adjoint_input R C N M a b (by omega) (by omega) (fun r c => e r c f) (fun r c => v r c k)
  have e1 : ∑ r ∈ Finset.range R, ∑ c ∈ Finset.range C, e r c f * (w f a b k * v (r + a) (c + b) k) =
      w f a b k * ∑ r ∈ Finset.range R, ∑ c ∈ Finset.range C, e r c f * v (r + a) (c + b) k := by
    simp only [Finset.mul_sum]
    exact Finset.sum_congr rfl fun _ _ => Finset.sum_congr rfl fun _ _ => by ring
  rw [e1, h]
  simp only [Finset.mul_sum]
  exact Finset.sum_congr rfl fun _ _ => Finset.sum_congr rfl fun _ _ => by ring

end

/-- What the layer computes. -/
noncomputable def Conv.out (l : Conv ℝ) (x : Tensor ℝ) : Option (Tensor ℝ) := (l.forward x false).map (·.1)

/-- The layer with other kernels. -/
def Conv.withKernels (l : Conv ℝ) (q : Nat → Tensor ℝ) : Conv ℝ := { l with weights := (List.range l.weights.length).map q }

theorem Dims.shape {a b : Tensor ℝ} {r c k : Nat} (ha : Dims a r c k) (hb : Dims b r c k) : Shape a b :=
  ⟨ha.1.trans hb.1.symm, ha.2.1.trans hb.2.1.symm, ha.2.2.trans hb.2.2.symm⟩

theorem Dims.of_shape {a b : Tensor ℝ} {r c k : Nat} (hs : Shape a b) (hb : Dims b r c k) : Dims a r c k :=
  ⟨hs.1.trans hb.1, hs.2.1.trans hb.2.1, hs.2.2.trans hb.2.2⟩

theorem inner_rck {a : Tensor ℝ} {r c k : Nat} (h : Dims a r c k) (b : Tensor ℝ) :
    Calculus.inner a b = ∑ i ∈ Finset.range r, ∑ j ∈ Finset.range c, ∑ l ∈ Finset.range k, a.get i j l * b.get i j l := by
  rw [inner_finset, h.1, h.2.1, h.2.2, rotate2]

theorem Path.at {q : ℝ → Tensor ℝ} {p v : Tensor ℝ} (h : Path q p v) {r c k : Nat} (h1 : r < p.rows) (h2 : c < p.cols) (h3 : k < p.chans) :
    (q 0).get r c k = p.get r c k ∧ HasDerivAt (fun s => (q s).get r c k) (v.get r c k) 0 :=
  ⟨h.2.1 (r, c, k) ((mem_places).mpr ⟨h1, h2, h3⟩), h.2.2 (r, c, k) ((mem_places).mpr ⟨h1, h2, h3⟩)⟩

theorem withKernels_at (l : Conv ℝ) (q : Nat → Tensor ℝ) {f : Nat} (h : f < l.weights.length) : (l.withKernels q).kernelAt f = q f := by
  unfold Conv.kernelAt Conv.withKernels
  rw [List.getD_eq_getElem?_getD, List.getElem?_map, List.getElem?_range h]
  rfl

theorem withKernels_fits {l : Conv ℝ} {K : Nat} {x x' : Tensor ℝ} (hf : l.Fits K x) (hx : Shape x' x) (q : Nat → Tensor ℝ)
    (hq : ∀ f w, l.weights[f]? = some w → Shape (q f) w) : (l.withKernels q).Fits K x' := by
  refine ⟨Dims.of_shape hx hf.dims, ?_, hf.depth, by simpa [Conv.withKernels] using hf.filters, hf.kernel, hf.rows, hf.cols, hf.rows64, hf.cols64⟩
  intro w hw
  obtain ⟨f, hlt, rfl⟩ := List.mem_map.mp hw
  have hlt := List.mem_range.mp hlt
  exact Dims.of_shape (hq f _ (kernelAt_eq hlt)) (hf.kernels _ (List.mem_of_getElem? (kernelAt_eq hlt)))

theorem conv_joint (l : Conv ℝ) (K : Nat) (x : Tensor ℝ) (hf : l.Fits K x) (hK : K ≤ 3) (hi : l.inputs = []) (e : Tensor ℝ)
    (he : Dims e (l.inRows - K + 1) (l.inCols - K + 1) l.weights.length) :
    ∃ y l1 full l2, ∃ (change : List (Tensor ℝ)) (data : Nat → Tensor ℝ), l.forward x true = some (y, l1) ∧ l.out x = some y ∧
      Dims y (l.inRows - K + 1) (l.inCols - K + 1) l.weights.length ∧
      l1.backward e = some (sumChannels full, l2) ∧ l2 = { l with changes := l.changes ++ [change] } ∧ Shape full x ∧
      change.length = l.weights.length ∧
      (∀ f w, l.weights[f]? = some w → ∃ g, change[f]? = some g ∧ Shape g w ∧ Shape (data f) w ∧
        ∀ i ∈ places w, el g i = l.factor * el (data f) i) ∧
      ∀ (qx : ℝ → Tensor ℝ) (vx : Tensor ℝ) (qw : Nat → ℝ → Tensor ℝ) (vw : Nat → Tensor ℝ), Path qx x vx → (∀ f w, l.weights[f]? = some w → Path (qw f) w (vw f)) →
        ∃ z vz, (∀ s, (l.withKernels fun f => qw f s).out (qx s) = some (z s)) ∧ Path z y vz ∧
          Calculus.inner e vz = Calculus.inner full vx + ∑ f ∈ Finset.range l.weights.length, Calculus.inner (data f) (vw f) := by
  obtain ⟨y, y1, y2, y3⟩ := forward_eq hf true
  obtain ⟨y', o1, o2, o3⟩ := forward_eq hf false
  have hyy : y' = y := by
    unfold Conv.forward at y1 o1
    obtain ⟨a, ha, ha'⟩ := Option.map_eq_some_iff.mp y1
    obtain ⟨b, hb, hb'⟩ := Option.map_eq_some_iff.mp o1
    rw [ha] at hb
    obtain rfl := Option.some.inj hb
    exact (congrArg Prod.fst hb').symm.trans (congrArg Prod.fst ha')
  subst hyy
  obtain ⟨full, f1, f2, f3⟩ := inputError_eq hf hK he
  obtain ⟨change, c1, c2, c3⟩ := mapM_zipIdx (fun w => l.weightChange x e w.1 w.2) l.weights 0
    (fun w f s => Dims s K K l.depth ∧ ∀ a b k, k < l.depth → s.get a b k =
      l.factor * ∑ r ∈ Finset.range (l.inRows - K + 1), ∑ c ∈ Finset.range (l.inCols - K + 1), e.get r c f * x.get (a + r) (b + c) k)
    (fun i w hw => weightChange_eq hf he (List.mem_of_getElem? hw) _)
  refine ⟨y', _, full, _, change, fun f => ⟨K, K, l.depth, fun a b k => ∑ r ∈ Finset.range (l.inRows - K + 1), ∑ c ∈ Finset.range (l.inCols - K + 1),
    e.get r c f * x.get (a + r) (b + c) k⟩, y1, ?_, y2, ?_, rfl, f2.shape hf.dims, c2, ?_, ?_⟩
  · unfold Conv.out; rw [o1]; rfl
  · simp only [if_true]
    unfold Conv.backward
    simp only [hi, List.nil_append, averageInputs, Option.bind_some]
    have e1 : Conv.inputError { l with inputs := [x] } e = l.inputError e := rfl
    have e2 : (fun w : Tensor ℝ × Nat => Conv.weightChange { l with inputs := [x] } x e w.1 w.2) = fun w => l.weightChange x e w.1 w.2 := rfl
    rw [e1, f1, Option.bind_some, e2, c1]
    obtain ⟨_, _, _, _, _, _, inputs, _⟩ := l
    simp only at hi
    subst hi
    rfl
  · intro f w hw
    obtain ⟨g, g1, g2, g3⟩ := c3 f w hw
    have hdw := hf.kernels w (List.mem_of_getElem? hw)
    refine ⟨g, g1, g2.shape hdw, Dims.shape ⟨rfl, rfl, rfl⟩ hdw, fun i hi => ?_⟩
    obtain ⟨a, b, k⟩ := i
    have := (mem_places).mp hi
    rw [Nat.zero_add] at g3
    exact g3 a b k (by rw [← hdw.2.2]; exact this.2.2)
  · intro qx vx qw vw hx hw
    have hfits : ∀ s, (l.withKernels fun f => qw f s).Fits K (qx s) := fun s => withKernels_fits hf (hx.1 s) _ fun f w h => (hw f w h).1 s
    have hz : ∀ s, ∃ z, (l.withKernels fun f => qw f s).out (qx s) = some z ∧
        Dims z (l.inRows - K + 1) (l.inCols - K + 1) l.weights.length ∧
        ∀ r c f, f < l.weights.length → z.get r c f =
          ∑ k ∈ Finset.range l.depth, ∑ a ∈ Finset.range K, ∑ b ∈ Finset.range K, (qw f s).get a b k * (qx s).get (r + a) (c + b) k := by
      intro s
      obtain ⟨z, z1, z2, z3⟩ := forward_eq (hfits s) false
      have hn : (l.withKernels fun f => qw f s).weights.length = l.weights.length := by simp [Conv.withKernels]
      refine ⟨z, by unfold Conv.out; rw [z1]; rfl, hn ▸ z2, fun r c f hlt => ?_⟩
      rw [z3 r c f (hn ▸ hlt), withKernels_at l _ hlt]
      rfl
    choose z hz using hz
    let vz : Tensor ℝ := ⟨l.inRows - K + 1, l.inCols - K + 1, l.weights.length, fun r c f =>
      (∑ k ∈ Finset.range l.depth, ∑ a ∈ Finset.range K, ∑ b ∈ Finset.range K, (vw f).get a b k * x.get (r + a) (c + b) k) +
      ∑ k ∈ Finset.range l.depth, ∑ a ∈ Finset.range K, ∑ b ∈ Finset.range K, (l.kernelAt f).get a b k * vx.get (r + a) (c + b) k⟩
    -- elements in range
    have hat : ∀ r c f k a b, r < l.inRows - K + 1 → c < l.inCols - K + 1 → f < l.weights.length → k < l.depth → a < K → b < K →
        ((qw f 0).get a b k = (l.kernelAt f).get a b k ∧ HasDerivAt (fun s => (qw f s).get a b k) ((vw f).get a b k) 0) ∧
        ((qx 0).get (r + a) (c + b) k = x.get (r + a) (c + b) k ∧ HasDerivAt (fun s => (qx s).get (r + a) (c + b) k) (vx.get (r + a) (c + b) k) 0) := by
      intro r c f k a b hr hc hfl hk ha hb
      obtain ⟨w1, w2, w3⟩ := hf.kernels _ (List.mem_of_getElem? (kernelAt_eq hfl))
      obtain ⟨x1, x2, x3⟩ := hf.dims
      have k1 := hf.rows; have k2 := hf.cols
      exact ⟨(hw f _ (kernelAt_eq hfl)).at (by omega) (by omega) (by omega), hx.at (by omega) (by omega) (by omega)⟩
    refine ⟨z, vz, fun s => (hz s).1, ⟨fun s => (hz s).2.1.shape y2, ?_, ?_⟩, ?_⟩
    · rintro ⟨r, c, f⟩ hmem
      have hm := (mem_places).mp hmem
      rw [y2.1, y2.2.1, y2.2.2] at hm
      show (z 0).get r c f = y'.get r c f
      rw [(hz 0).2.2 r c f hm.2.2, y3 r c f hm.2.2]
      refine Finset.sum_congr rfl fun k hk => Finset.sum_congr rfl fun a ha => Finset.sum_congr rfl fun b hb => ?_
      have := hat r c f k a b hm.1 hm.2.1 hm.2.2 (Finset.mem_range.mp hk) (Finset.mem_range.mp ha) (Finset.mem_range.mp hb)
      rw [this.1.1, this.2.1]
    · rintro ⟨r, c, f⟩ hmem
      have hm := (mem_places).mp hmem
      rw [y2.1, y2.2.1, y2.2.2] at hm
      show HasDerivAt (fun s => (z s).get r c f) (vz.get r c f) 0
      have hfun : (fun s => (z s).get r c f) = fun s => ∑ k ∈ Finset.range l.depth, ∑ a ∈ Finset.range K, ∑ b ∈ Finset.range K,
          (qw f s).get a b k * (qx s).get (r + a) (c + b) k := by
        funext s; exact (hz s).2.2 r c f hm.2.2
      rw [hfun]
      have hd : HasDerivAt (fun s => ∑ k ∈ Finset.range l.depth, ∑ a ∈ Finset.range K, ∑ b ∈ Finset.range K,
          (qw f s).get a b k * (qx s).get (r + a) (c + b) k)
          (∑ k ∈ Finset.range l.depth, ∑ a ∈ Finset.range K, ∑ b ∈ Finset.range K,
            ((vw f).get a b k * x.get (r + a) (c + b) k + (l.kernelAt f).get a b k * vx.get (r + a) (c + b) k)) 0 := by
        refine HasDerivAt.fun_sum fun k hk => HasDerivAt.fun_sum fun a ha => HasDerivAt.fun_sum fun b hb => ?_
        have := hat r c f k a b hm.1 hm.2.1 hm.2.2 (Finset.mem_range.mp hk) (Finset.mem_range.mp ha) (Finset.mem_range.mp hb)
        have hm := this.1.2.mul this.2.2
        rw [this.1.1, this.2.1] at hm
        exact hm
      refine hd.congr_deriv ?_
      simp only [Finset.sum_add_distrib, vz]
    · have k1 := hf.rows; have k2 := hf.cols; have k3 := hf.kernel
      rw [inner_rck he]
      simp only [vz, mul_add, Finset.sum_add_distrib]
      rw [adjoint_kernels (l.inRows - K + 1) (l.inCols - K + 1) l.depth l.weights.length K e.get x.get (fun f => (vw f).get),
        adjoint_inputs (l.inRows - K + 1) (l.inCols - K + 1) l.inRows l.inCols l.depth l.weights.length K (by omega) (by omega) e.get vx.get
          (fun f => (l.kernelAt f).get), add_comm, inner_rck f2]
      congr 1
      · refine Finset.sum_congr rfl fun r _ => Finset.sum_congr rfl fun c _ => Finset.sum_congr rfl fun k hk => ?_
        rw [f3 r c k (Finset.mem_range.mp hk)]
        congr 1
        refine Finset.sum_congr rfl fun f _ => Finset.sum_congr rfl fun a _ => Finset.sum_congr rfl fun b _ => ?_
        unfold extended
        rw [he.1, he.2.1]
      · refine Finset.sum_congr rfl fun f _ => ?_
        rw [inner_rck (r := K) (c := K) (k := l.depth) ⟨rfl, rfl, rfl⟩]

theorem withKernels_set (l : Conv ℝ) (f : Nat) (p : Tensor ℝ) :
    (l.withKernels fun g => if g = f then p else l.kernelAt g) = { l with weights := l.weights.set f p } := by
  unfold Conv.withKernels
  congr 1
  refine List.ext_getElem? fun g => ?_
  rw [List.getElem?_map]
  by_cases hg : g < l.weights.length
  · rw [List.getElem?_range hg, Option.map_some]
    by_cases h : g = f
    · subst h; rw [if_pos rfl, List.getElem?_set_self hg]
    · rw [if_neg h, List.getElem?_set_ne (fun h' => h h'.symm), kernelAt_eq hg]
  · rw [List.getElem?_eq_none (by simpa using hg), List.getElem?_eq_none (by simpa using hg)]; rfl

theorem withKernels_self (l : Conv ℝ) : (l.withKernels l.kernelAt) = l := by
  have h := withKernels_set l l.weights.length (l.kernelAt l.weights.length)
  have e : (fun g => if g = l.weights.length then l.kernelAt l.weights.length else l.kernelAt g) = l.kernelAt := by
    funext g; split <;> simp_all
  rw [e] at h
  rw [h, List.set_eq_of_length_le (Nat.le_refl _)]

/-! ### C93 -/

/-- C93. Kernels of at most three rows and columns, no L2 option: when the error given to the layer is the gradient of the loss with respect to the
layer's result, then the change queued for each kernel is the gradient of the loss with respect to this kernel. -/
theorem C93_kernel_partial (l : Conv ℝ) (K : Nat) (x y e : Tensor ℝ) (L : Tensor ℝ → Option ℝ) (hf : l.Fits K x) (hK : K ≤ 3) (hi : l.inputs = [])
    (hs : l.strength = none) (hy : l.out x = some y) (he : IsGradient L y e) :
    ∃ l1 g l2 change, l.forward x true = some (y, l1) ∧ l1.backward e = some (g, l2) ∧ l2 = { l with changes := l.changes ++ [change] } ∧
      change.length = l.weights.length ∧
      ∀ f w, l.weights[f]? = some w → ∃ c, change[f]? = some c ∧
        IsGradient (fun p => (Conv.out { l with weights := l.weights.set f p } x).bind L) w c := by
  obtain ⟨y', hy', hd, _⟩ := forward_eq hf false
  have hyy : y' = y := by
    unfold Conv.out at hy
    rw [hy'] at hy
    exact Option.some.inj hy
  subst hyy
  obtain ⟨hse, hgr⟩ := (IsGradient_iff L y' e).mp he
  obtain ⟨y2, l1, full, l2, change, data, h1, h2, h3, h4, h5, h6, h7, h8, h9⟩ := conv_joint l K x hf hK hi e (Dims.of_shape hse hd)
  rw [hy] at h2
  obtain rfl := Option.some.inj h2
  refine ⟨l1, _, l2, change, h1, h4, h5, h7, fun f w hw => ?_⟩
  obtain ⟨c, c1, c2, c3, c4⟩ := h8 f w hw
  refine ⟨c, c1, (IsGradient_iff _ _ _).mpr ⟨c2, fun q v hp => ?_⟩⟩
  have hlt : f < l.weights.length := by
    by_contra h
    rw [List.getElem?_eq_none (by omega)] at hw; cases hw
  obtain ⟨z, vz, z1, z2, z3⟩ := h9 (fun _ => x) ⟨x.rows, x.cols, x.chans, fun _ _ _ => 0⟩ (fun g s => if g = f then q s else l.kernelAt g)
    (fun g => if g = f then v else ⟨(l.kernelAt g).rows, (l.kernelAt g).cols, (l.kernelAt g).chans, fun _ _ _ => 0⟩) (Path.const x)
    (fun g u hu => by
      by_cases hgf : g = f
      · subst hgf
        rw [hw] at hu
        obtain rfl := Option.some.inj hu
        simp only [if_true]; exact hp
      · simp only [hgf, if_false]
        have hlt : g < l.weights.length := by
          by_contra h
          rw [List.getElem?_eq_none (by omega)] at hu; cases hu
        rw [kernelAt_eq hlt] at hu
        obtain rfl := Option.some.inj hu
        exact Path.const _)
  obtain ⟨fn, f1, f2⟩ := hgr z vz z2
  refine ⟨fn, fun s => ?_, f2.congr_deriv ?_⟩
  · rw [← withKernels_set, z1 s, Option.bind_some, f1 s]
  · rw [z3, inner_zero, zero_add, Finset.sum_eq_single_of_mem f (Finset.mem_range.mpr hlt)]
    · simp only [if_true]
      unfold Calculus.inner
      rw [total_congr_shape (Loss.Shape.trans c3 ⟨c2.1.symm, c2.2.1.symm, c2.2.2.symm⟩)]
      refine total_congr fun i hi => ?_
      rw [c4 i (by rw [← places_congr c2]; exact hi)]
      simp [Conv.factor, hs]
    · intro g _ hg
      simp [hg, inner_zero]

/-- C93. Kernels of at most three rows and columns, an input with one channel: the error returned for the input is the gradient of the loss
with respect to the input. -/
theorem C93_input_partial (l : Conv ℝ) (K : Nat) (x y e : Tensor ℝ) (L : Tensor ℝ → Option ℝ) (hf : l.Fits K x) (hK : K ≤ 3) (hi : l.inputs = [])
    (h1 : l.depth = 1) (hy : l.out x = some y) (he : IsGradient L y e) :
    ∃ l1 g l2, l.forward x true = some (y, l1) ∧ l1.backward e = some (g, l2) ∧ IsGradient (fun x' => (l.out x').bind L) x g := by
  obtain ⟨y', hy', hd, _⟩ := forward_eq hf false
  have hyy : y' = y := by
    unfold Conv.out at hy
    rw [hy'] at hy
    exact Option.some.inj hy
  subst hyy
  obtain ⟨hse, hgr⟩ := (IsGradient_iff L y' e).mp he
  obtain ⟨y2, l1, full, l2, change, data, g1, g2, g3, g4, g5, g6, g7, g8, g9⟩ := conv_joint l K x hf hK hi e (Dims.of_shape hse hd)
  rw [hy] at g2
  obtain rfl := Option.some.inj g2
  obtain ⟨x1, x2, x3⟩ := hf.dims
  have hfc : full.chans = 1 := by rw [g6.2.2, x3, h1]
  refine ⟨l1, _, l2, g1, g4, (IsGradient_iff _ _ _).mpr ⟨⟨g6.1, g6.2.1, ?_⟩, fun q v hp => ?_⟩⟩
  · show 1 = x.chans
    rw [x3, h1]
  · obtain ⟨z, vz, z1, z2, z3⟩ := g9 q v (fun f _ => l.kernelAt f)
      (fun f => ⟨(l.kernelAt f).rows, (l.kernelAt f).cols, (l.kernelAt f).chans, fun _ _ _ => 0⟩) hp
      (fun f u hu => by
        have hlt : f < l.weights.length := by
          by_contra h
          rw [List.getElem?_eq_none (by omega)] at hu; cases hu
        rw [kernelAt_eq hlt] at hu
        obtain rfl := Option.some.inj hu
        exact Path.const _)
    obtain ⟨fn, f1, f2⟩ := hgr z vz z2
    refine ⟨fn, fun s => ?_, f2.congr_deriv ?_⟩
    · have := z1 s
      rw [withKernels_self] at this
      rw [this, Option.bind_some, f1 s]
    · rw [z3, Finset.sum_eq_zero fun f _ => inner_zero _ _ _ _, add_zero]
      unfold Calculus.inner
      have hsh : Shape (sumChannels full) full := ⟨rfl, rfl, by rw [hfc]; rfl⟩
      rw [total_congr_shape hsh]
      refine total_congr fun i hi => ?_
      have hi := mem_places.mp hi
      rw [hfc] at hi
      have hk : i.2.2 = 0 := by omega
      congr 1
      show _ = (sumToChannel full 0 1).get i.1 i.2.1 i.2.2
      rw [toChannel_get full hfc, if_pos hk]
      show full.get i.1 i.2.1 i.2.2 = _
      rw [hk]

/-- C93 is violated for inputs with several channels: the error that is returned has one channel whatever the input, so an activation layer before
the convolution throws when it is given this error. -/
theorem C93_depth_violated {F : Type} [Field F] (l : Conv F) (e g : Tensor F) (l2 : Conv F) (h : l.backward e = some (g, l2)) :
    g.chans = 1 ∧ ∀ (slopes : Tensor F → Tensor F) (x : Tensor F), (slopes x).chans ≠ 1 → Activation.backward slopes [x] g = none := by
  unfold Conv.backward at h
  obtain ⟨x, _, h⟩ := Option.bind_eq_some_iff.mp h
  obtain ⟨full, _, h⟩ := Option.bind_eq_some_iff.mp h
  obtain ⟨change, _, h⟩ := Option.map_eq_some_iff.mp h
  have hg : g = sumChannels full := (congrArg Prod.fst h).symm
  refine ⟨by rw [hg]; rfl, fun slopes x hx => ?_⟩
  show multiply (slopes x) g = none
  unfold multiply Views.zip
  rw [if_pos]
  left
  rw [hg]
  exact hx

/-- C93 is violated for kernels of four or more rows: training always throws, because the full convolution is too small. -/
theorem C93_large_kernel_violated {F : Type} [Field F] (l : Conv F) (K : Nat) (x e : Tensor F) (hf : l.Fits K x) (hK : 4 ≤ K)
    (he : Dims e (l.inRows - K + 1) (l.inCols - K + 1) l.weights.length) :
    ∃ y l1, l.forward x true = some (y, l1) ∧ l1.backward e = none := by
  obtain ⟨y, y1, _, _⟩ := forward_eq hf true
  refine ⟨y, _, y1, ?_⟩
  simp only [if_true]
  unfold Conv.backward
  have hnone : Conv.inputError { l with inputs := l.inputs ++ [x] } e = none := by
    unfold Conv.inputError
    obtain ⟨weights, inRows, inCols, depth, id, strength, inputs, changes⟩ := l
    have hfl := hf.filters
    have hdp := hf.depth
    have k1 := hf.rows; have k2 := hf.rows64
    simp only at hfl hdp he k1 k2 ⊢
    cases weights with
    | nil => simp at hfl
    | cons w ws =>
      obtain ⟨w1, w2, w3⟩ := hf.kernels w List.mem_cons_self
      obtain ⟨n, rfl⟩ : ∃ n, depth = n + 1 := ⟨depth - 1, by omega⟩
      rw [List.zipIdx_cons, List.foldlM_cons, List.range_succ_eq_map, List.foldlM_cons]
      have hadd : ∀ k, add (⟨inRows, inCols, n + 1, fun _ _ _ => 0⟩ : Tensor F) (sumToChannel (fullConvolve (channelTo e 0) (channelTo w k)) k (n + 1)) = none := by
        intro k
        unfold add Views.zip
        rw [if_pos]
        right; left
        have := C80_full_shape_violated (channelTo e 0) (rotate180 (channelTo w k))
          (by show 4 ≤ w.rows; omega) (by show 0 < e.rows; have := he.1; omega)
          (by show e.rows + w.rows + 2 < 2 ^ 64; have := he.1; omega)
        have h2 : (fullCorrelation (channelTo e 0) (rotate180 (channelTo w k))).rows < e.rows + w.rows - 1 := this
        have h3 := he.1
        show inRows ≠ (fullCorrelation (channelTo e 0) (rotate180 (channelTo w k))).rows
        omega
      rw [hadd]; rfl
  rw [hnone]
  cases averageInputs (l.inputs ++ [x]) <;> rfl

/-- C93 is violated with the L2 option: the queued changes are the gradient of the loss times `1 + strength`. When the error is zero nothing is
changed, whatever the kernels are, so the option does not make them smaller. -/
theorem C93_l2_violated {F : Type} [Field F] (l : Conv F) (K : Nat) (x e : Tensor F) (hf : l.Fits K x) (hK : K ≤ 3) (hi : l.inputs = [])
    (he : Dims e (l.inRows - K + 1) (l.inCols - K + 1) l.weights.length) (h0 : ∀ r c f, e.get r c f = 0) :
    ∃ y l1 g l2 change, l.forward x true = some (y, l1) ∧ l1.backward e = some (g, l2) ∧ l2.changes = l.changes ++ [change] ∧
      change.length = l.weights.length ∧ ∀ c ∈ change, ∀ i j k, k < l.depth → c.get i j k = 0 := by
  obtain ⟨y, y1, _, _⟩ := forward_eq hf true
  obtain ⟨full, f1, f2, f3⟩ := inputError_eq hf hK he
  obtain ⟨change, c1, c2, c3⟩ := mapM_zipIdx (fun w => l.weightChange x e w.1 w.2) l.weights 0
    (fun w f s => Dims s K K l.depth ∧ ∀ a b k, k < l.depth → s.get a b k =
      l.factor * ∑ r ∈ Finset.range (l.inRows - K + 1), ∑ c ∈ Finset.range (l.inCols - K + 1), e.get r c f * x.get (a + r) (b + c) k)
    (fun i w hw => weightChange_eq hf he (List.mem_of_getElem? hw) _)
  refine ⟨y, _, sumChannels full, { l with inputs := [], changes := l.changes ++ [change] }, change, y1, ?_, rfl, c2, ?_⟩
  · simp only [if_true]
    unfold Conv.backward
    simp only [hi, List.nil_append, averageInputs, Option.bind_some]
    have e1 : Conv.inputError { l with inputs := [x] } e = l.inputError e := rfl
    have e2 : (fun w : Tensor F × Nat => Conv.weightChange { l with inputs := [x] } x e w.1 w.2) = fun w => l.weightChange x e w.1 w.2 := rfl
    rw [e1, f1, Option.bind_some, e2, c1]
    rfl
  · intro c hc i j k hk
    obtain ⟨f, hlt, rfl⟩ := List.mem_iff_getElem.mp hc
    obtain ⟨b, b1, _, b3⟩ := c3 f _ (kernelAt_eq (by omega))
    rw [List.getElem?_eq_getElem hlt] at b1
    obtain rfl := Option.some.inj b1
    rw [b3 i j k hk]
    simp [h0]

/-! ### Applying the changes -/

section
variable {F : Type} [Field F] [LinearOrder F]

theorem mbgd_filters (sqrt : F → F) (id : Nat) (o : Optimizer.Opt F) (ho : o.kind = .mbgd) (ws gs : List (Tensor F)) {r c k : Nat}
    (hlen : gs.length = ws.length) (hw : ∀ w ∈ ws, Dims w r c k) (hg : ∀ g ∈ gs, Dims g r c k) :
    ∃ us, applyFilters sqrt id ws gs o = some (us, o) ∧ us.length = ws.length ∧ (∀ u ∈ us, Dims u r c k) ∧
      ∀ (f : Nat) (w g : Tensor F), ws[f]? = some w → gs[f]? = some g → ∃ u, us[f]? = some u ∧ ∀ i j l, u.get i j l = w.get i j l - o.weights.rate * g.get i j l := by
  induction ws generalizing gs with
  | nil => exact ⟨[], by cases gs <;> rfl, rfl, by simp, by simp⟩
  | cons w ws ih =>
    cases gs with
    | nil => simp at hlen
    | cons g gs =>
      obtain ⟨us, u1, u2, u3, u4⟩ := ih gs (by simpa using hlen) (fun x hx => hw x (List.mem_cons_of_mem _ hx)) (fun x hx => hg x (List.mem_cons_of_mem _ hx))
      have hdw := hw w List.mem_cons_self
      have hdg := hg g List.mem_cons_self
      have hch : Optimizer.calculateWeightsChange o sqrt id w g =
          some (⟨w.rows, w.cols, w.chans, fun i j l => w.get i j l - g.get i j l * o.weights.rate⟩, o) := by
        obtain ⟨kind, hyper, step, nextId, weights, bias⟩ := o
        simp only at ho
        subst ho
        simp only [Optimizer.calculateWeightsChange, Optimizer.change, subtract, Views.zip]
        rw [if_neg]
        · rfl
        · rintro (h | h | h)
          · exact h (hdw.2.2.trans hdg.2.2.symm)
          · exact h (hdw.1.trans hdg.1.symm)
          · exact h (hdw.2.1.trans hdg.2.1.symm)
      refine ⟨_, by unfold applyFilters; rw [hch, Option.bind_some, u1]; rfl, by simp [u2], ?_, ?_⟩
      · intro u hu
        rcases List.mem_cons.mp hu with rfl | hu
        · exact hdw
        · exact u3 u hu
      · intro f w' g' h1 h2
        cases f with
        | zero =>
          simp only [List.getElem?_cons_zero, Option.some.injEq] at h1 h2
          subst h1 h2
          exact ⟨_, rfl, fun i j l => by show _ - g.get i j l * _ = _; ring⟩
        | succ f =>
          obtain ⟨u, v1, v2⟩ := u4 f w' g' (by simpa using h1) (by simpa using h2)
          exact ⟨u, by simpa using v1, v2⟩

/-- C93. With mini-batch gradient descent the changes of all records of a batch are subtracted one after the other: the kernels move by the
learning rate times the sum (not the average) of the records' changes. -/
theorem C93_apply (l : Conv F) (sqrt : F → F) (o : Optimizer.Opt F) (ho : o.kind = .mbgd) {r c k : Nat}
    (hw : ∀ w ∈ l.weights, Dims w r c k) (hc : ∀ ch ∈ l.changes, ch.length = l.weights.length ∧ ∀ g ∈ ch, Dims g r c k) :
    ∃ l', l.apply sqrt o = some (l', o) ∧ l'.changes = [] ∧ l'.weights.length = l.weights.length ∧
      ∀ (f : Nat) (w : Tensor F), l.weights[f]? = some w → ∃ u, l'.weights[f]? = some u ∧ Dims u r c k ∧
        ∀ i j m, u.get i j m = w.get i j m - o.weights.rate * (l.changes.map fun ch => ((ch[f]?).getD w).get i j m).sum := by
  have key : ∀ (chs : List (List (Tensor F))) (ws : List (Tensor F)), (∀ w ∈ ws, Dims w r c k) →
      (∀ ch ∈ chs, ch.length = ws.length ∧ ∀ g ∈ ch, Dims g r c k) →
      ∃ us, chs.foldlM (fun (s : List (Tensor F) × Optimizer.Opt F) change => applyFilters sqrt l.id s.1 change s.2) (ws, o) = some (us, o) ∧
        us.length = ws.length ∧ ∀ (f : Nat) (w w' : Tensor F), ws[f]? = some w → ∃ u, us[f]? = some u ∧ Dims u r c k ∧
          ∀ i j m, u.get i j m = w.get i j m - o.weights.rate * (chs.map fun ch => ((ch[f]?).getD w').get i j m).sum := by
    intro chs
    induction chs with
    | nil => exact fun ws hws _ => ⟨ws, rfl, rfl, fun f w w' h => ⟨w, h, hws w (List.mem_of_getElem? h), by simp⟩⟩
    | cons ch chs ih =>
      intro ws hws hchs
      obtain ⟨hl, hd⟩ := hchs ch List.mem_cons_self
      obtain ⟨us, u1, u2, u3, u4⟩ := mbgd_filters sqrt l.id o ho ws ch hl hws hd
      obtain ⟨vs, v1, v2, v3⟩ := ih us u3 fun ch' hch' => ⟨u2 ▸ (hchs ch' (List.mem_cons_of_mem _ hch')).1, (hchs ch' (List.mem_cons_of_mem _ hch')).2⟩
      refine ⟨vs, by rw [List.foldlM_cons, u1]; exact v1, v2.trans u2, fun f w w' hfw => ?_⟩
      have hlt : f < ws.length := by
        by_contra h
        rw [List.getElem?_eq_none (by omega)] at hfw; cases hfw
      have hg : ch[f]? = some (ch[f]'(by omega)) := List.getElem?_eq_getElem _
      obtain ⟨u, a1, a2⟩ := u4 f w _ hfw hg
      obtain ⟨v, b1, b2, b3⟩ := v3 f u w' a1
      refine ⟨v, b1, b2, fun i j m => ?_⟩
      rw [b3, a2, List.map_cons, List.sum_cons, hg, Option.getD_some]
      ring
  obtain ⟨us, h1, h2, h3⟩ := key l.changes l.weights hw hc
  refine ⟨{ l with weights := us, changes := [] }, by unfold Conv.apply; rw [h1]; rfl, rfl, h2, fun f w hfw => h3 f w w hfw⟩

end

/-- C93 is violated for batches: for `n` equal changes the kernel moves `n` times as far as for their average, which the other layers use. -/
theorem C93_batch_violated {F : Type} [Field F] [LinearOrder F] [IsStrictOrderedRing F] (l : Conv F) (sqrt : F → F) (o : Optimizer.Opt F)
    (ho : o.kind = .mbgd) (w g : Tensor F) (n : Nat) (hl : l.weights = [w]) (hc : l.changes = List.replicate n [g])
    (hs : Dims g w.rows w.cols w.chans) :
    ∃ l' u, l.apply sqrt o = some (l', o) ∧ l'.weights = [u] ∧ (∀ i j m, u.get i j m = w.get i j m - n * (o.weights.rate * g.get i j m)) ∧
      ∀ i j m, n ≠ 1 → o.weights.rate ≠ 0 → g.get i j m ≠ 0 → u.get i j m ≠ w.get i j m - o.weights.rate * g.get i j m := by
  obtain ⟨l', h1, h2, h3, h4⟩ := C93_apply l sqrt o ho (r := w.rows) (c := w.cols) (k := w.chans)
    (by rw [hl]; intro w' hw'; rw [List.mem_singleton.mp hw']; exact ⟨rfl, rfl, rfl⟩)
    (by rw [hc, hl]; intro ch hch; rw [List.eq_of_mem_replicate hch]; exact ⟨rfl, fun g' hg' => by rw [List.mem_singleton.mp hg']; exact hs⟩)
  obtain ⟨u, u1, _, u3⟩ := h4 0 w (by rw [hl]; rfl)
  have hu : ∀ i j m, u.get i j m = w.get i j m - n * (o.weights.rate * g.get i j m) := by
    intro i j m
    rw [u3, hc]
    simp only [List.map_replicate, List.sum_replicate, nsmul_eq_mul, List.getElem?_cons_zero, Option.getD_some]
    ring
  refine ⟨l', u, h1, ?_, hu, fun i j m hn hr hg h => ?_⟩
  · rw [hl] at h3
    match hw : l'.weights, h3 with
    | [u'], _ => rw [hw] at u1; simp at u1; rw [u1]
  · rw [hu] at h
    have h : ((n : F) - 1) * (o.weights.rate * g.get i j m) = 0 := by linear_combination -h
    rcases mul_eq_zero.mp h with h | h
    · exact hn (by exact_mod_cast sub_eq_zero.mp h)
    · exact (mul_ne_zero hr hg) h

/-- A 1×1 tensor of rationals. -/
def single (v : ℚ) : Tensor ℚ := ⟨1, 1, 1, fun _ _ _ => v⟩

/-- C93 is violated with momentum: all filters of a layer share one registration id and thereby one momentum. A filter whose change is zero
moves because the filter before it has moved. -/
theorem C93_filters_violated :
    ((Conv.apply ⟨[single 0, single 0], 1, 1, 1, 0, none, [], [[single 1, single 0]]⟩ id
      (Optimizer.create (.sgdm false) .code (1 / 10) (1 / 10))).map fun r => r.1.weights.map fun t => t.get 0 0 0) = some [-1 / 10, -9 / 100] := by
  decide +kernel

/-- Two filters of 2×2 kernels for 3×4 inputs with two channels. -/
def exampleConv (F : Type) [Field F] (strength : Option F) : Conv F :=
  ⟨[⟨2, 2, 2, fun r c k => r + 2 * c + 3 * k⟩, ⟨2, 2, 2, fun r c k => r * c - k⟩], 3, 4, 2, 0, strength, [], []⟩

example (F : Type) [Field F] (strength : Option F) (x : Tensor F) (h : Dims x 3 4 2) : (exampleConv F strength).Fits 2 x := by
  refine ⟨h, ?_, by show 0 < 2; decide, by show 0 < 2; decide, by decide, by show 2 ≤ 3; decide, by show 2 ≤ 4; decide, by show 3 + 6 < 2 ^ 64; decide, by show 4 + 6 < 2 ^ 64; decide⟩
  intro w hw
  simp only [exampleConv, List.mem_cons, List.not_mem_nil, or_false] at hw
  rcases hw with rfl | rfl <;> exact ⟨rfl, rfl, rfl⟩

/-- A 5×5 kernel for 6×6 inputs, as `C93_large_kernel_violated` assumes. -/
example (F : Type) [Field F] (x : Tensor F) (h : Dims x 6 6 1) : Conv.Fits ⟨[⟨5, 5, 1, fun _ _ _ => 1⟩], 6, 6, 1, 0, none, [], []⟩ 5 x := by
  refine ⟨h, ?_, by show 0 < 1; decide, by show 0 < 1; decide, by decide, by show 5 ≤ 6; decide, by show 5 ≤ 6; decide, by show 6 + 6 < 2 ^ 64; decide, by show 6 + 6 < 2 ^ 64; decide⟩
  intro w hw
  rw [List.mem_singleton.mp hw]
  exact ⟨rfl, rfl, rfl⟩

/-- One step of training, with all values: a 2×2 kernel on a 2×3 input. -/
example : ((Conv.forward (F := ℚ) ⟨[⟨2, 2, 1, fun r c _ => r + c⟩], 2, 3, 1, 0, none, [], []⟩ (⟨2, 3, 1, fun r c _ => 3 * r + c⟩ : Tensor ℚ) true).bind fun r =>
    (r.2.backward ⟨1, 2, 1, fun _ c _ => c + 1⟩).map fun s => (values r.1, values s.1, s.2.changes.map fun ch => ch.map values)) =
      some ([12, 16], [0, 1, 2, 1, 4, 4], [[[2, 5, 11, 14]]]) := by decide +kernel

end Verif.Layers
