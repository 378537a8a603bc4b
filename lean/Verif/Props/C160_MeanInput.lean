import Verif.Model.Layers
import Verif.Model.Convolution
import Verif.Spec.MeanInput

/-!
C160: a fully connected layer that is used several times before an error comes back learns from the mean of its inputs.

`C160_mean`, and `C160_convolution` for convolutions: all later results are those after a single use with the mean. `C160_order`: the order of the uses does not matter. This is not the sum of the
gradients of the uses, which would need an error for each of them: `C160_gradient_violated`.
-/
namespace Verif.MeanInput
open Verif Views Layers
variable {F : Type} [Field F]

/-- The layer after being used for training with some inputs, one after another (`forward`, fully_connected_layer.hpp:50-69, which queues its input). -/
def used (d : Dense F) (xs : List (Tensor F)) : Option (Dense F) := xs.foldlM (fun d x => (d.forward x true).map Prod.snd) d

theorem used_eq (xs : List (Tensor F)) : ∀ d : Dense F, (∀ x ∈ xs, x.cols = d.weights.rows ∧ x.chans = d.weights.chans) →
    used d xs = some { d with inputs := d.inputs ++ xs } := by
  induction xs with
  | nil => intro d _; simp [used]
  | cons x xs ih =>
    intro d h
    obtain ⟨h1, h2⟩ := h x (by simp)
    have hf : (d.forward x true).map Prod.snd = some { d with inputs := d.inputs ++ [x] } := by
      simp [Dense.forward, matmul, h1, h2]
    unfold used at ih ⊢
    rw [List.foldlM_cons, hf]
    show List.foldlM _ _ xs = _
    refine (ih { d with inputs := d.inputs ++ [x] } fun y hy => h y (by simp [hy])).trans ?_
    simp

theorem sum_eq (R C K : Nat) (xs : List (Tensor F)) : ∀ x : Tensor F, x.rows = R → x.cols = C → x.chans = K →
    (∀ y ∈ xs, y.rows = R ∧ y.cols = C ∧ y.chans = K) →
    xs.foldlM (fun acc y => add acc y) x = some ⟨R, C, K, fun r c k => x.get r c k + (xs.map fun y => y.get r c k).sum⟩ := by
  induction xs with
  | nil => intro x h1 h2 h3 _; subst h1 h2 h3; simp
  | cons y ys ih =>
    intro x h1 h2 h3 h
    obtain ⟨g1, g2, g3⟩ := h y (by simp)
    have ha : add x y = some ⟨R, C, K, fun r c k => x.get r c k + y.get r c k⟩ := by
      unfold add zip
      simp [h1, h2, h3, g1, g2, g3]
    rw [List.foldlM_cons, ha]
    show List.foldlM _ _ ys = _
    rw [ih _ rfl rfl rfl (fun z hz => h z (by simp [hz]))]
    simp [add_assoc]

theorem average_eq (R C K : Nat) (xs : List (Tensor F)) (hne : xs ≠ []) (h : ∀ x ∈ xs, x.rows = R ∧ x.cols = C ∧ x.chans = K) :
    averageInputs xs = some (mean R C K xs) := by
  match xs, hne with
  | [x], _ =>
    obtain ⟨h1, h2, h3⟩ := h x (by simp)
    subst h1 h2 h3
    simp [averageInputs, mean]
  | x :: y :: zs, _ =>
    obtain ⟨h1, h2, h3⟩ := h x (by simp)
    rw [averageInputs]
    · simp only [drain]
      rw [sum_eq R C K (y :: zs) x h1 h2 h3 (fun z hz => h z (by simp only [List.mem_cons] at hz ⊢; tauto))]
      simp [mean, Views.map]
    · simp

/-- C160. All inputs have the shape that fits the weights: then the layer has the same weights as before, and whatever error comes back, the result and the state of the
layer are those after one use with the mean of the inputs. -/
theorem C160_mean (d : Dense F) (hd : d.inputs = []) (R : Nat) (xs : List (Tensor F)) (hne : xs ≠ [])
    (h : ∀ x ∈ xs, x.rows = R ∧ x.cols = d.weights.rows ∧ x.chans = d.weights.chans) :
    ∃ d' d'' y, used d xs = some d' ∧ d.forward (mean R d.weights.rows d.weights.chans xs) true = some (y, d'') ∧ d'.weights = d.weights ∧
      ∀ e, d'.backward e = d''.backward e := by
  have hu := used_eq xs d fun x hx => (h x hx).2
  obtain ⟨y, hy⟩ : ∃ y, matmul (mean R d.weights.rows d.weights.chans xs) d.weights = some y := by
    unfold matmul mean
    simp
  refine ⟨_, { d with inputs := [mean R d.weights.rows d.weights.chans xs] }, y, hu, ?_, rfl, ?_⟩
  · unfold Dense.forward
    rw [hy]
    simp [hd]
  · intro e
    unfold Dense.backward Dense.regularise
    simp only [hd, List.nil_append]
    rw [average_eq R d.weights.rows d.weights.chans xs hne h]
    rfl

/-- C160. The order of the uses does not matter. -/
theorem C160_order (d : Dense F) (hd : d.inputs = []) (R : Nat) (xs ys : List (Tensor F)) (hp : xs.Perm ys) (hne : xs ≠ [])
    (h : ∀ x ∈ xs, x.rows = R ∧ x.cols = d.weights.rows ∧ x.chans = d.weights.chans) :
    ∃ d' d'', used d xs = some d' ∧ used d ys = some d'' ∧ ∀ e, d'.backward e = d''.backward e := by
  have h' : ∀ x ∈ ys, x.rows = R ∧ x.cols = d.weights.rows ∧ x.chans = d.weights.chans := fun x hx => h x (hp.mem_iff.mpr hx)
  have hne' : ys ≠ [] := fun e => hne (by rw [e] at hp; exact hp.eq_nil)
  obtain ⟨d1, e1, y1, a1, a2, -, a4⟩ := C160_mean d hd R xs hne h
  obtain ⟨d2, e2, y2, b1, b2, -, b4⟩ := C160_mean d hd R ys hne' h'
  have hm : mean R d.weights.rows d.weights.chans xs = mean R d.weights.rows d.weights.chans ys := by
    unfold mean
    simp only [hp.length_eq]
    congr 1
    funext r c k
    rw [(hp.map fun x => x.get r c k).sum_eq]
  rw [hm, b2] at a2
  simp only [Option.some.injEq, Prod.mk.injEq] at a2
  obtain ⟨-, rfl⟩ := a2
  exact ⟨d1, d2, a1, b1, fun e => by rw [a4, b4]⟩

/-- A convolution after being used for training with some inputs, one after another (`forward`, convolution_2d_valid_layer.hpp:55-101). -/
def usedConvolution (l : Conv F) (xs : List (Tensor F)) : Option (Conv F) := xs.foldlM (fun l x => (l.forward x true).map Prod.snd) l

theorem usedConvolution_eq (xs : List (Tensor F)) : ∀ l l' : Conv F, usedConvolution l xs = some l' → l' = { l with inputs := l.inputs ++ xs } := by
  induction xs with
  | nil => intro l l' h; simp [usedConvolution] at h; simp [h]
  | cons x xs ih =>
    intro l l' h
    unfold usedConvolution at h ih
    rw [List.foldlM_cons] at h
    cases hf : l.forward x true with
    | none => rw [hf] at h; cases h
    | some r =>
      rw [hf] at h
      have hr : r.2 = { l with inputs := l.inputs ++ [x] } := by
        unfold Conv.forward at hf
        obtain ⟨y, -, rfl⟩ := Option.map_eq_some_iff.mp hf
        rfl
      have := ih r.2 l' h
      rw [this, hr]
      simp

/-- C160 for convolutions: if the uses with inputs of one shape and the use with their mean succeed, then every error has the same effect after both. -/
theorem C160_convolution (l l' l'' : Conv F) (hl : l.inputs = []) (R C K : Nat) (xs : List (Tensor F)) (hne : xs ≠ [])
    (h : ∀ x ∈ xs, x.rows = R ∧ x.cols = C ∧ x.chans = K) (hu : usedConvolution l xs = some l') (hm : usedConvolution l [mean R C K xs] = some l'') :
    l'.weights = l.weights ∧ ∀ e, l'.backward e = l''.backward e := by
  rw [usedConvolution_eq _ _ _ hu, usedConvolution_eq _ _ _ hm]
  refine ⟨rfl, fun e => ?_⟩
  unfold Conv.backward Conv.inputError Conv.weightChange Conv.regularise
  simp only [hl, List.nil_append]
  rw [average_eq R C K xs hne h]
  rfl

/-- C160 is not the sum of the gradients: for the inputs 1 and 3 and the error 1, the change to the weight is 2 and not 4. -/
theorem C160_gradient_violated :
    ∃ (d d' : Dense ℚ) (x y e : Tensor ℚ) (g : Tensor ℚ × Dense ℚ), x.get 0 0 0 = 1 ∧ y.get 0 0 0 = 3 ∧ e.get 0 0 0 = 1 ∧ used d [x, y] = some d' ∧
      d'.backward e = some g ∧ g.2.errors.map (fun t => t.get 0 0 0) = [2] := by
  refine ⟨⟨⟨1, 1, 1, fun _ _ _ => 1⟩, 0, none, [], []⟩, _, ⟨1, 1, 1, fun _ _ _ => 1⟩, ⟨1, 1, 1, fun _ _ _ => 3⟩, ⟨1, 1, 1, fun _ _ _ => 1⟩, _, rfl, rfl, rfl, rfl, rfl, ?_⟩
  decide +kernel

/-- The hypotheses of `C160_mean` for two inputs of shape 1 × 2 and a layer with one output. -/
example : ∃ (d : Dense ℚ) (xs : List (Tensor ℚ)), d.inputs = [] ∧ xs.length = 2 ∧ (∀ x ∈ xs, x.rows = 1 ∧ x.cols = d.weights.rows ∧ x.chans = d.weights.chans) ∧
    (mean 1 2 1 xs).get 0 1 0 = 5 / 2 := by
  refine ⟨⟨⟨2, 1, 1, fun _ _ _ => 1⟩, 0, none, [], []⟩, [⟨1, 2, 1, fun _ c _ => c⟩, ⟨1, 2, 1, fun _ _ _ => 4⟩], rfl, rfl, by simp, ?_⟩
  norm_num [mean]

/-- The hypotheses of `C160_convolution` for a filter of one number and two inputs of 2 × 2. -/
example : ∃ (l l' l'' : Conv ℚ) (xs : List (Tensor ℚ)), l.inputs = [] ∧ xs.length = 2 ∧ (∀ x ∈ xs, x.rows = 2 ∧ x.cols = 2 ∧ x.chans = 1) ∧
    usedConvolution l xs = some l' ∧ usedConvolution l [mean 2 2 1 xs] = some l'' ∧ (l'.inputs.length, l''.inputs.length) = (2, 1) := by
  refine ⟨{ weights := [⟨1, 1, 1, fun _ _ _ => 1⟩], id := 0, strength := none, inputs := [], changes := [], depth := 1, inRows := 2, inCols := 2 }, _, _,
    [⟨2, 2, 1, fun _ c _ => c⟩, ⟨2, 2, 1, fun _ _ _ => 4⟩], rfl, rfl, by simp, rfl, rfl, rfl⟩

end Verif.MeanInput
