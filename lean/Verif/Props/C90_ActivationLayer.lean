import Verif.Props.C67_Loss
import Verif.Props.C68_Activation
import Mathlib.Analysis.Calculus.Deriv.Comp

/-!
C90. The error that an activation layer hands to the layer below it.
-/
namespace Verif.Activation
open Verif Views Calculus Loss

/-- C90. One example, any activation function but the sigmoid approximation and softmax, inputs away from the kink of the two rectifiers: if the
layer receives the gradient of any function `L` with respect to its output, it hands on the gradient with respect to its input. -/
theorem C90_single_partial (k : Kind) (hk : k ≠ .sigmoidApprox) (z : Tensor ℝ) (hz : k = .relu ∨ k = .leaky → ∀ i ∈ places z, el z i ≠ 0)
    (L : Tensor ℝ → Option ℝ) (e : Tensor ℝ) (h : IsGradient L (activate k z) e) :
    ∃ g, backward (derivative k) [z] e = some g ∧ IsGradient (fun y => L (activate k y)) z g := by
  obtain ⟨hsh, h⟩ := h
  have hse : Shape (derivative k z) e := ⟨hsh.1.symm, hsh.2.1.symm, hsh.2.2.symm⟩
  refine ⟨⟨z.rows, z.cols, z.chans, fun r c j => slope k (z.get r c j) * e.get r c j⟩, ?_, ⟨rfl, rfl, rfl⟩, ?_⟩
  · show multiply (derivative k z) e = _
    unfold multiply
    rw [zip_of_shape hse]
    rfl
  intro q v hq h0 hd
  obtain ⟨f, hf, hfd⟩ := h (fun s => activate k (q s)) ⟨z.rows, z.cols, z.chans, fun r c j => slope k (z.get r c j) * v.get r c j⟩
    (fun s => hq s) (fun i hi => by
      show value k (el (q 0) i) = value k (el z i)
      rw [h0 i hi]) (fun i hi => by
      have hs : HasDerivAt (value k) (slope k (el z i)) (el (q 0) i) := by
        rw [h0 i hi]; exact C68_derivative_partial k hk _ (fun hkk => hz hkk i hi)
      exact hs.comp 0 (hd i hi))
  refine ⟨f, hf, hfd.congr_deriv ?_⟩
  unfold Calculus.inner
  refine (total_congr_shape (b := z) hsh _).trans ?_
  refine Eq.trans ?_ (total_congr_shape (a := ⟨z.rows, z.cols, z.chans, _⟩) (b := z) ⟨rfl, rfl, rfl⟩ _).symm
  refine total_congr fun i _ => ?_
  show el e i * (slope k (el z i) * el v i) = slope k (el z i) * el e i * el v i
  ring

/-- C90 does not hold for softmax followed by categorical cross entropy: the layer multiplies the (correct) gradient by its own input. If all inputs of
the softmax are negative, every small step against the error handed down makes the loss larger. -/
theorem C90_softmax_violated (c : Constants) (z t : Tensor ℝ) (h : Shape z t) (hsum : total t (el t) = 1)
    (hlo : 0 < c.low) (hp : ∀ i ∈ places z, c.low < el (softmax z) i ∧ el (softmax z) i < c.high)
    (hneg : ∀ i ∈ places z, el z i < 0) (hne : ∃ i ∈ places z, el (softmax z) i ≠ el t i) :
    ∃ r e a, reported c .cce t (softmax z) = some r ∧ backward softmaxDerivative [z] r = some e ∧ lossOf c .cce t (softmax z) = some a ∧
      ∃ s0 > 0, ∀ s, 0 < s → s < s0 → ∃ b, lossOf c .cce t (softmax (along z e (-s))) = some b ∧ a < b := by
  have hn : 0 < z.size := by obtain ⟨i, hi, _⟩ := hne; rw [← places_length]; exact List.length_pos_of_mem hi
  obtain ⟨r, hr, hsr, hsr', hgr⟩ := C67_cce c z hn h hsum hlo hp
  have hsh := (softmax_formula z hn).1
  have hel : ∀ i, el r i = el (softmax z) i - el t i := by
    obtain ⟨e, he⟩ : ∃ e, error c .cce t (softmax z) = some e := by
      have := cce_closed c (Loss.Shape.trans hsh h)
      simp only [lossOf] at this
      obtain ⟨e, he, _⟩ := Option.map_eq_some_iff.mp this
      exact ⟨e, he⟩
    simp only [reported, he, Option.bind_some, Loss.derivative, subtract] at hr
    rw [zip_of_shape (Loss.Shape.trans hsh h), Option.some.injEq] at hr
    intro i; rw [← hr]; rfl
  have hzr : Shape z r := ⟨hsr.1.symm, hsr.2.1.symm, hsr.2.2.symm⟩
  refine ⟨r, ⟨z.rows, z.cols, z.chans, fun a b d => z.get a b d * r.get a b d⟩, ?_⟩
  set e : Tensor ℝ := ⟨z.rows, z.cols, z.chans, fun a b d => z.get a b d * r.get a b d⟩ with hedef
  obtain ⟨f, hf, hd⟩ := hgr (fun s => along z e (-s)) (map (fun v => -v) e) (fun s => shape_along z e (-s))
    (fun i _ => by rw [el_along]; simp) (fun i _ => by
      have h1 : HasDerivAt (fun s : ℝ => el z i + -s * el e i) (-1 * el e i) 0 :=
        (((hasDerivAt_id (0:ℝ)).neg).mul_const (el e i)).const_add (el z i)
      exact h1.congr_deriv (by show -1 * el e i = -(el e i); ring))
  have hpos : 0 < Calculus.inner r (map (fun v => -v) e) := by
    unfold Calculus.inner
    rw [total_congr_shape hsr]
    have he : ∀ i, el (map (fun v => -v) e) i = -(el z i * el r i) := fun _ => rfl
    refine total_pos (fun i hi => ?_) ?_
    · rw [he]; nlinarith [hneg i hi, mul_self_nonneg (el r i)]
    · obtain ⟨i, hi, hne⟩ := hne
      refine ⟨i, hi, ?_⟩
      have : el r i ≠ 0 := by rw [hel]; exact sub_ne_zero.mpr hne
      have := mul_self_pos.mpr this
      rw [he]; nlinarith [hneg i hi]
  obtain ⟨s0, hs0, h1⟩ := increases hd hpos
  refine ⟨f 0, hr, ?_, ?_, s0, hs0, fun s a b => ⟨f s, hf s, h1 s a b⟩⟩
  · show multiply z r = _
    unfold multiply
    rw [zip_of_shape hzr]
  · have := hf 0
    simp only [neg_zero, along_zero] at this
    exact this

/-- C90. If all inputs of the softmax are positive the error handed down still makes the loss smaller (it is the gradient with every component scaled by
its input). -/
theorem C90_softmax_partial (c : Constants) (z t : Tensor ℝ) (h : Shape z t) (hsum : total t (el t) = 1)
    (hlo : 0 < c.low) (hp : ∀ i ∈ places z, c.low < el (softmax z) i ∧ el (softmax z) i < c.high)
    (hpos : ∀ i ∈ places z, 0 < el z i) (hne : ∃ i ∈ places z, el (softmax z) i ≠ el t i) :
    ∃ r e a, reported c .cce t (softmax z) = some r ∧ backward softmaxDerivative [z] r = some e ∧ lossOf c .cce t (softmax z) = some a ∧
      ∃ s0 > 0, ∀ s, 0 < s → s < s0 → ∃ b, lossOf c .cce t (softmax (along z e (-s))) = some b ∧ b < a := by
  have hn : 0 < z.size := by obtain ⟨i, hi, _⟩ := hne; rw [← places_length]; exact List.length_pos_of_mem hi
  obtain ⟨r, hr, hsr, hsr', hgr⟩ := C67_cce c z hn h hsum hlo hp
  have hsh := (softmax_formula z hn).1
  have hel : ∀ i, el r i = el (softmax z) i - el t i := by
    obtain ⟨e, he⟩ : ∃ e, error c .cce t (softmax z) = some e := by
      have := cce_closed c (Loss.Shape.trans hsh h)
      simp only [lossOf] at this
      obtain ⟨e, he, _⟩ := Option.map_eq_some_iff.mp this
      exact ⟨e, he⟩
    simp only [reported, he, Option.bind_some, Loss.derivative, subtract] at hr
    rw [zip_of_shape (Loss.Shape.trans hsh h), Option.some.injEq] at hr
    intro i; rw [← hr]; rfl
  have hzr : Shape z r := ⟨hsr.1.symm, hsr.2.1.symm, hsr.2.2.symm⟩
  refine ⟨r, ⟨z.rows, z.cols, z.chans, fun a b d => z.get a b d * r.get a b d⟩, ?_⟩
  set e : Tensor ℝ := ⟨z.rows, z.cols, z.chans, fun a b d => z.get a b d * r.get a b d⟩ with hedef
  obtain ⟨f, hf, hd⟩ := hgr (fun s => along z e (-s)) (map (fun v => -v) e) (fun s => shape_along z e (-s))
    (fun i _ => by rw [el_along]; simp) (fun i _ => by
      have h1 : HasDerivAt (fun s : ℝ => el z i + -s * el e i) (-1 * el e i) 0 :=
        (((hasDerivAt_id (0:ℝ)).neg).mul_const (el e i)).const_add (el z i)
      exact h1.congr_deriv (by show -1 * el e i = -(el e i); ring))
  have hneg : Calculus.inner r (map (fun v => -v) e) < 0 := by
    have he : Calculus.inner r (map (fun v => -v) e) = -1 * total z (fun i => el z i * (el r i * el r i)) := by
      unfold Calculus.inner
      rw [total_congr_shape hsr, ← total_mul]
      refine total_congr fun i _ => ?_
      show el r i * -(el z i * el r i) = _; ring
    rw [he]
    have : 0 < total z (fun i => el z i * (el r i * el r i)) := by
      refine total_pos (fun i hi => mul_nonneg (hpos i hi).le (mul_self_nonneg _)) ?_
      obtain ⟨i, hi, hne⟩ := hne
      refine ⟨i, hi, mul_pos (hpos i hi) (mul_self_pos.mpr ?_)⟩
      rw [hel]; exact sub_ne_zero.mpr hne
    linarith
  obtain ⟨s0, hs0, h1⟩ := decreases hd hneg
  refine ⟨f 0, hr, ?_, ?_, s0, hs0, fun s a b => ⟨f s, hf s, h1 s a b⟩⟩
  · show multiply z r = _
    unfold multiply
    rw [zip_of_shape hzr]
  · have := hf 0
    simp only [neg_zero, along_zero] at this
    exact this

/-- C90 for a batch, as it should be: the mean over the examples of the error handed down for each alone. -/
def IsBatchError (slopes : Tensor ℝ → Tensor ℝ) (batch : List (Tensor ℝ × Tensor ℝ)) (g : Tensor ℝ) : Prop :=
  ∀ r c k, g.get r c k * (batch.length : ℝ) = (batch.map fun x => (slopes x.1).get r c k * x.2.get r c k).sum

/-- C90 does not hold when `forward` is called for several examples before `backward` (the training loop, neural_network.hpp:463-485, calls `backward` after every
example and is not affected): the layer multiplies the mean error it is given by the mean slope. Two examples whose errors cancel give no error below, although the gradients of the two do not cancel. -/
theorem C90_batch_violated : ∃ (z₁ z₂ e₁ e₂ mean g : Tensor ℝ), z₁.size = 1 ∧ z₂.size = 1 ∧ Shape e₁ z₁ ∧ Shape e₂ z₂ ∧
    (∀ r c k, mean.get r c k * 2 = e₁.get r c k + e₂.get r c k) ∧
    backward (derivative .relu) [z₁, z₂] mean = some g ∧ g.get 0 0 0 = 0 ∧ ¬ IsBatchError (derivative .relu) [(z₁, e₁), (z₂, e₂)] g := by
  refine ⟨⟨1, 1, 1, fun _ _ _ => 1⟩, ⟨1, 1, 1, fun _ _ _ => -1⟩, ⟨1, 1, 1, fun _ _ _ => 1⟩, ⟨1, 1, 1, fun _ _ _ => -1⟩,
    ⟨1, 1, 1, fun _ _ _ => 0⟩, ⟨1, 1, 1, fun _ _ _ => 0⟩, rfl, rfl, ⟨rfl, rfl, rfl⟩, ⟨rfl, rfl, rfl⟩, by intros; norm_num, ?_, rfl, ?_⟩
  · simp [backward, add, multiply, zip, derivative, map]
  · intro h
    have := h 0 0 0
    simp [derivative, map, slope] at this
    norm_num at this

/-- C90. For several queued examples whose inputs all have the same slopes (such as the linear function, or rectifiers active in the same places), the mean error is
handed down correctly. -/
theorem C90_batch_partial (slopes : Tensor ℝ → Tensor ℝ) (z : Tensor ℝ) (rest : List (Tensor ℝ)) (e : Tensor ℝ)
    (hs : ∀ y ∈ rest, slopes y = slopes z) (he : Shape e (slopes z)) :
    ∃ g, backward slopes (z :: rest) e = some g ∧ ∀ r c k, g.get r c k = (slopes z).get r c k * e.get r c k := by
  have hse : Shape (slopes z) e := ⟨he.1.symm, he.2.1.symm, he.2.2.symm⟩
  have fold : ∀ (l : List (Tensor ℝ)) (acc : Tensor ℝ) (m : ℝ), (∀ y ∈ l, slopes y = slopes z) → Shape acc (slopes z) →
      (∀ r c k, acc.get r c k = m * (slopes z).get r c k) →
      ∃ s, l.foldlM (fun acc y => add acc (slopes y)) acc = some s ∧ Shape s (slopes z) ∧
        ∀ r c k, s.get r c k = (m + l.length) * (slopes z).get r c k := by
    intro l
    induction l with
    | nil => intro acc m _ hsh hm; exact ⟨acc, rfl, hsh, by simpa using hm⟩
    | cons y ys ih =>
      intro acc m hl hsh hm
      rw [List.foldlM_cons, hl y List.mem_cons_self]
      simp only [add, zip_of_shape hsh, Option.bind_eq_bind, Option.bind_some]
      obtain ⟨s, h1, h2, h3⟩ := ih ⟨acc.rows, acc.cols, acc.chans, fun r c k => acc.get r c k + (slopes z).get r c k⟩ (m + 1)
        (fun y hy => hl y (List.mem_cons_of_mem _ hy)) hsh (by intro r c k; simp only [hm]; ring)
      refine ⟨s, h1, h2, fun r c k => ?_⟩
      rw [h3]; push_cast [List.length_cons]; ring
  cases rest with
  | nil => exact ⟨_, by show multiply (slopes z) e = _; unfold multiply; exact zip_of_shape hse, fun _ _ _ => rfl⟩
  | cons y ys =>
    obtain ⟨s, h1, h2, h3⟩ := fold (y :: ys) (slopes z) 1 hs ⟨rfl, rfl, rfl⟩ (by intros; ring)
    have hb : backward slopes (z :: y :: ys) e =
        ((y :: ys).foldlM (fun acc y => add acc (slopes y)) (slopes z)).bind fun s =>
          multiply (map (fun v => v / (((y :: ys).length + 1 : Nat) : ℝ)) s) e := rfl
    rw [hb, h1, Option.bind_some]
    have hss : Shape (map (fun v => v / (((y :: ys).length + 1 : Nat) : ℝ)) s) e := Loss.Shape.trans h2 hse
    refine ⟨_, by unfold multiply; exact zip_of_shape hss, fun r c k => ?_⟩
    show s.get r c k / (((y :: ys).length + 1 : Nat) : ℝ) * e.get r c k = _
    rw [h3]
    have : ((((y :: ys).length + 1 : Nat)) : ℝ) ≠ 0 := by positivity
    push_cast at this ⊢
    field_simp
    ring

/-- `C90_single_partial` applies to a sigmoid output trained with binary cross entropy: the layer below receives the gradient. -/
example (c : Constants) (z t : Tensor ℝ) (h : Shape (activate .sigmoid z) t) (hlo : 0 < c.low)
    (hp : ∀ i ∈ places (activate .sigmoid z), c.low < el (activate .sigmoid z) i ∧ el (activate .sigmoid z) i < c.high ∧
      c.low < 1 - el (activate .sigmoid z) i ∧ 1 - el (activate .sigmoid z) i < c.high) :
    ∃ r g, reported c .bce t (activate .sigmoid z) = some r ∧ backward (derivative .sigmoid) [z] r = some g ∧
      IsGradient (fun y => lossOf c .bce t (activate .sigmoid y)) z g := by
  obtain ⟨r, hr, _, hg⟩ := C67_bce c h hlo hp
  obtain ⟨g, h1, h2⟩ := C90_single_partial .sigmoid (by decide) z (by simp) _ r hg
  exact ⟨r, g, hr, h1, h2⟩

end Verif.Activation
