import Verif.Props.C91_Backpropagation
import Verif.Model.Convolution

/-!
C94. Predictions leave no trace: a network that was used to predict is trained, and predicts, exactly as if it had not been used.
-/
namespace Verif.Layers
open Verif

theorem forward_pure {l l' : Layer} {x y : Tensor ℝ} (h : l.forward x false = some (y, l')) (z : Tensor ℝ) (training : Bool) :
    l'.forward z training = l.forward z training := by
  cases l with
  | dense d =>
    unfold Layer.forward at h
    obtain ⟨r, h1, h2⟩ := Option.map_eq_some_iff.mp h
    unfold Dense.forward at h1
    obtain ⟨p, _, h4⟩ := Option.map_eq_some_iff.mp h1
    have hr : r.2 = d := by rw [← h4]; simp
    have hl : l' = .dense d := by rw [← hr]; exact (congrArg Prod.snd h2).symm
    rw [hl]
  | bias b =>
    unfold Layer.forward at h
    obtain ⟨r, h1, h2⟩ := Option.map_eq_some_iff.mp h
    have hl : l' = .bias b := (congrArg Prod.snd h2).symm
    rw [hl]
  | activation k q =>
    have hl : l' = .activation k q := by
      unfold Layer.forward at h
      have := congrArg Prod.snd (Option.some.inj h)
      simpa using this.symm
    rw [hl]
  | flatten r c =>
    have hl : l' = .flatten x.rows x.cols := (congrArg Prod.snd (Option.some.inj h)).symm
    rw [hl]; rfl

theorem forwardAll_pure : ∀ {ns ns' : List Node} {x y : Tensor ℝ}, forwardAll ns x false = some (y, ns') →
    ∀ (z : Tensor ℝ) (training : Bool), forwardAll ns' z training = forwardAll ns z training
  | [], ns', x, y, h, z, t => by
    have : ns' = [] := (congrArg Prod.snd (Option.some.inj h)).symm
    rw [this]
  | n :: rest, ns', x, y, h, z, t => by
    unfold forwardAll at h
    obtain ⟨r, h1, h2⟩ := Option.bind_eq_some_iff.mp h
    obtain ⟨s, h3, h4⟩ := Option.map_eq_some_iff.mp h2
    have hns : ns' = { n with layer := r.2 } :: s.2 := (congrArg Prod.snd h4).symm
    rw [hns]
    unfold forwardAll
    rw [forward_pure (l := n.layer) (l' := r.2) (y := r.1) h1 z t]
    refine congrArg _ (funext fun u => ?_)
    rw [forwardAll_pure (ns := rest) (ns' := s.2) (y := s.1) h3 u.1 t]

/-- The network after predicting for a list of inputs. -/
noncomputable def afterPredictions (ns : List Node) : List (Tensor ℝ) → Option (List Node)
  | [] => some ns
  | x :: xs => (forwardAll ns x false).bind fun r => afterPredictions r.2 xs

theorem afterPredictions_pure : ∀ (xs : List (Tensor ℝ)) (ns ns' : List Node), afterPredictions ns xs = some ns' →
    ∀ (z : Tensor ℝ) (training : Bool), forwardAll ns' z training = forwardAll ns z training
  | [], ns, ns', h, z, t => by obtain rfl := Option.some.inj h; rfl
  | x :: xs, ns, ns', h, z, t => by
    unfold afterPredictions at h
    obtain ⟨r, h1, h2⟩ := Option.bind_eq_some_iff.mp h
    rw [afterPredictions_pure xs r.2 ns' h2 z t, forwardAll_pure (y := r.1) h1 z t]

/-- C94, chains of dense, bias, activation and flatten layers: after any predictions the network predicts the same, and training it with a batch
of at least one record gives the same network and optimizer as without the predictions. -/
theorem C94_partial (ns ns' : List Node) (xs : List (Tensor ℝ)) (h : afterPredictions ns xs = some ns') :
    (∀ z, predict ns' z = predict ns z) ∧
    ∀ (o : Optimizer.Opt ℝ) (record : Tensor ℝ × (Tensor ℝ → Option (Tensor ℝ))) (records : List (Tensor ℝ × (Tensor ℝ → Option (Tensor ℝ)))),
      trainBatch ns' o (record :: records) = trainBatch ns o (record :: records) := by
  have hf := afterPredictions_pure xs ns ns' h
  refine ⟨fun z => by unfold predict; rw [hf], fun o record records => ?_⟩
  unfold trainBatch
  have hr : trainRecord ns' record.1 record.2 = trainRecord ns record.1 record.2 := by unfold trainRecord; rw [hf]
  rw [List.foldlM_cons, List.foldlM_cons, hr]

/-- C94, the convolution layer: a prediction does not change it. -/
theorem C94_convolution {F : Type} [Field F] (l l' : Conv F) (x y : Tensor F) (h : l.forward x false = some (y, l')) : l' = l := by
  unfold Conv.forward at h
  obtain ⟨p, _, h2⟩ := Option.map_eq_some_iff.mp h
  have := congrArg Prod.snd h2
  simpa using this.symm

/-- Non-vacuity: a network with a flatten layer, which a prediction does change, and a rectifier. -/
example : ∃ ns', afterPredictions [⟨.flatten 0 0, none⟩, ⟨.activation .relu [], none⟩] [⟨2, 3, 1, fun r c _ => (r : ℝ) - c⟩] = some ns' ∧
    ns' ≠ [⟨.flatten 0 0, none⟩, ⟨.activation .relu [], none⟩] := by
  refine ⟨_, rfl, ?_⟩
  intro h
  have h1 := (List.cons.inj h).1
  have h2 := congrArg Node.layer h1
  exact absurd (Layer.flatten.inj h2).1 (by decide)

end Verif.Layers
