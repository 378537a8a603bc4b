import Verif.Model.Joined
import Verif.Spec.Network

/-!
Vocabulary for statements about networks whose inputs are joined by concatenation.
-/
namespace Verif.Layers
open Verif Calculus

mutual
/-- The layers of a network, those nearer to the output last; of joined networks, the last one first. -/
def Net.layers : Net → List Node
  | .input _ => []
  | .layer n src => src.layers ++ [n]
  | .join _ _ parts => parts.layers
def Parts.layers : Parts → List Node
  | .nil => []
  | .cons t rest => rest.layers ++ t.layers
end

mutual
/-- The network with other parameters: the `i`-th of the layers has the parameters `P i`. -/
def Net.setAll : Net → (Nat → Tensor ℝ) → Net
  | .input i, _ => .input i
  | .layer n src, P => .layer { n with layer := n.layer.withParams (P src.layers.length) } (src.setAll P)
  | .join widths clip parts, P => .join widths clip (parts.setAll P)
def Parts.setAll : Parts → (Nat → Tensor ℝ) → Parts
  | .nil, _ => .nil
  | .cons t rest, P => .cons (t.setAll fun i => P (rest.layers.length + i)) (rest.setAll P)
end

/-- The parameters of the network. -/
def Net.params (t : Net) : Nat → Tensor ℝ := paramsAt t.layers

/-- The network with other parameters of one layer. -/
def Net.withParams (t : Net) (i : Nat) (p : Tensor ℝ) : Net := t.setAll fun j => if j = i then p else t.params j

/-- What the last node computes. -/
noncomputable def Net.out (t : Net) (given : List (Tensor ℝ)) : Option (Tensor ℝ) := (t.forward given false).map (·.1)

/-- What the joined networks compute. -/
noncomputable def Parts.out (ps : Parts) (given : List (Tensor ℝ)) : Option (List (Tensor ℝ)) := (ps.forward given false).map (·.1)

/-- What the network predicts. -/
noncomputable def Net.predict (t : Net) (given : List (Tensor ℝ)) : Option (Tensor ℝ) := (t.predicting given false).map (·.1)

mutual
/-- Thresholds are positive. -/
def Net.Sound : Net → Prop
  | .input _ => True
  | .layer _ src => src.Sound
  | .join _ clip parts => (∀ c, clip = some c → 0 < c) ∧ parts.Sound
def Parts.Sound : Parts → Prop
  | .nil => True
  | .cons t rest => t.Sound ∧ rest.Sound
end

mutual
/-- Nothing is clipped. -/
def Net.Unclipped : Net → Prop
  | .input _ => True
  | .layer n src => n.clip = none ∧ src.Unclipped
  | .join _ clip parts => clip = none ∧ parts.Unclipped
def Parts.Unclipped : Parts → Prop
  | .nil => True
  | .cons t rest => t.Unclipped ∧ rest.Unclipped
end

mutual
/-- All layers are used at regular inputs when the network is given `given`; joined tensors have the declared columns, at least one, and
equally many channels. -/
def Net.Regular : Net → List (Tensor ℝ) → Prop
  | .input _, _ => True
  | .layer n src, given => src.Regular given ∧ ∀ z, src.out given = some z → n.layer.RegularAt z
  | .join widths _ parts, given => parts.Regular given ∧ ∀ ys, parts.out given = some ys →
      widths = ys.map (·.cols) ∧ (∀ y ∈ ys, 0 < y.cols) ∧ ∀ y ∈ ys, ∀ z ∈ ys, y.chans = z.chans
def Parts.Regular : Parts → List (Tensor ℝ) → Prop
  | .nil, _ => True
  | .cons t rest, given => t.Regular given ∧ rest.Regular given
end

/-- The loss of a network for given inputs. -/
noncomputable def Net.lossOf (t : Net) (given : List (Tensor ℝ)) (L : Tensor ℝ → Option ℝ) : Option ℝ := (t.predict given).bind L

/-- A network that is ready for a new record. -/
def Net.Ready (t : Net) : Prop := Layers.Ready t.layers ∧ t.Sound

/-- A record of a batch, as `Record`, with several inputs. -/
structure Inputs where
  given : List (Tensor ℝ)
  loss : Tensor ℝ → Option ℝ
  derivative : Tensor ℝ → Option (Tensor ℝ)

/-- A record for which the network has a prediction, at regular inputs of all layers, and the loss function's derivative is right. -/
def Inputs.Good (r : Inputs) (t : Net) : Prop :=
  t.Regular r.given ∧ ∃ y e, t.predict r.given = some y ∧ r.derivative y = some e ∧ IsGradient r.loss y e

/-- What training minimises: the mean loss of the records and the penalties of all layers. -/
noncomputable def Net.objective (t : Net) (records : List Inputs) : Option ℝ :=
  (records.mapM fun r => t.lossOf r.given r.loss).map fun ls =>
    ls.sum / records.length + (t.layers.map fun n => n.layer.penalty n.layer.params).sum

/-- One batch of records. -/
noncomputable def Net.batch (t : Net) (o : Optimizer.Opt ℝ) (records : List Inputs) : Option (Net × Optimizer.Opt ℝ) :=
  t.trainBatch o (records.map fun r => (r.given, r.derivative))

/-- To first order the objective does not change, in whatever direction the parameters move. -/
def Net.Stationary (t : Net) (records : List Inputs) : Prop :=
  ∀ (V : Nat → Tensor ℝ) (f : ℝ → ℝ), (∀ s, (t.setAll fun i => along (t.params i) (V i) s).objective records = some (f s)) → HasDerivAt f 0 0

/-- The network after predicting for a list of inputs. -/
noncomputable def Net.afterPredictions (t : Net) : List (List (Tensor ℝ)) → Option Net
  | [] => some t
  | x :: xs => (t.predicting x false).bind fun r => Net.afterPredictions r.2 xs

end Verif.Layers
