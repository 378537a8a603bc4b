import Verif.Model.Layers
import Verif.Spec.Calculus

/-!
Vocabulary for statements about networks of layers and their training.
-/
namespace Verif.Layers
open Verif Calculus

/-- A differentiable path through `p` with velocity `v`. -/
def Path (q : ℝ → Tensor ℝ) (p v : Tensor ℝ) : Prop :=
  (∀ s, Shape (q s) p) ∧ (∀ i ∈ places p, el (q 0) i = el p i) ∧ ∀ i ∈ places p, HasDerivAt (fun s => el (q s) i) (el v i) 0

/-- The parameters of a layer; a layer without parameters has an empty tensor. -/
def Layer.params : Layer → Tensor ℝ
  | .dense d => d.weights
  | .bias b => b.bias
  | _ => ⟨0, 0, 0, fun _ _ _ => 0⟩

/-- Layers that are changed by training. -/
def Layer.trainable : Layer → Bool
  | .dense _ => true
  | .bias _ => true
  | _ => false

/-- The layer with other parameters. -/
def Layer.withParams : Layer → Tensor ℝ → Layer
  | .dense d, p => .dense { d with weights := p }
  | .bias b, p => .bias { b with bias := p }
  | l, _ => l

/-- The errors that wait for `apply`. -/
def Layer.queued : Layer → List (Tensor ℝ)
  | .dense d => d.errors
  | .bias b => b.errors
  | _ => []

/-- The L2 penalty that a layer stands for: half its strength times the sum of the squares of the parameters. -/
noncomputable def Layer.penalty (l : Layer) (p : Tensor ℝ) : ℝ :=
  match l with
  | .dense d => match d.strength with
    | none => 0
    | some s => s / 2 * total p fun i => el p i ^ 2
  | _ => 0

/-- No inputs wait for `backward`. -/
def Layer.Clean : Layer → Prop
  | .dense d => d.inputs = []
  | .activation _ q => q = []
  | _ => True

/-- The input at which a layer is used is one at which it has a derivative: away from the kinks of the rectifiers, not the approximated
sigmoid (its `derivative` is wrong, C68); a flattened tensor has one channel unless it has one row. -/
def Layer.RegularAt (l : Layer) (x : Tensor ℝ) : Prop :=
  match l with
  | .activation k _ => k ≠ .sigmoidApprox ∧ (k = .relu ∨ k = .leaky → ∀ i ∈ places x, el x i ≠ 0)
  | .flatten _ _ => x.rows = 1 ∨ x.chans = 1
  | _ => True

/-- What a layer computes. -/
noncomputable def Layer.out (l : Layer) (x : Tensor ℝ) : Option (Tensor ℝ) := (l.forward x false).map (·.1)

/-- All layers are used at regular inputs when the network is given `x`. -/
def Regular : List Node → Tensor ℝ → Prop
  | [], _ => True
  | n :: rest, x => n.layer.RegularAt x ∧ ∀ z, n.layer.out x = some z → Regular rest z

/-- The network with other parameters: the `i`-th layer has the parameters `P i`. -/
def setAll : List Node → (Nat → Tensor ℝ) → List Node
  | [], _ => []
  | n :: rest, P => { n with layer := n.layer.withParams (P 0) } :: setAll rest fun i => P (i + 1)

/-- The parameters of the `i`-th layer. -/
def paramsAt (ns : List Node) (i : Nat) : Tensor ℝ :=
  match ns[i]? with
  | none => ⟨0, 0, 0, fun _ _ _ => 0⟩
  | some n => n.layer.params

/-- The loss of a network for a given input. -/
noncomputable def lossOf (ns : List Node) (x : Tensor ℝ) (L : Tensor ℝ → Option ℝ) : Option ℝ := (predict ns x).bind L

/-- A network that is ready for a new record: no inputs wait, clipping thresholds are positive. -/
def Ready (ns : List Node) : Prop := ∀ n ∈ ns, n.layer.Clean ∧ ∀ t, n.clip = some t → 0 < t

/-- Nothing is clipped. -/
def Unclipped (ns : List Node) : Prop := ∀ n ∈ ns, n.clip = none

/-- A record of a batch: what is given, the loss as a function of the prediction, and what the loss function returns as its derivative. -/
structure Record where
  given : Tensor ℝ
  loss : Tensor ℝ → Option ℝ
  derivative : Tensor ℝ → Option (Tensor ℝ)

/-- A record for which the network has a prediction, at regular inputs of all layers, and the loss function's derivative is right. -/
def Record.Good (r : Record) (ns : List Node) : Prop :=
  Regular ns r.given ∧ ∃ y e, predict ns r.given = some y ∧ r.derivative y = some e ∧ IsGradient r.loss y e

/-- What training minimises: the mean loss of the records and the penalties of all layers. -/
noncomputable def objective (ns : List Node) (records : List Record) : Option ℝ :=
  (records.mapM fun r => lossOf ns r.given r.loss).map fun ls =>
    ls.sum / records.length + (ns.map fun n => n.layer.penalty n.layer.params).sum

/-- One batch of records. -/
noncomputable def batch (ns : List Node) (o : Optimizer.Opt ℝ) (records : List Record) : Option (List Node × Optimizer.Opt ℝ) :=
  trainBatch ns o (records.map fun r => (r.given, r.derivative))

/-- The layers with parameters have no errors from earlier records. -/
def NoErrors (ns : List Node) : Prop := ∀ n ∈ ns, n.layer.queued = []

/-- To first order the objective does not change, in whatever direction the parameters move. -/
def Stationary (ns : List Node) (records : List Record) : Prop :=
  ∀ (V : Nat → Tensor ℝ) (f : ℝ → ℝ), (∀ s, objective (setAll ns fun i => along (paramsAt ns i) (V i) s) records = some (f s)) → HasDerivAt f 0 0

end Verif.Layers
