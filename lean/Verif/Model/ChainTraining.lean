import Verif.Model.Layers
import Verif.Model.Loss
import Verif.Model.Training

/-!
The training loop (`Verif.Training`) with networks in which every node has one input and one output (`Verif.Layers`).
-/
namespace Verif.Layers
open Verif

/-- A network that is being trained and its optimizer; `none` after an exception. -/
abbrev Trained := Option (List Node × Optimizer.Opt ℝ)

/-- neural_network.hpp:469-480 and 598-608: the loss of the prediction for one record. Where the shapes do not fit an exception is thrown; that is
`nan` here, which ends the epoch with an exception too. -/
noncomputable def lossNumber (c : Loss.Constants) (kind : Loss.Kind) (n : Trained) (d : Tensor ℝ × Tensor ℝ) : ExitStrategy.Num ℝ :=
  match n with
  | none => .nan
  | some (ns, _) =>
    match (predict ns d.1).bind (Loss.lossOf c kind d.2) with
    | none => .nan
    | some v => .fin v

/-- neural_network.hpp:463-488: one record. -/
noncomputable def learnRecord (c : Loss.Constants) (kind : Loss.Kind) (n : Trained) (d : Tensor ℝ × Tensor ℝ) : Trained :=
  n.bind fun p => (trainRecord p.1 d.1 (Loss.reported c kind d.2)).map fun ns => (ns, p.2)

/-- What the training loop uses of the network: neural_network.hpp:455, 463-488, 491-493, 598-608. The records are pairs of input and truth. A
checkpoint is the list of the layers; the code writes their weights and biases to files and reads them back (C06, C60, C102). -/
noncomputable def chain (c : Loss.Constants) (kind : Loss.Kind) : Training.Net Trained (Tensor ℝ × Tensor ℝ) (List Layer) ℝ where
  beginEpoch n := n.map fun p => (p.1, Optimizer.tick p.2)
  learn n d := (learnRecord c kind n d, [lossNumber c kind n d])
  update n := n.bind fun p => applyAll p.1 p.2
  losses n d := [lossNumber c kind n d]
  snapshot n := (n.map fun p => p.1.map (·.layer)).getD []
  restore n k := n.map fun p => (List.zipWith (fun node l => { node with layer := l }) p.1 k, p.2)

end Verif.Layers
