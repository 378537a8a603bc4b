import Verif.Model.Precision
import Verif.Spec.Rounding

/-!
# What storing parameters with fewer bits may change: specification

`grain bits` is the part of a parameter that may get lost, `slack` what is added to the size of each parameter to account for the parameters that are too small
for the format, `reach` bounds the numbers in a network by adding up absolute values.
-/
namespace Verif.Precision
open Verif Rounding

/-- A tensor is kept with all bits, the first 7 of the fraction, or the first 3. -/
noncomputable def grain (bits : Nat) : ℝ := if bits = 32 then 0 else if bits = 16 then 1 / 128 else 1 / 8

/-- The largest absolute value of a tensor. -/
noncomputable def largest (t : Tensor F32) : ℝ := ((Statistics.elements t).map fun v => |real v|).foldr max 0

noncomputable def slack (bits : Nat) (t : Tensor F32) : ℝ :=
  if bits = 32 then 0 else if bits = 16 then 1 / 2 ^ 126 else largest t / 480 + 1 / 1024

/-- The layer with the same parameters and exact arithmetic. -/
noncomputable def exact : Part → Layers.Node
  | .dense w => ⟨.dense ⟨reals w, 0, none, [], []⟩, none⟩
  | .bias b => ⟨.bias ⟨reals b, 0, []⟩, none⟩
  | .activation k => ⟨.activation k [], none⟩
  | .flatten => ⟨.flatten 0 0, none⟩

/-- How large the numbers after a layer can be if those before it are bounded by `x`: cancellation is ignored and every parameter counts with its slack. -/
noncomputable def reachAfter (bits : Nat) : Part → Tensor ℝ → Tensor ℝ
  | .dense w, x => ⟨x.rows, w.cols, x.chans, fun r c k => ∑ i ∈ Finset.range x.cols, x.get r i k * (|real (w.get i c k)| + slack bits w)⟩
  | .bias b, x => ⟨x.rows, x.cols, x.chans, fun r c k => x.get r c k + (|real (b.get r c k)| + slack bits b)⟩
  | .activation k, x => ⟨x.rows, x.cols, x.chans, fun r c ch => x.get r c ch + |Activation.value k 0|⟩
  | .flatten, x => if x.rows = 1 then x else Views.rowFlatten x

/-- After all layers, from an input. -/
noncomputable def reach (bits : Nat) (net : List Part) (x : Tensor ℝ) : Tensor ℝ :=
  net.foldl (fun x p => reachAfter bits p x) ⟨x.rows, x.cols, x.chans, fun r c k => |x.get r c k|⟩

/-- The layers with parameters. -/
def Part.stores : Part → Bool
  | .dense _ => true
  | .bias _ => true
  | _ => false

def depth (net : List Part) : Nat := net.countP Part.stores

/-- Parameters that the format can hold: finite, and with 8 bits less than 1920 in absolute value. A tensor without rows or channels is not stored. -/
def Storable (bits : Nat) (t : Tensor F32) : Prop :=
  0 < t.rows ∧ 0 < t.chans ∧ Every (fun v => Rounding.Finite v ∧ (bits = 8 → |real v| < 1920)) t

def Part.Storable (bits : Nat) : Part → Prop
  | .dense w => Precision.Storable bits w
  | .bias b => Precision.Storable bits b
  | _ => True

end Verif.Precision
