import Verif.Model.Dsl

/-! What it means to describe a network depth first. -/

namespace Verif.Dsl
open Verif.Enums

/-- The vertices from which edges lead to vertex `v`. -/
def parentsAt (d : Dsl) (v : Nat) : List Nat := ((vertexAt d v).map (·.2)).getD []

/-- The vertex that `v` was added to; for a concatenation the last of them; 0 for an input. -/
def addedTo (d : Dsl) (v : Nat) : Nat := (parentsAt d v).getLast?.getD 0

/-- `v`, the vertex it was added to, and so on, up to 0. -/
def lineage (d : Dsl) (v : Nat) : List Nat :=
  if addedTo d v < v then v :: lineage d (addedTo d v) else [v]
termination_by v

/-- Every vertex is added to the one made just before, or to one which that was, directly or indirectly, added to (inputs always are); a concatenation names
its vertices in the order of their creation, without repetition, and none of them was used to make the last one; only inputs have no parents. -/
def DepthFirst (d : Dsl) : Prop :=
  ∀ v ∈ (List.range d.length).map (· + 1), (parentsAt d v).Pairwise (· < ·) ∧ addedTo d v ∈ lineage d (v - 1) ∧
    (∀ q ∈ (parentsAt d v).dropLast, q ∉ lineage d (addedTo d v)) ∧ (parentsAt d v = [] → ((vertexAt d v).map fun x => x.1.accepts) = some true)

instance (d : Dsl) : Decidable (DepthFirst d) := by unfold DepthFirst; infer_instance

/-- The usual way to use the calls: filters are given to convolutions only, and at least one; concatenations are made by `add_concatenated_layer`. -/
def Op.Usual : Op → Prop
  | .inputFilters _ f _ k _ _ => k = .convolution2dValid ∧ 0 < f
  | .layer _ _ _ k _ _ => k ≠ .concatenate
  | .layerFilters _ f _ k _ _ => k = .convolution2dValid ∧ 0 < f
  | _ => True

instance (o : Op) : Decidable o.Usual := by cases o <;> unfold Op.Usual <;> infer_instance

end Verif.Dsl
