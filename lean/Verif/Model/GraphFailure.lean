import Verif.Model.Graph

/-!
The forward pass of `Verif.Model.Graph` for layers that may throw an exception, for example because an input has a wrong shape. An
exception leaves the nodes and connections as they are at that moment (`/repo/src/ml/neural_network_node.hpp` has no handlers), and the
network can be used again.
-/
namespace Verif.Graph

variable {T : Type}

/-- neural_network_node.hpp:145-148 with 155-168, as `send`; the result tells whether an exception was thrown. Lines 165-167, which clear the
inputs, are not reached after an exception. -/
def sendF (g : Connections) (rec : Nat → List T → State T → Option (State T × Bool)) (t : T) (s : State T) (e : Nat) : Option (State T × Bool) :=
  let s := { s with pending := fun e' => if e' = e then some t else s.pending e' }
  match ready g s (dst g e) with
  | none => some (s, false)
  | some ins =>
    match rec (dst g e) ins s with
    | none => none
    | some (s, true) => some (s, true)
    | some (s, false) => some (clear g s (dst g e), false)

/-- The loop over the outputs of a node. -/
def sendAllF (g : Connections) (rec : Nat → List T → State T → Option (State T × Bool)) (t : T) : State T → List Nat → Option (State T × Bool)
  | s, [] => some (s, false)
  | s, e :: rest =>
    match sendF g rec t s e with
    | none => none
    | some (s, true) => some (s, true)
    | some (s, false) => sendAllF g rec t s rest

/-- neural_network_node.hpp:120-149 `doForward`, as `Graph.doForward`; a layer that throws gives `none`. -/
def doForwardF (g : Connections) (layer : Nat → List T → Option T) : Nat → Nat → List T → State T → Option (State T × Bool)
  | 0, _, _, _ => none
  | fuel + 1, v, ins, s =>
    let s := { s with log := s.log ++ [(v, ins)] }
    match layer v ins with
    | none => some (s, true)
    | some t =>
      if (outputs g v).isEmpty then some ({ s with output := fun w => if w = v then some t else s.output w }, false)
      else sendAllF g (doForwardF g layer fuel) t s (outputs g v)

/-- neural_network.hpp:91-93 -/
def forwardAllF (g : Connections) (layer : Nat → List T → Option T) (fuel : Nat) : List (Nat × T) → State T → Option (State T × Bool)
  | [], s => some (s, false)
  | (v, x) :: rest, s =>
    match doForwardF g layer fuel v [x] s with
    | none => none
    | some (s, true) => some (s, true)
    | some (s, false) => forwardAllF g layer fuel rest s

/-- neural_network.hpp:87-101 `predict`: the results, or `none` if there was an exception, and the state after it. The outer `none`: the
recursion does not end. A result that is missing would be a null pointer. -/
def predictF (g : Connections) (layer : Nat → List T → Option T) (fuel : Nat) (heads outs : List Nat) (given : List T) (s : State T) :
    Option (Option (List (Option T)) × State T) :=
  if given.length ≠ heads.length then some (none, s)
  else
    match forwardAllF g layer fuel (heads.zip given) s with
    | none => none
    | some (s, true) => some (none, s)
    | some (s, false) => some (some (outs.map s.output), { s with output := fun w => if w ∈ outs then none else s.output w })

/-- Several predictions with the same network, one after the other; exceptions are caught. -/
def predictions (g : Connections) (layer : Nat → List T → Option T) (fuel : Nat) (heads outs : List Nat) :
    List (List T) → State T → Option (List (Option (List (Option T))) × State T)
  | [], s => some ([], s)
  | x :: xs, s =>
    match predictF g layer fuel heads outs x s with
    | none => none
    | some (r, s) => (predictions g layer fuel heads outs xs s).map fun rs => (r :: rs.1, rs.2)

end Verif.Graph
