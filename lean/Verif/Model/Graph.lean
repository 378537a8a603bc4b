import Mathlib.Data.List.Basic
import Mathlib.Data.Nat.Cast.Defs

/-!
The graph of layers, `/repo/src/ml/neural_network_node.hpp`, and `predict` of `/repo/src/ml/neural_network.hpp`.

Nodes are numbers. Every call of `add` (neural_network_node.hpp:289-300) makes one connection, which is appended both to the outputs of
the parent and to the inputs of the child; a graph is therefore the list of its connections in the order of these calls, and a
connection is identified by its place in that list. What a layer computes is a parameter; the pending inputs that layers queue for
training are not part of this model, nor is the materialisation of results.
-/
namespace Verif.Graph

/-- The connections, as pairs of parent and child. -/
abbrev Connections := List (Nat × Nat)

/-- The parent of a connection. -/
def src (g : Connections) (e : Nat) : Nat := (g[e]?.getD (0, 0)).1
/-- The child of a connection. -/
def dst (g : Connections) (e : Nat) : Nat := (g[e]?.getD (0, 0)).2

/-- `connectionOutputs` of a node -/
def outputs (g : Connections) (v : Nat) : List Nat := (List.range g.length).filter fun e => src g e == v
/-- `connectionInputs` of a node -/
def inputs (g : Connections) (v : Nat) : List Nat := (List.range g.length).filter fun e => dst g e == v

variable {T : Type}

/-- `next_input` of every connection, `lastOutput` of every output node, and a record of all calls of `forward` of a layer with the
inputs it was given. -/
structure State (T : Type) where
  pending : Nat → Option T
  output : Nat → Option T
  log : List (Nat × List T)

/-- neural_network_node.hpp:156-163: the inputs of a node, or nothing if one of them is missing -/
def ready (g : Connections) (s : State T) (v : Nat) : Option (List T) := (inputs g v).mapM s.pending

/-- neural_network_node.hpp:165-167: the inputs of a node are cleared -/
def clear (g : Connections) (s : State T) (v : Nat) : State T :=
  { s with pending := fun e => if e ∈ inputs g v then none else s.pending e }

/-- neural_network_node.hpp:145-148 with 155-168 `forwardFromConnection`: one connection receives the result `t` and its child
is evaluated if it has all inputs. `rec` is `doForward`. -/
def send (g : Connections) (rec : Nat → List T → State T → Option (State T)) (t : T) (s : State T) (e : Nat) : Option (State T) :=
  let s := { s with pending := fun e' => if e' = e then some t else s.pending e' }
  match ready g s (dst g e) with
  | none => some s
  | some ins =>
    match rec (dst g e) ins s with
    | none => none
    | some s => some (clear g s (dst g e))

/-- The loop over the outputs of a node. -/
def sendAll (g : Connections) (rec : Nat → List T → State T → Option (State T)) (t : T) : State T → List Nat → Option (State T)
  | s, [] => some s
  | s, e :: rest =>
    match send g rec t s e with
    | none => none
    | some s => sendAll g rec t s rest

/-- neural_network_node.hpp:120-149 `doForward`. `fuel` bounds the depth of the recursion, which is infinite in a cyclic graph;
`none`: it ran out. `sendOutput` only stores the result of output nodes; here it is stored for every node without outputs. -/
def doForward (g : Connections) (layer : Nat → List T → T) : Nat → Nat → List T → State T → Option (State T)
  | 0, _, _, _ => none
  | fuel + 1, v, ins, s =>
    let t := layer v ins
    let s := { s with log := s.log ++ [(v, ins)] }
    if (outputs g v).isEmpty then some { s with output := fun w => if w = v then some t else s.output w }
    else sendAll g (doForward g layer fuel) t s (outputs g v)

/-- neural_network.hpp:91-93: `forwardFromInput` for every head node -/
def forwardAll (g : Connections) (layer : Nat → List T → T) (fuel : Nat) : List (Nat × T) → State T → Option (State T)
  | [], s => some s
  | (v, x) :: rest, s =>
    match doForward g layer fuel v [x] s with
    | none => none
    | some s => forwardAll g layer fuel rest s

/-- neural_network.hpp:87-101 `predict`, for the head nodes and output nodes of a network: `none` when the number of inputs is wrong (an
exception) or the recursion does not end; otherwise the results (missing ones would be a null pointer) and the state after it.
`consumeLastOutput` clears the output. -/
def predict (g : Connections) (layer : Nat → List T → T) (fuel : Nat) (heads outs : List Nat) (given : List T) (s : State T) :
    Option (List (Option T) × State T) :=
  if given.length ≠ heads.length then none
  else
    match forwardAll g layer fuel (heads.zip given) s with
    | none => none
    | some s => some (outs.map s.output, { s with output := fun w => if w ∈ outs then none else s.output w })

/-- neural_network_node.hpp:89-100 `get_parameter_count`: the count and the visited nodes. `visited` is a set; the recursion ends
because every call adds a node, the model uses fuel instead (`none`: it ran out). -/
def countFrom (g : Connections) (count : Nat → Nat) : Nat → Nat → List Nat → Option (Nat × List Nat)
  | 0, _, _ => none
  | fuel + 1, v, visited =>
    if v ∈ visited then some (0, visited)
    else
      (outputs g v).foldlM (fun acc e =>
        match countFrom g count fuel (dst g e) acc.2 with
        | none => none
        | some (c, vs) => some (acc.1 + c, vs)) (count v, v :: visited)

/-- neural_network.hpp:348-355 `get_total_parameters` and 357-364 `get_total_trainable_layers` -/
def total (g : Connections) (count : Nat → Nat) (fuel : Nat) (heads : List Nat) : Option (Nat × List Nat) :=
  heads.foldlM (fun acc v =>
    match countFrom g count fuel v acc.2 with
    | none => none
    | some (c, vs) => some (acc.1 + c, vs)) (0, [])

/-- neural_network_node.hpp:186-194 `apply`: the nodes whose layer is applied, in order, starting at `v`. `none`: the fuel ran out. -/
def applyFrom (g : Connections) : Nat → Nat → Option (List Nat)
  | 0, _ => none
  | fuel + 1, v =>
    (inputs g v).foldlM (fun acc e =>
      match applyFrom g fuel (src g e) with
      | none => none
      | some l => some (acc ++ l)) [v]

/-- layers/fully_connected_layer.hpp:134-157, layers/bias_layer.hpp:65-84 and layers/convolution_2d_valid_layer.hpp:163-178, with
neural_network_node.hpp:186-194: applying the layers in the given order, as far as their queues of errors are concerned. A layer
with weights takes all queued errors and throws (`none`) when there are none; other layers do nothing. -/
def applyAll {E : Type} (trainable : Nat → Bool) : List Nat → (Nat → List E) → Option (Nat → List E)
  | [], q => some q
  | v :: rest, q =>
    if trainable v then
      if q v = [] then none else applyAll trainable rest fun w => if w = v then [] else q w
    else applyAll trainable rest q

/-- neural_network_node.hpp:217-255, what `backward` of a consumer does for one of its inputs: the number of consumers of that node, the
consumer's place among them, the error for that node, and the errors waiting at the node's connections. The result are the errors
waiting afterwards and the error with which the node itself is called, if all errors are there. One element of the error tensors
stands for all; the views add and divide elementwise (C29, C31). -/
def handOver {F : Type} [Add F] [Div F] [NatCast F] (place : Nat) (error : F) (waiting : List (Option F)) :
    List (Option F) × Option F :=
  if waiting.length = 1 then (waiting, some error)
  else
    let waiting := waiting.set place (some error)
    match waiting.mapM id with
    | none => (waiting, none)
    | some [] => (waiting, none)
    | some (first :: rest) =>
      (waiting.map fun _ => none, some ((rest.foldl (· + ·) (error + first)) / ((waiting.length : Nat) : F)))

end Verif.Graph
