import Mathlib.Data.List.Basic

/-!
# Which layers are saved and loaded (`src/ml/neural_network_node.hpp` 59-87, 186-194, `src/ml/neural_network.hpp` 257-263, 280-286)

A built network is a graph of nodes `0 … n-1`; a connection leads from a node to one with a greater number (there are no cycles). Every node has a flag `saved`,
which is true at first (line 39). `fuel` bounds the depth of the recursion; `none`: it ran out.
-/

namespace Verif.SavedFlags

/-- The connections of every node to others, the nodes that get the inputs and the nodes that give the outputs. -/
structure Graph where
  outs : List (List Nat)
  heads : List Nat
  outputs : List Nat

/-- `connectionOutputs` -/
def Graph.next (g : Graph) (v : Nat) : List Nat := g.outs[v]?.getD []

/-- `connectionInputs` (their order does not matter here) -/
def Graph.prev (g : Graph) (v : Nat) : List Nat := (List.range g.outs.length).filter fun u => (g.next u).contains v

/-- The flags `saved`. -/
abbrev Flags := Nat → Bool

def set (s : Flags) (v : Nat) (b : Bool) : Flags := fun u => if u = v then b else s u

/-- `markUnsaved`, 59-66: goes on only from nodes that were saved. -/
def mark (g : Graph) : Nat → Nat → Flags → Option Flags
  | 0, _, _ => none
  | fuel + 1, v, s => if s v then (g.next v).foldlM (fun s c => mark g fuel c s) (set s v false) else some s

/-- `saveKnowledge`, 68-76: the nodes whose weights are written, in order. The flags do not change. -/
def save (g : Graph) (s : Flags) : Nat → Nat → Option (List Nat)
  | 0, _ => none
  | fuel + 1, v => if s v then some [] else ((g.next v).mapM (save g s fuel)).map fun l => v :: l.flatten

/-- `loadKnowledge`, 78-87: the nodes whose weights are read, in order. -/
def load (g : Graph) : Nat → Nat → Flags × List Nat → Option (Flags × List Nat)
  | 0, _, _ => none
  | fuel + 1, v, s => if s.1 v then some s else (g.next v).foldlM (fun s c => load g fuel c s) (set s.1 v true, s.2 ++ [v])

/-- `apply`, 186-194, as far as the flags are concerned: all nodes before this one, then the node itself. -/
def applyFlags (g : Graph) : Nat → Nat → Flags → Option Flags
  | 0, _, _ => none
  | fuel + 1, v, s => ((g.prev v).foldlM (fun s u => applyFlags g fuel u s) s).map fun s => set s v false

/-- The whole network is saved, neural_network.hpp:259-262: the flags afterwards and the nodes that were written. -/
def saveAll (g : Graph) (s : Flags) : Option (Flags × List Nat) :=
  g.heads.foldlM (fun (s, l) h => (mark g (g.outs.length + 1) h s).bind fun s => (save g s (g.outs.length + 1) h).map fun l' => (s, l ++ l')) (s, [])

/-- The whole network is loaded, neural_network.hpp:282-285. -/
def loadAll (g : Graph) (s : Flags) : Option (Flags × List Nat) :=
  g.heads.foldlM (fun (s, l) h => (mark g (g.outs.length + 1) h s).bind fun s => load g (g.outs.length + 1) h (s, l)) (s, [])

/-- A batch of training: the changes are applied from every output on (`backward`, line 263, clears the flags of some of the same nodes before that). -/
def trainBatch (g : Graph) (s : Flags) : Option Flags := g.outputs.foldlM (fun s o => applyFlags g (g.outs.length + 1) o s) s

/-- What a user does with a network. -/
inductive Op
  | train
  | save
  | load
  deriving DecidableEq

/-- One action: the flags afterwards. -/
def act (g : Graph) (s : Flags) : Op → Option Flags
  | .train => trainBatch g s
  | .save => (saveAll g s).map (·.1)
  | .load => (loadAll g s).map (·.1)

/-- The flags after a number of actions on a new network. -/
def after (g : Graph) (ops : List Op) : Option Flags := ops.foldlM (act g) fun _ => true

end Verif.SavedFlags
