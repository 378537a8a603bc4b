import Verif.Model.Wiring

/-!
# Calling `build` more than once (`src/ml/happyml_dsl.hpp`)

The layers that are made for a vertex are kept in the vertex (`first_node`, 562-570). Nothing ever removes them: `reset`, 374-376, is not called. So what a call of
`build` makes depends on the calls before it. This module has the description together with what earlier calls left in it. As in `Model/Wiring.lean`, a vertex
stands for the chain of its layers.
-/

namespace Verif.Rebuild
open Verif Verif.Dsl Verif.Wiring Verif.TextCodec

/-- A description and what earlier calls of `build` left in it: the vertices whose `first_node` is set, and the connections of their layers. -/
structure Builder where
  d : Dsl
  built : List Nat
  conns : Graph.Connections

/-- A new builder, `neuralNetworkBuilder`, happyml_dsl.hpp:786-790. -/
def Builder.new : Builder := ⟨[], [], []⟩

/-- What a call of `build` returns: the layers that get the inputs (`addHeadNode`), the layers that give the outputs (`addOutput`), all layers and
connections there are at that time, and the records for the configuration file. -/
structure Network where
  heads : List Nat
  outs : List Nat
  layers : List Nat
  conns : Graph.Connections
  rows : List (List Str)

/-- `build`, 91-119. A vertex with `first_node` set is returned as it is, 384-387: without its record and without registering its output. -/
def Builder.build (st : Settings) (b : Builder) : Option (Network × Builder) :=
  ((heads b.d).foldlM (fun s v => wire b.d (b.d.length + 1) v s) ⟨b.built, b.conns, []⟩).bind fun w =>
    ((heads b.d).foldlM (fun s v => buildLayer b.d (b.d.length + 1) v s) ⟨b.built, []⟩).map fun r =>
      (⟨heads b.d, w.outs, w.seen, w.conns, settingRows st ++ r.rows⟩, ⟨b.d, w.seen, w.conns⟩)

/-- A call of the user: one that extends or changes the description, or `build`. -/
inductive Call
  | op (o : Op)
  | build (st : Settings)

/-- One call, and the network it returns if it is `build`. -/
def Builder.call (b : Builder) : Call → Option (List Network × Builder)
  | .op o => (step b.d o).map fun d => ([], { b with d := d })
  | .build st => (b.build st).map fun x => ([x.1], x.2)

/-- A sequence of calls, and the networks they return, in order. -/
def Builder.calls : Builder → List Call → Option (List Network × Builder)
  | b, [] => some ([], b)
  | b, c :: cs => (b.call c).bind fun x => (x.2.calls cs).map fun y => (x.1 ++ y.1, y.2)

end Verif.Rebuild
