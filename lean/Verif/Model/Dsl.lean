import Verif.Model.Decimal
import Verif.Model.Enums

/-!
# Describing a network, saving the description and loading it (`src/ml/happyml_dsl.hpp`)

A vertex gets the next number when it is made (`nextVertexId`, 121-125), starting at 1. Every function that makes a vertex also makes the edges into it
(`addEdge`, 367-372), so a description is the list of its vertices in the order of their creation, each with the vertices its edges come from. `addEdge` is
public, too, but only these functions call it; calling it directly is not part of the model. An exception is `none`; so is undefined behaviour (an
access behind the end of a record).

Numbers are natural numbers; `size_t` has 64 bits (`wrap`), other places where a number must fit are hypotheses of the theorems.
-/

namespace Verif.Dsl
open Verif.TextCodec Verif.Decimal Verif.Enums

/-- Rows, columns, channels: a `vector<size_t>` of three elements. -/
structure Shape where
  rows : Nat
  cols : Nat
  chans : Nat
  deriving DecidableEq, Repr

/-- `size_t` arithmetic. -/
def wrap (n : Nat) : Nat := n % 2 ^ 64

/-- The fields of `NNVertex`, happyml_dsl.hpp:648-669, without the edges, the number and the built node. -/
structure Vertex where
  accepts : Bool
  output : Bool
  kind : LayerType
  act : ActivationType
  materialized : Bool
  bias : Bool
  bits : Nat
  inShapes : List Shape
  outShape : Shape
  filters : Nat
  kernel : Nat
  l2 : Bool
  norm : Bool
  clip : Bool
  clipAt : BitVec 32
  dropout : BitVec 32
  strength : BitVec 32
  deriving DecidableEq, Repr

/-- Vertex number `i + 1` and the vertices its edges come from, in the order of the calls of `addEdge`. -/
abbrev Dsl := List (Vertex × List Nat)

/-- Vertex number `v`. -/
def vertexAt (d : Dsl) (v : Nat) : Option (Vertex × List Nat) := if v = 0 then none else d[v - 1]?

/-- `edges` of a vertex: its edges are made when the vertices they lead to are made. -/
def children (d : Dsl) (v : Nat) : List Nat :=
  (List.range d.length).flatMap fun i => List.replicate ((d[i]?.map fun x => x.2.count v).getD 0) (i + 1)

/-- `inputReceptors`, 683, 693, 706, 716: the vertices made for inputs, in order. -/
def heads (d : Dsl) : List Nat := ((List.range d.length).filter fun i => (d[i]?.map fun x => x.1.accepts).getD false).map (· + 1)

/-! ### Making vertices -/

/-- `5.0f` and `0.02f` -/
def five : BitVec 32 := 0x40A00000#32
def twoPercent : BitVec 32 := 0x3CA3D70A#32

/-- The constructor for layers without filters, 134-161. -/
def plain (kind : LayerType) (inShape outShape : Shape) (forOutput given : Bool) (act : ActivationType) : Option Vertex :=
  if forOutput = true ∧ kind ≠ .full then none
  else some ⟨given, forOutput, kind, act, false, false, 32, [inShape], outShape, 0, 0, decide (kind = .full), false, false, five, 0#32, twoPercent⟩

/-- The constructor for layers with filters, 164-190. -/
def filtered (kind : LayerType) (inShape : Shape) (filters kernel : Nat) (forOutput given : Bool) (act : ActivationType) : Option Vertex :=
  if forOutput = true ∧ kind ≠ .convolution2dValid then none
  else some ⟨given, forOutput, kind, act, true, false, 32, [inShape],
    ⟨wrap (inShape.rows + 2 ^ 64 - wrap kernel + 1), wrap (inShape.cols + 2 ^ 64 - wrap kernel + 1), filters⟩, filters, kernel, false, false, false, five,
    0#32, twoPercent⟩

/-- The constructor for concatenations, 193-215, with the shapes that `add_concatenated_layer`, 756-773, gives it. -/
def concatenation (shapes : List Shape) : Vertex :=
  ⟨false, false, .concatenate, .linear, false, false, 32, shapes, ⟨1, wrap (shapes.map Shape.cols).sum, 1⟩, 0, 0, false, false, false, five, 0#32,
    twoPercent⟩

/-- The setters of a vertex, 217-269 and 644-646. -/
inductive Setting
  | materialized (b : Bool) | bias (b : Bool) | bits (n : Nat) | l2 (b : Bool) | strength (x : BitVec 32) | norm (b : Bool) | clipAt (x : BitVec 32)
  | clip (b : Bool) | dropout (x : BitVec 32)
  deriving Repr

/-- Full layers and convolutions, for which `materialized`, `bias`, `l2` and `norm` may be switched on. -/
def Vertex.weighted (v : Vertex) : Bool := decide (v.kind = .full) || decide (v.kind = .convolution2dValid)

/-- What a setter does; `setNormClippingThreshold` also switches clipping on (266-269). A setter that throws has already changed the field; the vertex is
not looked at after that here. -/
def Vertex.set (v : Vertex) : Setting → Option Vertex
  | .materialized b => if b = true ∧ v.weighted = false then none else some { v with materialized := b }
  | .bias b => if b = true ∧ v.weighted = false then none else some { v with bias := b }
  | .bits n => some { v with bits := n }
  | .l2 b => if b = true ∧ v.weighted = false then none else some { v with l2 := b }
  | .strength x => some { v with strength := x }
  | .norm b => if b = true ∧ v.weighted = false then none else some { v with norm := b }
  | .clipAt x => some { v with clipAt := x, clip := true }
  | .clip b => some { v with clip := b }
  | .dropout x => some { v with dropout := x }

/-- Several setters in a row. -/
def Vertex.setAll (v : Vertex) (l : List Setting) : Option Vertex := l.foldlM Vertex.set v

/-- The calls with which a user describes a network. `input`/`inputFilters` are the overloads of `addInputLayer` and `addInputOutputLayer`, 672-728;
`layer` is `addLayer`, 356-365, to which `addOutput`, `addDropoutLayer` and `addNormalizationLayer`, 277-354, come down; `layerFilters` is `addLayer` with
filters, 325-334; `concat` is `add_concatenated_layer`, 756-773 (`add_concatenated_input_layer` is a sequence of `input` and one `concat`). -/
inductive Op
  | input (inShape outShape : Shape) (kind : LayerType) (act : ActivationType) (forOutput : Bool)
  | inputFilters (inShape : Shape) (filters kernel : Nat) (kind : LayerType) (act : ActivationType) (forOutput : Bool)
  | layer (parent : Nat) (inShape outShape : Shape) (kind : LayerType) (act : ActivationType) (forOutput : Bool)
  | layerFilters (parent filters kernel : Nat) (kind : LayerType) (act : ActivationType) (forOutput : Bool)
  | concat (parents : List Nat)
  | set (vertex : Nat) (s : Setting)

/-- The shapes of the outputs of some vertices. -/
def outShapes (d : Dsl) (vs : List Nat) : Option (List Shape) := vs.mapM fun v => (vertexAt d v).map fun x => x.1.outShape

/-- One call. Calls on vertices that do not exist are not possible. -/
def step (d : Dsl) : Op → Option Dsl
  | .input i o k a out => (plain k i o out true a).map fun v => d ++ [(v, [])]
  | .inputFilters i f n k a out => (filtered k i f n out true a).map fun v => d ++ [(v, [])]
  | .layer p i o k a out => (vertexAt d p).bind fun _ => (plain k i o out false a).map fun v => d ++ [(v, [p])]
  | .layerFilters p f n k a out => (vertexAt d p).bind fun x => (filtered k x.1.outShape f n out false a).map fun v => d ++ [(v, [p])]
  | .concat ps => (outShapes d ps).map fun shapes => d ++ [(concatenation shapes, ps)]
  | .set v s => (vertexAt d v).bind fun x => (x.1.set s).map fun w => d.set (v - 1) (w, x.2)

/-- A sequence of calls. -/
def run (ops : List Op) : Option Dsl := ops.foldlM step []

/-! ### The configuration file -/

/-- A name as bytes and back. -/
def text (s : String) : Str := s.toList.map fun c => UInt8.ofNat c.toNat
def untext (s : Str) : String := String.ofList (s.map fun b => Char.ofNat b.toNat)

/-- The fields of a shape. -/
def shapeFields (s : Shape) : List Str := [dec s.rows, dec s.cols, dec s.chans]

/-- The record of a vertex, 388-415. -/
def vertexRow (id : Nat) (v : Vertex) : List Str :=
  [text "vertex", dec id, asStringBool v.accepts, asStringBool v.output, text (nodeTypeToString v.kind), text (activationTypeToString v.act),
    asStringBool v.materialized, asStringBool v.bias, dec v.bits, dec v.inShapes.length] ++ v.inShapes.flatMap shapeFields ++ shapeFields v.outShape ++
  [dec v.filters, dec v.kernel, asStringBool v.l2, asStringBool v.norm, asStringBool v.clip, asStringFloat v.clipAt, asStringFloat v.dropout,
    asStringFloat v.strength]

/-- The record of the edges of a vertex, 517-525. -/
def edgeRow (id : Nat) (cs : List Nat) : List Str := text "edge" :: dec id :: cs.map dec

/-- The built vertices and the records so far. -/
structure Built where
  seen : List Nat
  rows : List (List Str)

/-- `buildLayer`, 382-527, as far as the records are concerned: a vertex that has been built is skipped (384-387); the record of the vertex comes before
those of its children, the record of its edges after them. `fuel` bounds the depth of the recursion; `none`: it ran out. -/
def buildLayer (d : Dsl) : Nat → Nat → Built → Option Built
  | 0, _, _ => none
  | fuel + 1, v, s =>
    if v ∈ s.seen then some s
    else
      match vertexAt d v with
      | none => none
      | some (x, _) =>
        (children d v).foldlM (fun s c => buildLayer d fuel c s) ⟨v :: s.seen, s.rows ++ [vertexRow v x]⟩ |>.map fun s =>
          if children d v = [] then s else { s with rows := s.rows ++ [edgeRow v (children d v)] }

/-- The settings of a network besides its layers, 775-783. -/
structure Settings where
  optimizer : OptimizerType
  learningRate : BitVec 32
  biasLearningRate : BitVec 32
  loss : LossType
  deriving DecidableEq, Repr

/-- The first four records, 100-104. -/
def settingRows (s : Settings) : List (List Str) :=
  [[text "optimizer", text (optimizerTypeToString s.optimizer)], [text "learningRate", asStringFloat s.learningRate],
   [text "biasLearningRate", asStringFloat s.biasLearningRate], [text "loss", text (lossTypeToString s.loss)]]

/-- `build`, 91-119: the records of a network (its metadata). -/
def metadata (s : Settings) (d : Dsl) : Option (List (List Str)) :=
  ((heads d).foldlM (fun b v => buildLayer d (d.length + 1) v b) ⟨[], []⟩).map fun b => settingRows s ++ b.rows

/-! ### Loading -/

/-- Reading `n` shapes from a record, 815-821. -/
def readShapes : Nat → List Str → Option (List Shape × List Str)
  | 0, r => some ([], r)
  | n + 1, a :: b :: c :: r =>
    match stoull a, stoull b, stoull c, readShapes n r with
    | some a, some b, some c, some (l, r) => some (⟨a, b, c⟩ :: l, r)
    | _, _, _, _ => none
  | _ + 1, _ => none

/-- The second part of a vertex record, 822-841. -/
def readTail (l : List Shape) (accepts output : Bool) (kind : LayerType) (act : ActivationType) (materialized bias : Bool) (bits : Nat) :
    List Str → Option Vertex
  | o1 :: o2 :: o3 :: fi :: ke :: l2 :: no :: cl :: ca :: dr :: st :: _ =>
    match stoull o1, stoull o2, stoull o3, stoull fi, stoull ke, stof ca, stof dr, stof st with
    | some o1, some o2, some o3, some fi, some ke, some ca, some dr, some st =>
      some ⟨accepts, output, kind, act, materialized, bias, bits, l, ⟨o1, o2, o3⟩, fi, ke, asBool l2, asBool no, asBool cl, ca, dr, st⟩
    | _, _, _, _, _, _, _, _ => none
  | _ => none

/-- The beginning of `createVertexFromMetadata`, 804-841: the fields of a vertex record. `bits` is a `uint8_t`. -/
def readVertex : List Str → Option Vertex
  | _ :: _ :: ac :: ou :: ki :: at_ :: ma :: bi :: be :: n :: r =>
    match stringToNodeType (untext ki), stringToActivationType (untext at_), stoull be, stoull n with
    | some ki, some at_, some be, some n =>
      (readShapes n r).bind fun (l, r) => readTail l (asBool ac) (asBool ou) ki at_ (asBool ma) (asBool bi) (be % 2 ^ 8) r
    | _, _, _, _ => none
  | _ => none

/-- The maps that `loadNeuralNetworkForTraining`, 974-995, fills: vertex records and edges by number, and the set of input vertices. -/
structure Maps where
  vertexes : List (Nat × List Str)
  edges : List (Nat × List Nat)
  headVertexes : List Nat

/-- `map[key] = value`, for a `std::map`, whose entries are in the order of the keys. -/
def assign {V : Type} (k : Nat) (x : V) : List (Nat × V) → List (Nat × V)
  | [] => [(k, x)]
  | (k', x') :: r => if k < k' then (k, x) :: (k', x') :: r else if k = k' then (k, x) :: r else (k', x') :: assign k x r

/-- `set.insert(key)` for a `std::set`. -/
def insert (k : Nat) : List Nat → List Nat
  | [] => [k]
  | k' :: r => if k < k' then k :: k' :: r else if k = k' then k' :: r else k' :: insert k r

/-- A `uint32_t` from a text, e.g. line 980. -/
def readId (s : Str) : Option Nat := (stoull s).map (· % 2 ^ 32)

/-- One record, 978-994. -/
def readRow (m : Maps) : List Str → Option Maps
  | tag :: id :: r =>
    if tag = text "vertex" then
      match readId id, r with
      | some k, ac :: _ =>
        some { m with vertexes := assign k (tag :: id :: r) m.vertexes
                      headVertexes := if asBool ac then insert k m.headVertexes else m.headVertexes }
      | _, _ => none
    else
      match readId id, r.mapM readId with
      | some k, some cs => some { m with edges := assign k cs m.edges }
      | _, _ => none
  | _ => none

/-- The network under construction and `createdVertexes`: for the numbers in the file, the numbers of the new vertices. -/
structure Created where
  dsl : Dsl
  made : List (Nat × Nat)

/-- The parents of a concatenation, 875-892: the vertices with an edge to it, in the order of their numbers, or nothing if one has not been made. -/
def parentsOf (m : Maps) (s : Created) (id : Nat) : Option (List Nat) :=
  (m.edges.filter fun e => e.2.contains id).mapM fun e => s.made.lookup e.1

/-- Lines 843-910: the vertex for a record, before its settings, and where its edges come from. The outer `none` is an exception, the inner one is the early
return for a concatenation whose parents have not all been made (890-892). -/
def remake (m : Maps) (s : Created) (id : Nat) (parent : Option Nat) (raw : Vertex) : Option (Option (Vertex × List Nat)) :=
  if raw.accepts then
    match raw.inShapes with
    | [i] =>
      if 0 < raw.filters then (filtered raw.kind i raw.filters raw.kernel raw.output true raw.act).map fun v => some (v, [])
      else (plain raw.kind i raw.outShape raw.output true raw.act).map fun v => some (v, [])
    | _ => none
  else
    match parent with
    | none => none
    | some p =>
      if raw.kind = .concatenate then
        match parentsOf m s id with
        | none => some none
        | some ps => (outShapes s.dsl ps).map fun shapes => some (concatenation shapes, ps)
      else if 0 < raw.filters then
        (vertexAt s.dsl p).bind fun x => (filtered raw.kind x.1.outShape raw.filters raw.kernel raw.output false raw.act).map fun v => some (v, [p])
      else if raw.output = true ∧ raw.kind ≠ .full then none
      else
        match raw.inShapes with
        | i :: _ => (plain raw.kind i raw.outShape raw.output false raw.act).map fun v => some (v, [p])
        | [] => none

/-- The settings of a vertex record, in the order of lines 911-919. -/
def settingsOf (raw : Vertex) : List Setting :=
  [.materialized raw.materialized, .bias raw.bias, .bits raw.bits, .l2 raw.l2, .strength raw.strength, .norm raw.norm, .clipAt raw.clipAt, .clip raw.clip,
    .dropout raw.dropout]

/-- `createVertexFromMetadata`, 796-936. `fuel` bounds the depth of the recursion; `none`: an exception, or it ran out. -/
def create (m : Maps) : Nat → Nat → Option Nat → Created → Option Created
  | 0, _, _, _ => none
  | fuel + 1, id, parent, s =>
    match (m.vertexes.lookup id).bind readVertex with
    | none => none
    | some raw =>
      match remake m s id parent raw with
      | none => none
      | some none => some s
      | some (some (v, ps)) =>
        match v.setAll (settingsOf raw) with
        | none => none
        | some v =>
          ((m.edges.lookup id).getD []).foldlM (fun s c =>
              if (m.vertexes.lookup c).isNone then none else create m fuel c (s.made.lookup id) s)
            ⟨s.dsl ++ [(v, ps)], (id, s.dsl.length + 1) :: s.made⟩

/-- `loadNeuralNetworkForTraining`, 938-1010, from the records of the file to the description that `build` gets: settings and layers. -/
def load : List (List Str) → Option (Settings × Dsl)
  | [t1, o] :: [t2, l] :: [t3, b] :: [t4, e] :: rows =>
    if t1 ≠ text "optimizer" ∨ t2 ≠ text "learningRate" ∨ t3 ≠ text "biasLearningRate" ∨ t4 ≠ text "loss" then none
    else
      match stringToOptimizerType (untext o), stof l, stof b, stringToLossType (untext e), rows.foldlM readRow ⟨[], [], []⟩ with
      | some o, some l, some b, some e, some m =>
        (m.headVertexes.foldlM (fun s h => create m (m.vertexes.length + 1) h none s) ⟨[], []⟩).map fun s => (⟨o, l, b, e⟩, s.dsl)
      | _, _, _, _, _ => none
  | _ => none

end Verif.Dsl
