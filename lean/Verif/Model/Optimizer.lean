import Verif.Model.Statistics

/-!
The optimizers: `/repo/src/ml/optimizer.hpp`, `/repo/src/ml/optimizers/*.hpp`, `/repo/src/ml/optimizer_factory.hpp`.

Simplifications: exact arithmetic in an ordered field; `sqrt` is a parameter; `int` counters do not overflow. The `unordered_map`s from
registration ids to tensors are association lists in the order of insertion (they are only searched and summed over).
-/
namespace Verif.Optimizer
open Verif Views

variable {F : Type} [Field F] [LinearOrder F]

/-- optimizer_factory.hpp:18-43: `sgd`, `sgdm` and `adam`, the last two with or without decaying momentum. -/
inductive Kind where
  | mbgd
  | sgdm (decay : Bool)
  | adam (decay : Bool)
  deriving DecidableEq

/-- The hyperparameters fixed in the constructors: sgdm_optimizer.hpp:23-26 and 100-101, adam_optimizer.hpp:33-35 and 94-95; `inverseEps` is
the constant of element_wise_inverse_tensor_view.hpp:16. -/
structure Hyper (F : Type) where
  momentum : F
  beta1 : F
  beta2 : F
  eps : F
  smallest : F
  largest : F
  inverseEps : F

/-- momentum 0.9, beta1 0.9, beta2 0.999, epsilon 1e-8, rates between 1e-5 and 1e-1 -/
def Hyper.code : Hyper F := ⟨9 / 10, 9 / 10, 999 / 1000, 1 / 100000000, 1 / 100000, 1 / 10, 1 / 100000000⟩

/-- One of the maps from registration ids to tensors. -/
abbrev Store (F : Type) := List (Nat × Tensor F)

def Store.find (m : Store F) (id : Nat) : Option (Tensor F) := (List.find? (fun e => e.1 == id) m).map (·.2)
/-- `map[id] = t` -/
def Store.put (m : Store F) (id : Nat) (t : Tensor F) : Store F :=
  if m.any (fun e => e.1 == id) then m.map fun e => if e.1 == id then (id, t) else e else m ++ [(id, t)]

/-- The state kept for weights or for biases: the learning rate, the step of the last adjustment of the rate (initially 1) and the maps
(`m` is `weight_momentum` of the momentum optimizer). -/
structure Half (F : Type) where
  rate : F
  last : Nat
  m : Store F
  v : Store F

/-- An optimizer: optimizer.hpp:77-80, sgdm_optimizer.hpp:94-103, adam_optimizer.hpp:91-99. -/
structure Opt (F : Type) where
  kind : Kind
  hyper : Hyper F
  step : Nat
  nextId : Nat
  weights : Half F
  bias : Half F

/-- The constructors, through optimizer_factory.hpp:18-43. -/
def create (kind : Kind) (hyper : Hyper F) (rate biasRate : F) : Opt F := ⟨kind, hyper, 0, 0, ⟨rate, 1, [], []⟩, ⟨biasRate, 1, [], []⟩⟩

/-- `registerForWeightChanges`, `registerForBiasChanges`: mbgd_optimizer.hpp:45-51, sgdm_optimizer.hpp:29-37, adam_optimizer.hpp:38-46. -/
def register (o : Opt F) : Nat × Opt F :=
  match o.kind with
  | .mbgd => (0, o)
  | _ => (o.nextId, { o with nextId := o.nextId + 1 })

/-- optimizer.hpp:73-75 `update_time_step` -/
def tick (o : Opt F) : Opt F := { o with step := o.step + 1 }

/-- sgdm_optimizer.hpp:125-134, adam_optimizer.hpp:164-174 `average`; the map is never empty here. -/
def average (m : Store F) : F := m.foldl (fun s e => s + Statistics.arithmeticMean e.2) 0 / (m.length : F)

/-- `std::min(largest, std::max(smallest, x))` -/
def bounded (h : Hyper F) (x : F) : F :=
  let y := if h.smallest < x then x else h.smallest
  if y < h.largest then y else h.largest

/-- sgdm_optimizer.hpp:105-123 and adam_optimizer.hpp:101-124 `calculateDemonAdjustedLearnRate`; `second` is `m_average * m_average`
or `average(v_map)`. -/
def demon (h : Hyper F) (sqrt : F → F) (step : Nat) (mAverage second : F) : F :=
  let mHat := mAverage * bounded h (1 / (1 - h.beta1 ^ step))
  let vHat := second * (1 / (1 - h.beta2 ^ step))
  bounded h (mHat / (sqrt vHat + h.eps))

/-- A tensor of zeros of the given shape (`UniformTensor`) -/
def zeros (t : Tensor F) : Tensor F := ⟨t.rows, t.cols, t.chans, fun _ _ _ => 0⟩

/-- `calculateWeightsChange` / `calculateBiasChange` of the momentum optimizer on its half of the state: sgdm_optimizer.hpp:39-65, 67-92. -/
def sgdmChange (h : Hyper F) (sqrt : F → F) (decay : Bool) (step : Nat) (s : Half F) (id : Nat) (params gradient : Tensor F) :
    Option (Tensor F × Half F) :=
  let m := if (s.m.find id).isSome then s.m else s.m.put id (zeros params)
  (m.find id).bind fun prev =>
    (add (map (fun x => x * h.momentum) prev) (map (fun x => x * s.rate) gradient)).bind fun new =>
      let m := m.put id new
      (subtract params new).map fun updated =>
        if decay && decide (s.last < step) then
          (updated, { s with m := m, last := step, rate := demon h sqrt step (average m) (average m * average m) })
        else (updated, { s with m := m })

/-- adam_optimizer.hpp:126-162 `adam_update` -/
def adamUpdate (h : Hyper F) (sqrt : F → F) (s : Half F) (id : Nat) (params gradient : Tensor F) : Option (Tensor F × Half F) :=
  (s.m.find id).bind fun m =>
  (s.v.find id).bind fun v =>
  (add (map (fun x => x * h.beta1) m) (map (fun x => x * (1 - h.beta1)) gradient)).bind fun mHat =>
  (add (map (fun x => x * h.beta2) v) (map (fun x => x * (1 - h.beta2)) (map (fun x => x ^ 2) gradient))).bind fun vHat =>
  (multiply (map (fun x => x * -s.rate) mHat) (map (fun x => 1 / (x + h.inverseEps)) (map (fun x => x + h.eps) (map sqrt vHat)))).bind fun p =>
  (add params p).map fun updated => (updated, { s with m := s.m.put id mHat, v := s.v.put id vHat })

/-- `calculateWeightsChange` / `calculateBiasChange` of Adam on its half of the state: adam_optimizer.hpp:48-67, 69-87. -/
def adamChange (h : Hyper F) (sqrt : F → F) (decay : Bool) (step : Nat) (s : Half F) (id : Nat) (params gradient : Tensor F) :
    Option (Tensor F × Half F) :=
  let s := if (s.m.find id).isSome then s else { s with m := s.m.put id (zeros params), v := s.v.put id (zeros params) }
  let s := if decay && decide (s.last < step) then
    { s with last := step, rate := demon h sqrt step (average s.m) (average s.v) } else s
  adamUpdate h sqrt s id params gradient

/-- `calculateWeightsChange` / `calculateBiasChange` of any optimizer on its half of the state; mbgd_optimizer.hpp:53-71. `none`: the shapes do
not fit (an exception). -/
def change (o : Opt F) (sqrt : F → F) (s : Half F) (id : Nat) (params gradient : Tensor F) : Option (Tensor F × Half F) :=
  match o.kind with
  | .mbgd => (subtract params (map (fun x => x * s.rate) gradient)).map fun updated => (updated, s)
  | .sgdm decay => sgdmChange o.hyper sqrt decay o.step s id params gradient
  | .adam decay => adamChange o.hyper sqrt decay o.step s id params gradient

def calculateWeightsChange (o : Opt F) (sqrt : F → F) (id : Nat) (params gradient : Tensor F) : Option (Tensor F × Opt F) :=
  (change o sqrt o.weights id params gradient).map fun r => (r.1, { o with weights := r.2 })

def calculateBiasChange (o : Opt F) (sqrt : F → F) (id : Nat) (params gradient : Tensor F) : Option (Tensor F × Opt F) :=
  (change o sqrt o.bias id params gradient).map fun r => (r.1, { o with bias := r.2 })

end Verif.Optimizer
