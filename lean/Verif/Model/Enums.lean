/-!
# Names of optimizers, losses, layers and activations (`src/ml/enums.hpp`)

The model file of a network stores every kind by its name.  Strings are compared byte by byte in the
code and as strings here.  An exception is `none`.  C++ enumerations can be given values that are no
enumerator by a cast; the code never does that, so the enumerations are closed here.
-/

namespace Verif.Enums

/-- `OptimizerType`, src/ml/enums.hpp:15-21. -/
inductive OptimizerType
  | sgd | adam | sgdm | adamWithDecayingMomentum | sgdmWithDecayingMomentum
  deriving DecidableEq, Repr

/-- `LossType`, src/ml/enums.hpp:23-29. -/
inductive LossType
  | mse | mae | smae | categoricalCrossEntropy | binaryCrossEntropy
  deriving DecidableEq, Repr

/-- `LayerType`, src/ml/enums.hpp:31-38. -/
inductive LayerType
  | full | convolution2dValid | concatenate | flatten | normalize | dropout
  deriving DecidableEq, Repr

/-- `ActivationType`, src/ml/enums.hpp:44-53. -/
inductive ActivationType
  | relu | tanhDefault | sigmoid | leaky | softmax | sigmoidApprox | tanhApprox | linear
  deriving DecidableEq, Repr

/-- `activationTypeToString`, src/ml/enums.hpp:60-80. -/
def activationTypeToString : ActivationType → String
  | .relu => "relu"
  | .tanhDefault => "tanh"
  | .sigmoid => "sigmoid"
  | .leaky => "leaky"
  | .softmax => "softmax"
  | .sigmoidApprox => "sigmoidApprox"
  | .tanhApprox => "tanhApprox"
  | .linear => "linear"

/-- `stringToActivationType`, src/ml/enums.hpp:82-108. -/
def stringToActivationType (s : String) : Option ActivationType :=
  if s = "relu" then some .relu
  else if s = "tanh" then some .tanhDefault
  else if s = "sigmoid" then some .sigmoid
  else if s = "leaky" then some .leaky
  else if s = "softmax" then some .softmax
  else if s = "sigmoidApprox" then some .sigmoidApprox
  else if s = "tanhApprox" then some .tanhApprox
  else if s = "linear" then some .linear
  else none

/-- `nodeTypeToString`, src/ml/enums.hpp:110-126. -/
def nodeTypeToString : LayerType → String
  | .full => "full"
  | .convolution2dValid => "convolution2dValid"
  | .concatenate => "concatenate"
  | .flatten => "flatten"
  | .normalize => "normalize"
  | .dropout => "dropout"

/-- `stringToNodeType`, src/ml/enums.hpp:128-149. -/
def stringToNodeType (s : String) : Option LayerType :=
  if s = "full" then some .full
  else if s = "convolution2dValid" then some .convolution2dValid
  else if s = "concatenate" then some .concatenate
  else if s = "flatten" then some .flatten
  else if s = "normalize" then some .normalize
  else if s = "dropout" then some .dropout
  else none

/-- `lossTypeToString`, src/ml/enums.hpp:151-167. -/
def lossTypeToString : LossType → String
  | .mse => "mse"
  | .mae => "mae"
  | .smae => "smae"
  | .categoricalCrossEntropy => "categoricalCrossEntropy"
  | .binaryCrossEntropy => "binaryCrossEntropy"

/-- `stringToLossType`, src/ml/enums.hpp:169-186. -/
def stringToLossType (s : String) : Option LossType :=
  if s = "mse" then some .mse
  else if s = "mae" then some .mae
  else if s = "smae" then some .smae
  else if s = "categoricalCrossEntropy" then some .categoricalCrossEntropy
  else if s = "binaryCrossEntropy" then some .binaryCrossEntropy
  else none

/-- `optimizerTypeToString`, src/ml/enums.hpp:188-202. -/
def optimizerTypeToString : OptimizerType → String
  | .sgd => "SGD"
  | .adamWithDecayingMomentum => "Adam with Decaying Momentum"
  | .adam => "Adam"
  | .sgdmWithDecayingMomentum => "SGDM with Decaying Momentum"
  | .sgdm => "SGDM"

/-- `stringToOptimizerType`, src/ml/enums.hpp:204-221. -/
def stringToOptimizerType (s : String) : Option OptimizerType :=
  if s = "SGD" then some .sgd
  else if s = "Adam with Decaying Momentum" then some .adamWithDecayingMomentum
  else if s = "Adam" then some .adam
  else if s = "SGDM with Decaying Momentum" then some .sgdmWithDecayingMomentum
  else if s = "SGDM" then some .sgdm
  else none

end Verif.Enums
