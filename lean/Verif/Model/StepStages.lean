import Verif.Model.StepNetwork
import Verif.Model.NormBackward

/-!
# Model: one step of gradient descent on a convolutional network

`loss.backward()` followed by `torch.optim.SGD(params, lr).step()` without momentum, dampening and weight decay (see Model/StepNetwork), for the lists of modules of Model/ConvBackward and
Model/NormBackward (networks.py:444-700, layers.py, and the normalizations of utils.py and layers.py): `gps` is the second result of `stageBackward`, the gradients of the parameters of every module.
-/

namespace HOL
open TorchScalar

variable {K : Type} [TorchScalar K]

/-- A parameter vector of a batch normalization after the step; only the entries of existing channels are parameters. -/
def sgdChannels (lr : K) (w : ℕ → K) (grad : Option (Tensor K)) : ℕ → K :=
  match grad with
  | none => w
  | some g => fun i => w i - lr * g.get [i]

/-- A module after the step: `grad k` is the gradient of its parameter `k`. -/
def IStage.sgd (lr : K) (grad : ℕ → Option (Tensor K)) : IStage K → IStage K
  | .conv L => .conv { L with weight := sgdParam lr L.weight (grad 0) }
  | .norm two training channels N => .norm two training channels { N with weight := sgdChannels lr N.weight (grad 0), bias := sgdChannels lr N.bias (grad 1) }
  | .pool d => .pool d
  | .flatten => .flatten
  | .dense l => .dense (l.sgd lr grad)

/-- A normalization of the library after the step: only `LazyLayerNormLastDim` has parameters. -/
def NormModule.sgd (lr : K) (grad : ℕ → Option (Tensor K)) : NormModule K → NormModule K
  | .layerNorm M => .layerNorm { M with weight := M.weight.map fun w => sgdParam lr w (grad 0), bias := M.bias.map fun b => sgdParam lr b (grad 1) }
  | N => N

def NStage.sgd (lr : K) (grad : ℕ → Option (Tensor K)) : NStage K → NStage K
  | .base s => .base (s.sgd lr grad)
  | .norm N => .norm (N.sgd lr grad)

/-- The modules after the step of an optimizer that was given the parameters of the modules at the positions `trained`. -/
def stageSgd (trained : List ℕ) (lr : K) (gps : List (List (Tensor K))) (ss : List (NStage K)) : List (NStage K) :=
  ss.mapIdx fun k s => if k ∈ trained then s.sgd lr (fun j => (gps.getD k [])[j]?) else s

/-- The convolution `i` of `HighOrderFullyConvolutionalNetwork` or `HighOrderFullyDeconvolutionalNetwork` (networks.py:444-700) after the step: `width` is the number of modules per round, a convolution and perhaps a normalization. -/
def stepConv (width : ℕ) (lr : K) (gps : List (List (Tensor K))) (Ls : ℕ → ConvLayer K) (i : ℕ) : ConvLayer K :=
  { Ls i with weight := sgdParam lr (Ls i).weight (gps.getD (width * i) [])[0]? }

/-- The normalization `i` of a network after the step. -/
def stepNorm (lr : K) (gps : List (List (Tensor K))) (f : ℕ → BatchNorm K) (i : ℕ) : BatchNorm K :=
  { f i with weight := sgdChannels lr (f i).weight (gps.getD (2 * i + 1) [])[0]?, bias := sgdChannels lr (f i).bias (gps.getD (2 * i + 1) [])[1]? }

end HOL
