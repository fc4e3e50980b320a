import Verif.Model.ConvGradient
import Verif.Model.ConvNet
import Verif.Model.BatchNorm2d
import Verif.Model.Backward

/-!
# Model: backward pass of convolutional networks

Automatic differentiation of PyTorch through the modules that convolutional networks consist of (networks.py:483-781, with `torch.nn.BatchNorm2d` or `torch.nn.LazyBatchNorm1d` as normalization as in
examples/variational_autoencoder.py:53, 64 and modules.py:99, 159, 175), followed by fully connected layers.
-/

namespace HOL
open TorchScalar
variable {K : Type} [TorchScalar K]

/-! ## batch normalization -/

/-- The entries of channel `c` of a tensor of shape `[batch, channels, ...]`, sample by sample. -/
def channelEntries (x : Tensor K) (c : ℕ) : List K :=
  match x.shape with
  | b :: _ :: rest => (List.range b).flatMap fun s => (List.range (numel rest)).map fun p => x.get (s :: c :: unravel rest p)
  | _ => []

/-- `native_batch_norm`: the normalized input, before weight and bias; in training mode with the mean and the biased variance of the batch. -/
def BatchNorm.hat (N : BatchNorm K) (training : Bool) (x : Tensor K) : Tensor K :=
  Tensor.tabulate x.shape fun idx =>
    let c := idx.getD 1 0
    if training then (x.get idx - meanL (channelEntries x c)) / sqrt (varL (channelEntries x c) + N.eps)
    else (x.get idx - N.runningMean c) / sqrt (N.runningVar c + N.eps)

/-- Gradient of the input of batch normalization. In training mode the mean and the variance depend on the input too: with the normalized input `h` the gradient is
`weight / sqrt(var + eps) * (g - mean(g) - h * mean(g * h))` over the channel. -/
def BatchNorm.inputGrad (N : BatchNorm K) (training : Bool) (x g : Tensor K) : Tensor K :=
  let h := N.hat training x
  Tensor.tabulate x.shape fun idx =>
    let c := idx.getD 1 0
    if training then
      N.weight c / sqrt (varL (channelEntries x c) + N.eps) *
        (g.get idx - meanL (channelEntries g c) - h.get idx * meanL (channelEntries (Tensor.tabulate g.shape fun i => g.get i * h.get i) c))
    else N.weight c / sqrt (N.runningVar c + N.eps) * g.get idx

/-- Gradient of the weight of batch normalization. -/
def BatchNorm.weightGrad (N : BatchNorm K) (training : Bool) (channels : ℕ) (x g : Tensor K) : Tensor K :=
  let h := N.hat training x
  Tensor.tab1 channels fun c => sumL (channelEntries (Tensor.tabulate g.shape fun i => g.get i * h.get i) c)

/-- Gradient of the bias of batch normalization. -/
def BatchNorm.biasGrad (channels : ℕ) (g : Tensor K) : Tensor K := Tensor.tab1 channels fun c => sumL (channelEntries g c)

/-! ## modules without parameters -/

/-- Gradient of the input of `nn.AdaptiveAvgPool{1,2,3}d(1)`: every averaged entry gets an equal share. -/
def poolInputGrad (d : ℕ) (x g : Tensor K) : Tensor K :=
  let r := x.shape.length
  let keep := x.shape.take (r - d)
  let last := x.shape.drop (r - d)
  let flat := g.reshape [numel keep]
  (Tensor.tab2 (numel keep) (numel last) fun p _ => flat.get [p] / ((numel last : ℕ) : K)).reshape x.shape

/-! ## networks -/

/-- Modules of a convolutional network: convolutions, `BatchNorm2d` (`two`) or `BatchNorm1d`, pooling, `nn.Flatten()`, fully connected layers. -/
inductive IStage (K : Type) where
  | conv (L : ConvLayer K)
  | norm (two training : Bool) (channels : ℕ) (N : BatchNorm K)
  | pool (d : ℕ)
  | flatten
  | dense (l : GLayer K)

namespace IStage

def forward : IStage K → Fwd K
  | .conv L => L.forward
  | .norm true true _ N => N.train2
  | .norm true false _ N => N.eval2
  | .norm false true _ N => N.train
  | .norm false false _ N => N.eval
  | .pool d => adaptiveAvgPool d
  | .flatten => flatten1
  | .dense l => l.forward

/-- The parameters. -/
def params : IStage K → List (Tensor K)
  | .conv L => [L.weight]
  | .norm _ _ c N => [Tensor.tab1 c N.weight, Tensor.tab1 c N.bias]
  | .pool _ => []
  | .flatten => []
  | .dense l => l.params

/-- The module with another value of parameter `j`. -/
def setParam (s : IStage K) (j : ℕ) (p : Tensor K) : IStage K :=
  match s, j with
  | .conv L, _ => .conv { L with weight := p }
  | .norm two tr c N, 0 => .norm two tr c { N with weight := fun i => p.get [i] }
  | .norm two tr c N, _ => .norm two tr c { N with bias := fun i => p.get [i] }
  | .pool d, _ => .pool d
  | .flatten, _ => .flatten
  | .dense l, j => .dense (l.setParam j p)

/-- Gradient of the input after a forward pass on `x`, for the gradient `g` of the output. -/
def inputGrad (s : IStage K) (x g : Tensor K) : Py (Tensor K) :=
  match s with
  | .conv L => L.inputGrad x g
  | .norm _ tr _ N => .ok (N.inputGrad tr x g)
  | .pool d => .ok (poolInputGrad d x g)
  | .flatten => .ok (g.reshape x.shape)
  | .dense l => .ok (l.inputGrad x g)

/-- Gradients of the parameters. -/
def paramGrads (s : IStage K) (x g : Tensor K) : Py (List (Tensor K)) :=
  match s with
  | .conv L => do
    let w ← L.weightGrad x g
    .ok [w]
  | .norm _ tr c N => .ok [N.weightGrad tr c x g, BatchNorm.biasGrad c g]
  | .pool _ => .ok []
  | .flatten => .ok []
  | .dense l => .ok (l.paramGrads x g)

end IStage

/-- `nn.Sequential.forward` of the modules. -/
def imageForward : List (IStage K) → Fwd K
  | [], x => .ok x
  | s :: ss, x => do
    let y ← s.forward x
    imageForward ss y

/-- The backward pass after a forward pass on `x`, for the gradient `g` of the output: the gradient of the input, and for every module the gradients of its parameters. -/
def imageBackward : List (IStage K) → Tensor K → Tensor K → Py (Tensor K × List (List (Tensor K)))
  | [], _, g => .ok (g, [])
  | s :: ss, x, g => do
    let y ← s.forward x
    let (gy, gps) ← imageBackward ss y g
    let gx ← s.inputGrad x gy
    let gp ← s.paramGrads x gy
    .ok (gx, gp :: gps)

/-- The modules of `HighOrderFullyConvolutionalNetwork` (networks.py:523-556) with convolutions and batch normalizations: the layers, the pooling and `flatten(1)`. -/
def fcnStages (layers : List (IStage K)) (pool : Option ℕ) : List (IStage K) :=
  layers ++ (match pool with | some d => [.pool d] | none => []) ++ [.flatten]

end HOL
