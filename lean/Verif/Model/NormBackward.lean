import Verif.Model.NormLayers
import Verif.Model.ConvBackward

/-!
# Model: backward pass of the normalizations of the library

Automatic differentiation of PyTorch through the functions of utils.py:8-65 and the modules of layers.py:21-137. The derivative of `torch.max(x, dim)` and `torch.min(x, dim)` goes to the entry whose
index they return. Which index is returned when several entries are equal is not documented, it is left open here.
-/

namespace HOL
open TorchScalar
variable {K : Type} [TorchScalar K]

/-- The indices that `torch.max(v, dim)` and `torch.min(v, dim)` return. -/
structure Picks (K : Type) where
  max : List K → ℕ
  min : List K → ℕ

/-- Sum along the axis `dim` of size `n`, through position `idx`. -/
def sumAlong (n dim : ℕ) (idx : List ℕ) (f : List ℕ → K) : K := sumL ((List.range n).map fun q => f (idx.set dim q))

/-- Gradient of the denominator of `a / d` where `d` is the same along the axis: `-g * a / (d * d)`, summed along the axis. -/
def denominatorGrad (n dim : ℕ) (idx : List ℕ) (g a : List ℕ → K) (d : K) : K := sumAlong n dim idx fun i => -(g i * a i) / (d * d)

/-- Backward pass of `max_abs_normalization`, utils.py:8-13: the quotient, `torch.max` and `abs`. -/
def maxAbsGrad (P : Picks K) (eps : K) (dim : ℕ) (x g : Tensor K) : Tensor K :=
  Tensor.tabulate x.shape fun idx =>
    let v := (slice x dim idx).map TorchScalar.abs
    let d := maxL v + eps
    let gMax := denominatorGrad (x.shape.getD dim 0) dim idx g.get x.get d
    g.get idx / d + (if idx.getD dim 0 = P.max v then gMax * sign (x.get idx) else 0)

/-- Backward pass of `max_center_normalization`, utils.py:20-28. -/
def maxCenterGrad (P : Picks K) (eps : K) (dim : ℕ) (x g : Tensor K) : Tensor K :=
  Tensor.tabulate x.shape fun idx =>
    let n := x.shape.getD dim 0
    let v := slice x dim idx
    let mid := 1 / ((2 : ℕ) : K) * (maxL v + minL v)
    let d := maxL v - mid + eps
    let gMag := denominatorGrad n dim idx g.get (fun i => x.get i - mid) d
    let gMid := -(sumAlong n dim idx fun i => g.get i / d) - gMag
    let gMax := gMag + 1 / ((2 : ℕ) : K) * gMid
    let gMin := 1 / ((2 : ℕ) : K) * gMid
    g.get idx / d + (if idx.getD dim 0 = P.max v then gMax else 0) + (if idx.getD dim 0 = P.min v then gMin else 0)

/-- Backward pass of `l2_normalization`, utils.py:57-58; `norm` gives zero gradients where the norm is zero. -/
def l2Grad (eps : K) (x g : Tensor K) : Tensor K :=
  Tensor.tabulate x.shape fun idx =>
    let m := sqrt (sumL ((slice x 1 idx).map fun a => a * a))
    let d := m + eps
    let gNorm := denominatorGrad (x.shape.getD 1 0) 1 idx g.get x.get d
    g.get idx / d + (if eqB m 0 then 0 else x.get idx * (gNorm / m))

/-- Through `x.reshape(shape[0], -1)` and back, utils.py:43-44, 54, 62-65. -/
def rowsGrad (back : Tensor K → Tensor K → Tensor K) (x g : Tensor K) : Tensor K :=
  match x.shape with
  | [] => g
  | s0 :: ss => (back (x.reshape [s0, numel ss]) (g.reshape [s0, numel ss])).reshape x.shape

/-- The normalized input of `F.layer_norm` before weight and bias. -/
def layerHat (eps : K) (x : Tensor K) (idx : List ℕ) : K :=
  let v := slice x (x.shape.length - 1) idx
  (x.get idx - meanL v) / sqrt (varL v + eps)

/-- Gradient of the input of `F.layer_norm`: mean and variance depend on the input. -/
def layerNormGrad (eps : K) (weight x g : Tensor K) : Tensor K :=
  Tensor.tabulate x.shape fun idx =>
    let dim := x.shape.length - 1
    let n := x.shape.getD dim 0
    let v := slice x dim idx
    let gh : List ℕ → K := fun i => g.get i * weight.get [i.getD dim 0]
    (gh idx - sumAlong n dim idx gh / ((n : ℕ) : K) - layerHat eps x idx * (sumAlong n dim idx (fun i => gh i * layerHat eps x i) / ((n : ℕ) : K)))
      / sqrt (varL v + eps)

/-- Sum over all entries with this last index. -/
def columnSum (shape : List ℕ) (c : ℕ) (f : List ℕ → K) : K :=
  sumL (((List.range (numel shape)).filter fun p => (unravel shape p).getD (shape.length - 1) 0 = c).map fun p => f (unravel shape p))

/-- Gradient of the weight of `F.layer_norm`. -/
def layerNormWeightGrad (eps : K) (weight x g : Tensor K) : Tensor K :=
  Tensor.tabulate weight.shape fun i => columnSum x.shape (i.getD 0 0) fun idx => g.get idx * layerHat eps x idx

/-- Gradient of the bias of `F.layer_norm`. -/
def layerNormBiasGrad (bias x g : Tensor K) : Tensor K := Tensor.tabulate bias.shape fun i => columnSum x.shape (i.getD 0 0) g.get

namespace NormModule

/-- `forward` without the state afterwards. -/
def apply (N : NormModule K) : Fwd K := fun x => (N.forward x).map Prod.fst

/-- The parameters: only `LazyLayerNormLastDim` has some, once it was called. -/
def params : NormModule K → List (Tensor K)
  | .layerNorm M => M.parameters
  | _ => []

/-- The module with another value of parameter `j`. -/
def setParam (N : NormModule K) (j : ℕ) (p : Tensor K) : NormModule K :=
  match N, j with
  | .layerNorm M, 0 => .layerNorm { M with weight := some p }
  | .layerNorm M, _ => .layerNorm { M with bias := some p }
  | N, _ => N

/-- Gradient of the input. -/
def inputGrad (P : Picks K) (N : NormModule K) (x g : Tensor K) : Tensor K :=
  match N with
  | .maxAbsLast eps => maxAbsGrad P eps (x.shape.length - 1) x g
  | .maxCenterLast eps => maxCenterGrad P eps (x.shape.length - 1) x g
  | .maxAbs eps dim => maxAbsGrad P eps dim x g
  | .maxCenter eps => maxCenterGrad P eps 1 x g
  | .maxCenterND eps => rowsGrad (maxCenterGrad P eps 1) x g
  | .maxAbsND eps => rowsGrad (maxAbsGrad P eps 1) x g
  | .l2 eps => l2Grad eps x g
  | .layerNorm M => layerNormGrad defaultEps (M.weight.getD (Tensor.tab1 0 fun _ => 0)) x g

/-- Gradients of the parameters. -/
def paramGrads (N : NormModule K) (x g : Tensor K) : List (Tensor K) :=
  match N with
  | .layerNorm M => (M.weight.toList.map fun w => layerNormWeightGrad defaultEps w x g) ++ M.bias.toList.map fun b => layerNormBiasGrad b x g
  | _ => []

end NormModule

/-- Modules of a network: those of `IStage` and the normalizations of the library. -/
inductive NStage (K : Type) where
  | base (s : IStage K)
  | norm (N : NormModule K)

namespace NStage

def forward : NStage K → Fwd K
  | .base s => s.forward
  | .norm N => N.apply

def params : NStage K → List (Tensor K)
  | .base s => s.params
  | .norm N => N.params

def setParam : NStage K → ℕ → Tensor K → NStage K
  | .base s, j, p => .base (s.setParam j p)
  | .norm N, j, p => .norm (N.setParam j p)

def inputGrad (P : Picks K) : NStage K → Tensor K → Tensor K → Py (Tensor K)
  | .base s, x, g => s.inputGrad x g
  | .norm N, x, g => .ok (N.inputGrad P x g)

def paramGrads : NStage K → Tensor K → Tensor K → Py (List (Tensor K))
  | .base s, x, g => s.paramGrads x g
  | .norm N, x, g => .ok (N.paramGrads x g)

end NStage

/-- `nn.Sequential.forward` of the modules. -/
def stageForward : List (NStage K) → Fwd K
  | [], x => .ok x
  | s :: ss, x => do
    let y ← s.forward x
    stageForward ss y

/-- The backward pass after a forward pass on `x`, for the gradient `g` of the output. -/
def stageBackward (P : Picks K) : List (NStage K) → Tensor K → Tensor K → Py (Tensor K × List (List (Tensor K)))
  | [], _, g => .ok (g, [])
  | s :: ss, x, g => do
    let y ← s.forward x
    let (gy, gps) ← stageBackward P ss y g
    let gx ← s.inputGrad P x gy
    let gp ← s.paramGrads x gy
    .ok (gx, gp :: gps)

end HOL
