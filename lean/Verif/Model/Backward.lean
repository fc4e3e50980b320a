import Verif.Model.InputGradient
import Verif.Model.Network

/-!
# Model: the backward pass of networks

What automatic differentiation of PyTorch computes for `nn.Sequential` networks of piecewise, polynomial, Fourier, product and linear layers and `relu`: layer by layer,
from the last to the first, the gradients of the parameters and of the input from the gradient of the output. Inputs are matrices. Parameters that `forward` does not read
(`result` of `Function` layers, PolynomialLayers.py:55-57) get no gradient and do not occur.
-/

namespace HOL
open TorchScalar
variable {K : Type} [TorchScalar K]

namespace FnLayer

/-- Gradient of `self.w` of `Polynomial` and `FourierSeries`: backward pass of `einsum("ijk,lki->jl", basis, w)`, Basis.py:406, PolynomialLayers.py:60-67. -/
def weightGrad (L : FnLayer K) (x g : Tensor K) : Tensor K :=
  match x.shape with
  | [bsz, _] => Tensor.tab3 L.outFeatures L.inFeatures L.poly.n fun o i p =>
      sumL ((List.range bsz).map fun b => g.get [b, o] * L.poly.basis.call (periodize L.periodicity (x.get [b, i])) p)
  | _ => Tensor.tabulate L.w.shape fun _ => 0

/-- Gradient of the input of `Polynomial` and `FourierSeries`. -/
def inputGrad (L : FnLayer K) (x g : Tensor K) : Tensor K :=
  match x.shape with
  | [bsz, inp] => Tensor.tab2 bsz inp fun b i =>
      sumL ((List.range L.outFeatures).map fun o =>
        g.get [b, o] * sumL ((List.range L.poly.n).map fun p => L.poly.basis.dcall (periodize L.periodicity (x.get [b, i])) p * L.w.get [o, i, p]))
      * periodizeGrad L.periodicity (x.get [b, i])
  | _ => Tensor.tabulate x.shape fun _ => 0

end FnLayer

namespace ProductLayer

/-- Derivative of output `(b, o)` by `x[b, i] * weight[o, i]`: the product of the other factors, minus `1 - alpha` from the subtracted sum, ProductLayer.py:49-52. -/
def termGrad (L : ProductLayer K) (u : ℕ → ℕ → K) (b o i : ℕ) : K :=
  prodL (((List.range L.inFeatures).filter (· ≠ i)).map fun j => u b j * L.weight.get [o, j] + 1) - (1 - L.alpha)

/-- Gradient of `self.weight`, ProductLayer.py:44-55. -/
def weightGrad (L : ProductLayer K) (x g : Tensor K) : Tensor K :=
  match x.shape with
  | [bsz, _] =>
    let u : ℕ → ℕ → K := fun b i => periodize L.periodicity (x.get [b, i])
    Tensor.tab2 L.outFeatures L.inFeatures fun o i => sumL ((List.range bsz).map fun b => g.get [b, o] * L.termGrad u b o i * u b i)
  | _ => Tensor.tabulate L.weight.shape fun _ => 0

/-- Gradient of the input, ProductLayer.py:44-55. -/
def inputGrad (L : ProductLayer K) (x g : Tensor K) : Tensor K :=
  match x.shape with
  | [bsz, inp] =>
    let u : ℕ → ℕ → K := fun b i => periodize L.periodicity (x.get [b, i])
    Tensor.tab2 bsz inp fun b i =>
      sumL ((List.range L.outFeatures).map fun o => g.get [b, o] * L.termGrad u b o i * L.weight.get [o, i]) * periodizeGrad L.periodicity (x.get [b, i])
  | _ => Tensor.tabulate x.shape fun _ => 0

end ProductLayer

/-- Gradient of a bias added to every row. -/
def biasGrad (g : Tensor K) : Tensor K :=
  match g.shape with
  | [bsz, out] => Tensor.tab1 out fun o => sumL ((List.range bsz).map fun b => g.get [b, o])
  | _ => g

/-- Gradient of the weight of `torch.nn.Linear`. -/
def linearWeightGrad (weight x g : Tensor K) : Tensor K :=
  match x.shape, weight.shape with
  | [bsz, _], [o, i] => Tensor.tab2 o i fun r q => sumL ((List.range bsz).map fun b => g.get [b, r] * x.get [b, q])
  | _, _ => Tensor.tabulate weight.shape fun _ => 0

/-- Gradient of the input of `torch.nn.Linear`. -/
def linearInputGrad (weight x g : Tensor K) : Tensor K :=
  match x.shape, weight.shape with
  | [bsz, _], [o, i] => Tensor.tab2 bsz i fun b q => sumL ((List.range o).map fun r => g.get [b, r] * weight.get [r, q])
  | _, _ => Tensor.tabulate x.shape fun _ => 0

/-- Gradient of the input of `relu`: passed on where the input is positive. -/
def reluGrad (x g : Tensor K) : Tensor K := Tensor.tabulate x.shape fun idx => if ltB 0 (x.get idx) then g.get idx else 0

/-- Layers of a sequential network. `LinearReluAdapter` (layers.py:152-158) is `linear` followed by `relu`. -/
inductive GLayer (K : Type) where
  | pw (L : PwLayer K)
  | fn (L : FnLayer K)
  | product (L : ProductLayer K)
  | linear (weight bias : Tensor K)
  | relu

namespace GLayer

def forward : GLayer K → Fwd K
  | .pw L => L.forward
  | .fn L => L.forward
  | .product L => L.forward
  | .linear w b => linearForward w b
  | .relu => fun x => .ok (reluT x)

/-- The parameters `forward` reads. -/
def params : GLayer K → List (Tensor K)
  | .pw L => [L.w]
  | .fn L => [L.w]
  | .product L => [L.weight, L.bias.getD (Tensor.tab1 0 fun _ => 0)]
  | .linear w b => [w, b]
  | .relu => []

/-- The layer with another value of parameter `j`. -/
def setParam (l : GLayer K) (j : ℕ) (p : Tensor K) : GLayer K :=
  match l, j with
  | .pw L, _ => .pw { L with w := p }
  | .fn L, _ => .fn { L with w := p }
  | .product L, 0 => .product { L with weight := p }
  | .product L, _ => .product { L with bias := some p }
  | .linear _ b, 0 => .linear p b
  | .linear w _, _ => .linear w p
  | .relu, _ => .relu

/-- Gradient of the input for input `x` and gradient `g` of the output. -/
def inputGrad : GLayer K → Tensor K → Tensor K → Tensor K
  | .pw L, x, g => L.inputGrad x g
  | .fn L, x, g => L.inputGrad x g
  | .product L, x, g => L.inputGrad x g
  | .linear w _, x, g => linearInputGrad w x g
  | .relu, x, g => reluGrad x g

/-- Gradients of the parameters. -/
def paramGrads : GLayer K → Tensor K → Tensor K → List (Tensor K)
  | .pw L, x, g => [L.weightGrad x g]
  | .fn L, x, g => [L.weightGrad x g]
  | .product L, x, g => [L.weightGrad x g, biasGrad g]
  | .linear w _, x, g => [linearWeightGrad w x g, biasGrad g]
  | .relu, _, _ => []

end GLayer

/-- The backward pass of `nn.Sequential` after a forward pass on `x`, for the gradient `g` of the output: the gradient of the input, and for every layer the gradients of
its parameters. -/
def backward : List (GLayer K) → Tensor K → Tensor K → Py (Tensor K × List (List (Tensor K)))
  | [], _, g => .ok (g, [])
  | l :: ls, x, g => do
    let y ← l.forward x
    let r ← backward ls y g
    .ok (l.inputGrad x r.1, l.paramGrads x r.1 :: r.2)

end HOL
