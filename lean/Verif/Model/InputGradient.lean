import Verif.Model.Gradient

/-!
# Model: input gradients of piecewise layers

What automatic differentiation of PyTorch computes for the input of `Piecewise` and `PiecewiseDiscontinuous` layers (PolynomialLayers.py:294-336, 639-676): the chain
rule along the tensors that carry gradients. The segment index passes through `.long()` and contributes nothing, so that `x_min`, `x_max` and the gathered weights are
constants.
-/

namespace HOL
open TorchScalar
variable {K : Type} [TorchScalar K]

/-- Backward pass of `LagrangeBasis.__call__` on one entry (LagrangePolynomial.py:205-211) for the gradient 1: `torch.prod` gives every factor the product of the others,
`torch.where` passes it to the factors `m != j` only, and these divide by the denominator. -/
def LagrangeBasis.dcall (b : LagrangeBasis K) (x : K) (j : ℕ) : K :=
  sumL ((List.range b.n).map fun m =>
    prodL (((List.range b.n).filter (· ≠ m)).map fun q => if q ≠ j then (x - b.X.get [q]) / b.denominators.get [j, q] else 1)
      * (if m ≠ j then 1 / b.denominators.get [j, m] else 0))

/-- Backward pass of `FourierBasis.__call__` on one entry (LagrangePolynomial.py:172-187) for the gradient 1. -/
def fourierDcall (length x : K) (j : ℕ) : K :=
  if j = 0 then 0
  else
    let i := (j + 1) / 2
    if j % 2 = 0 then -sin (((2 : ℕ) : K) * pi * (i : K) * x / length) / length * (((2 : ℕ) : K) * pi * (i : K))
    else cos (((2 : ℕ) : K) * pi * (i : K) * x / length) / length * (((2 : ℕ) : K) * pi * (i : K))

/-- Backward pass of `__call__` of the three basis classes. `LagrangeBasis1` returns `ones_like(x)`, which has no gradient (LagrangePolynomial.py:225-227). -/
def BasisFn.dcall (b : BasisFn K) (x : K) (j : ℕ) : K :=
  match b with
  | .lagrange b => b.dcall x j
  | .lagrange1 => 0
  | .fourier length => fourierDcall length x j

/-- Backward pass of `make_periodic` on one entry (utils.py:74-79) for the gradient 1: `remainder` has derivative 1 and `torch.where` takes the branch of the forward pass. -/
def makePeriodicGrad (x p : K) : K :=
  if ltB p (remainder (x + 1 / ((2 : ℕ) : K) * p) (((2 : ℕ) : K) * p)) then -1 else 1

/-- Backward pass of `if periodicity is not None: x = make_periodic(x, periodicity)`. -/
def periodizeGrad (p : Option K) (x : K) : K :=
  match p with
  | none => 1
  | some p => makePeriodicGrad x p

namespace PwLayer

/-- Gradient of the input after a forward pass on `x`, for the gradient `g` of the output: through `interpolate` (Basis.py:492-513, 524-546, `alpha = 1`; `linkFactor` is
the derivative of the output by the link), `x_in = length * ((x - x_min) / (x_max - x_min)) - half` (PolynomialLayers.py:333, 673) and `make_periodic`. -/
def inputGrad (L : PwLayer K) (x g : Tensor K) : Tensor K :=
  match x.shape with
  | [bsz, inp] =>
    let id : ℕ → ℕ → ℤ := fun b i => L.whichSegment (x.get [b, i])
    let xl : ℕ → ℕ → K := fun b i => L.xLocal (periodize L.periodicity (x.get [b, i])) (id b i)
    let w : ℕ → ℕ → ℕ → ℕ → K := fun b o i k => L.w.get [o, i, (id b i).toNat * L.stride + k]
    let f : ℕ → ℕ → ℕ → K := fun b o i => sumL ((List.range L.n).map fun k => L.poly.basis.call (xl b i) k * w b o i k)
    Tensor.tab2 bsz inp fun b i =>
      sumL ((List.range L.outFeatures).map fun o =>
        g.get [b, o] * L.linkFactor (f b o) i * sumL ((List.range L.n).map fun k => L.poly.basis.dcall (xl b i) k * w b o i k))
      * (L.length / (L.eta (id b i + 1) - L.eta (id b i))) * periodizeGrad L.periodicity (x.get [b, i])
  | _ => Tensor.tabulate x.shape fun _ => 0

end PwLayer
end HOL
