import Verif.Model.Conv
import Verif.Model.InputGradient

/-!
# Model: gradients of convolutional layers

What automatic differentiation of PyTorch computes for the weights and the input of the convolutional layers (FunctionalConvolution.py:215-218, 314-320, 441-447, 568-574,
FunctionalConvolutionTranspose.py:123-129): the chain rule along `make_periodic`, the expansion, the convolution and the rescaling. The segment index passes through `.long()` and contributes nothing;
the entries of the expansion that are not written by `mat[windex, wrange] = out` (Basis.py:115, 202, 280, 364) stay constant zeros.
-/

namespace HOL
open TorchScalar
variable {K : Type} [TorchScalar K]

/-! ## convolutions -/

/-- One product of the sum that gives an output entry: the entry of the (expanded) image, none in the padding, and the entry of the weight. -/
abbrev ConvTerm := Option (List ℕ) × List ℕ

/-- The products summed in entry `m` of `nn.Conv2d.forward` (see `conv2d`), for images with `c` channels of size `h`, `v`. -/
def conv2dTerms (g : Geometry) (c h v : ℕ) (m : List ℕ) : List ConvTerm :=
  match m with
  | [s, r, i, j] => (List.range c).flatMap fun q => (List.range g.kernel).flatMap fun d => (List.range g.kernel).map fun e =>
    ((tap g h i d).bind fun y => (tap g v j e).map fun z => [s, q, y, z], [r, q, d, e])
  | _ => []

/-- The same for `nn.Conv1d.forward`. -/
def conv1dTerms (g : Geometry) (c h : ℕ) (m : List ℕ) : List ConvTerm :=
  match m with
  | [s, r, i] => (List.range c).flatMap fun q => (List.range g.kernel).map fun d => ((tap g h i d).map fun y => [s, q, y], [r, q, d])
  | _ => []

/-- The same for `nn.ConvTranspose2d.forward`. -/
def convTransposeTerms (g : Geometry) (c h v : ℕ) (m : List ℕ) : List ConvTerm :=
  match m with
  | [s, r, i, j] => (List.range c).flatMap fun q => (List.range g.kernel).flatMap fun d => (List.range g.kernel).map fun e =>
    ((tapTranspose g h i d).bind fun y => (tapTranspose g v j e).map fun z => [s, q, y, z], [q, r, d, e])
  | _ => []

/-- The products of the convolution of a layer, for expanded images of this shape. -/
def ConvLayer.terms (L : ConvLayer K) (shape : List ℕ) : List ℕ → List ConvTerm :=
  match L.kind, shape with
  | .conv2d, [_, c, h, v] => conv2dTerms L.geometry c h v
  | .conv1d, [_, c, h] => conv1dTerms L.geometry c h
  | .convTranspose2d, [_, c, h, v] => convTransposeTerms L.geometry c h v
  | _, _ => fun _ => []

/-- Backward pass of a convolution for the gradient `g` of its output: every product sends `g` times the weight to the entry of the image. -/
def convInputGrad (terms : List ℕ → List ConvTerm) (w : Tensor K) (shape : List ℕ) (g : Tensor K) : Tensor K :=
  Tensor.tabulate shape fun idx => sumL ((List.range (numel g.shape)).map fun p =>
    g.get (unravel g.shape p) * sumL (((terms (unravel g.shape p)).filter fun t => t.1 == some idx).map fun t => w.get t.2))

/-- And `g` times the entry of the image to the weight. -/
def convWeightGrad (terms : List ℕ → List ConvTerm) (x : Tensor K) (shape : List ℕ) (g : Tensor K) : Tensor K :=
  Tensor.tabulate shape fun idx => sumL ((List.range (numel g.shape)).map fun p =>
    g.get (unravel g.shape p) * sumL (((terms (unravel g.shape p)).filter fun t => t.2 == idx).map fun t => t.1.elim 0 x.get))

/-! ## expansions -/

/-- Derivative of variable `v` of the expansion of one entry in the backward pass: that of the basis function at the local coordinate times that of the local coordinate, nothing for the
variables of other segments (Basis.py:67-126, 157-208, 239-288, 319-370). -/
def Expander.dval (e : Expander K) (v : ℕ) (t : K) : K :=
  match e with
  | .plain _ basis => basis.dcall t v
  | .piecewise shared rank n segments length =>
    let id := expandSegment shared rank segments length t
    let base := id.toNat * (if shared then n - 1 else n)
    if base ≤ v ∧ v < base + n then
      (getLagrangeBasis n length).dcall (expandLocal segments length t id) (v - base) * (length / (expandEta segments (id + 1) - expandEta segments id))
    else 0

/-- Backward pass of `Expansion2d` and `Expansion1d` on `x` (FunctionalConvolution.py:123-139, 158-172) for the gradient `g` of the result: the variables of channel `c` are the channels
`c * variables + v`. -/
def expansionGrad (e : Expander K) (x g : Tensor K) : Tensor K :=
  Tensor.tabulate x.shape fun idx =>
    match idx with
    | s :: c :: rest => sumL ((List.range e.variables).map fun v => g.get (s :: (c * e.variables + v) :: rest) * e.dval v (x.get idx))
    | _ => 0

/-! ## layers -/

/-- `self.expansion(x)` after `make_periodic`. -/
def ConvLayer.expanded (L : ConvLayer K) (x : Tensor K) : Py (Tensor K) :=
  let x := x.map (periodize L.periodicity)
  match L.kind with
  | .conv2d | .convTranspose2d => expansion2d L.expander x
  | .conv1d => expansion1d L.expander x

/-- Gradient of `self.conv.weight` after a forward pass on `x`, for the gradient `g` of the output. -/
def ConvLayer.weightGrad (L : ConvLayer K) (x g : Tensor K) : Py (Tensor K) := do
  let e ← L.expanded x
  .ok (convWeightGrad (L.terms e.shape) e L.weight.shape (g.map (· * L.rescale)))

/-- Gradient of the input. -/
def ConvLayer.inputGrad (L : ConvLayer K) (x g : Tensor K) : Py (Tensor K) := do
  let e ← L.expanded x
  let ge := convInputGrad (L.terms e.shape) L.weight e.shape (g.map (· * L.rescale))
  let gp := expansionGrad L.expander (x.map (periodize L.periodicity)) ge
  .ok (Tensor.tabulate x.shape fun idx => gp.get idx * periodizeGrad L.periodicity (x.get idx))

end HOL
