import Verif.Model.Network
import Verif.Model.Autoencoder

/-! # Model of the exclusive or example, examples/xor.py

A network with two inputs and one output is trained on points of the square `[-1, 1)^2` labelled by the sign of the product of the two
coordinates. The keyword arguments `alpha` (of `Product` only, which is not in the tables of the example), `intialization` (misspelled),
`initialization` and `device` are accepted and ignored by the layers of the example. -/

namespace HOL
open TorchScalar
variable {K : Type} [TorchScalar K]

/-- An object of class `NDFunctionApproximation`, examples/xor.py:54-150: the modules, `self.model`, and whether
`self.forward_function` is `nd_forward`. -/
structure XorNet (K : Type) where
  heap : Heap K
  model : ℕ
  nd : Bool

/-- Arguments of the two layers of the second branch, examples/xor.py:92-110. -/
def xorArgs (n segments inFeatures outFeatures : ℕ) : FcArgs K :=
  { n := .int n, inFeatures := inFeatures, outFeatures := outFeatures, segments := some (.int segments), periodicity := none
    numInputLayers := 2, scale := 1, rescaleOutput := false, initialization := "constant_random" }

/-- `NDFunctionApproximation.__init__`, examples/xor.py:55-112. `dimensions=2` reaches `Polynomial2D.__init__` within its keyword
arguments, and PolynomialLayers.py:107-114 passes `dimensions` a second time: `TypeError`. -/
def xorInit (rng : Rng K) (layerType : String) (n segments : ℕ) : Py (XorNet K) :=
  if layerType = "polynomial_2d" then .error .typeError
  else if layerType = "continuous_nd" then do
    let L ← PwNDLayer.init (.list [n, n]) 1 1 (.int segments) (some 2) ((2 : ℕ) : K) (rng 0) 1
    .ok { heap := [.pwND L, .seq [0]], model := 1, nd := true }
  else do
    let r1 ← fcLayer rng layerType (xorArgs n segments 2 2) []
    let r2 ← fcLayer rng layerType (xorArgs n segments 2 1) r1.2
    .ok { heap := r2.2 ++ [.seq [r1.1, r2.1]], model := r2.2.length, nd := false }

/-- `NDFunctionApproximation.forward`, examples/xor.py:117-126. -/
def XorNet.forward (N : XorNet K) (x : Tensor K) : Py (Tensor K) :=
  if N.nd then do
    let y ← unsqueeze1 x
    N.heap.forward N.model y
  else N.heap.forward N.model x

/-- `torch.where(x * y > 0, -0.5 + 0 * x, 0.5 + 0 * x)`, examples/xor.py:33, for one sample. -/
def xorTarget (x y : K) : K :=
  if ltB 0 (x * y) then -(1 / ((2 : ℕ) : K)) + 0 * x else 1 / ((2 : ℕ) : K) + 0 * x

/-- The labels `z` of the samples in the rows of `data`, examples/xor.py:29-39. -/
def xorLabels (data : Tensor K) : Tensor K :=
  Tensor.tab2 (data.shape.getD 0 0) 1 fun b _ => xorTarget (data.get [b, 0]) (data.get [b, 1])

/-- `training_step`, examples/xor.py:128-131, for a batch of samples: the loss. -/
def XorNet.loss (N : XorNet K) (data : Tensor K) : Py K := do
  let yHat ← N.forward data
  VAE.mseLoss yHat (xorLabels data)

end HOL
