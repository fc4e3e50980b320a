import Verif.Model.Gradient
import Verif.Model.Autoencoder

/-!
# Model: training one piecewise layer by plain gradient descent

The training loop of a user: forward pass (PolynomialLayers.py:294-340, 639-690), `F.mse_loss` as in the regression examples (examples/function_example.py:117, examples/xor.py:131),
backward pass (`PwLayer.weightGrad`) and a step of `torch.optim.SGD` without momentum, dampening and weight decay. `F.mse_loss` and `torch.optim.SGD` are PyTorch and not repository code.
-/

namespace HOL
open TorchScalar
variable {K : Type} [TorchScalar K]

/-- `F.mse_loss` of PyTorch (`reduction="mean"`), backward: the gradient with respect to `y`. Only for targets of the shape of `y` (others are broadcast by PyTorch). -/
def mseGrad (y t : Tensor K) : Tensor K :=
  Tensor.tabulate y.shape fun idx => ((2 : ℕ) : K) * (y.get idx - t.get idx) / ((numel y.shape : ℕ) : K)

namespace PwLayer

/-- The loss of a batch `x` with targets `t`. -/
def mse (L : PwLayer K) (x t : Tensor K) : Py K := do
  let y ← L.forward x
  VAE.mseLoss y t

/-- One pass: `loss = mse_loss(layer(x), t); loss.backward(); opt.step()` with `opt = SGD(layer.parameters(), lr)`; `w` is the only parameter of the layer (PolynomialLayers.py:241, 607). -/
def gdStep (lr : K) (x t : Tensor K) (L : PwLayer K) : Py (PwLayer K) := do
  let y ← L.forward x
  let g := L.weightGrad x (mseGrad y t)
  .ok { L with w := Tensor.tabulate L.w.shape fun idx => L.w.get idx - lr * g.get idx }

/-- `k` passes over the same batch. -/
def gdRun (lr : K) (x t : Tensor K) : ℕ → PwLayer K → Py (PwLayer K)
  | 0, L => .ok L
  | k + 1, L => do
    let L' ← L.gdStep lr x t
    gdRun lr x t k L'

end PwLayer
end HOL
