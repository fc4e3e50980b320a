import Verif.Model.StepNetwork

/-!
# Model: training a network by gradient descent

The loop `for batch: loss(model(x)).backward(); opt.step(); opt.zero_grad()` (examples/function_example.py:112-125, and in `fit` of PyTorch Lightning for the other examples) with `opt = torch.optim.SGD`. The loss enters
by its gradient at the output of the network.
-/

namespace HOL
variable {K : Type} [TorchScalar K]

/-- A batch: the inputs, the gradient of the loss by the outputs as a function of the outputs, and the learning rate of the step. -/
structure Batch (K : Type) where
  x : Tensor K
  lossGrad : Tensor K → Tensor K
  lr : K

/-- One pass of the loop. -/
def trainStep (P : Picks K) (e : GExpr K) (trained : List ℕ) (σ : ℕ → GLayer K) (b : Batch K) : Py (ℕ → GLayer K) := do
  let y ← e.forward σ b.x
  let r ← e.backward P σ b.x (b.lossGrad y)
  .ok (sgdStep trained b.lr r.2 σ)

/-- The loop. -/
def train (P : Picks K) (e : GExpr K) (trained : List ℕ) : (ℕ → GLayer K) → List (Batch K) → Py (ℕ → GLayer K)
  | σ, [] => .ok σ
  | σ, b :: bs => do
    let σ ← trainStep P e trained σ b
    train P e trained σ bs

end HOL
