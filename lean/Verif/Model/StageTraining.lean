import Verif.Model.StepStages
import Verif.Model.Training

/-!
# Model: training a convolutional network by gradient descent

The loop of Model/Training for the lists of modules of Model/NormBackward: convolutions, batch normalizations, the normalizations of the library, pooling, `nn.Flatten`, fully connected layers (networks.py:444-700,
examples/variational_autoencoder.py). In training mode the running statistics of batch normalizations are not read, so they are left out.
-/

namespace HOL
variable {K : Type} [TorchScalar K]

/-- One pass of the loop: `loss(model(x)).backward(); opt.step(); opt.zero_grad()`. -/
def stageTrainStep (P : Picks K) (trained : List ℕ) (ss : List (NStage K)) (b : Batch K) : Py (List (NStage K)) := do
  let y ← stageForward ss b.x
  let r ← stageBackward P ss b.x (b.lossGrad y)
  .ok (stageSgd trained b.lr r.2 ss)

/-- The loop. -/
def stageTrain (P : Picks K) (trained : List ℕ) : List (NStage K) → List (Batch K) → Py (List (NStage K))
  | ss, [] => .ok ss
  | ss, b :: bs => do
    let ss ← stageTrainStep P trained ss b
    stageTrain P trained ss bs

end HOL
