import Verif.Model.Modules

/-!
# Model: `nn.BatchNorm2d`

PyTorch code, used as `normalization=torch.nn.BatchNorm2d` in examples/variational_autoencoder.py:53, 64 and examples/autoencoder.py:61, 72; the networks call it with the number of channels
(networks.py:535-536, 635-636). As for `BatchNorm1d` (Model/Modules.lean) the update of the running statistics and inputs with a wrong number of channels are not modelled.
-/

namespace HOL
open TorchScalar
variable {K : Type} [TorchScalar K]

/-- `BatchNorm2d.forward` in training mode: statistics of the batch; inputs need four axes and more than one value per channel. -/
def BatchNorm.train2 (N : BatchNorm K) (x : Tensor K) : Py (Tensor K) :=
  match x.shape with
  | [b, c, h, w] =>
    if b * h * w = 1 then .error .valueError
    else .ok (Tensor.tab4 b c h w fun s r i j =>
      let v := channelValues (fun s c p => x.get [s, c, p / w, p % w]) b (h * w) r
      N.entry r (meanL v) (varL v) (x.get [s, r, i, j]))
  | _ => .error .valueError

/-- `BatchNorm2d.forward` in evaluation mode. -/
def BatchNorm.eval2 (N : BatchNorm K) (x : Tensor K) : Py (Tensor K) :=
  match x.shape with
  | [b, c, h, w] => .ok (Tensor.tab4 b c h w fun s r i j => N.entry r (N.runningMean r) (N.runningVar r) (x.get [s, r, i, j]))
  | _ => .error .valueError

end HOL
