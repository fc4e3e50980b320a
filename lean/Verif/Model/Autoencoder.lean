import Verif.Model.TensorOps
import Verif.Model.ConvNet

/-!
# Model: `VanillaVAE` and the evaluation steps

networks.py:787-920 and modules.py:17-38. Random draws are arguments. The parameters of the three `nn.Linear` layers are given (their random initialization is
PyTorch's). Losses are computed for matrices `mu` and `log_var`, which is what `encode` returns.
-/

namespace HOL
open TorchScalar

variable {K : Type} [TorchScalar K]

/-- Attributes of `VanillaVAE`, networks.py:788-812. -/
structure VAE (K : Type) where
  latentDim : ℕ
  encoder : Fwd K
  decoder : Fwd K
  /-- `decoder.in_channels` -/
  inChannels : ℕ
  muWeight : Tensor K
  muBias : Tensor K
  varWeight : Tensor K
  varBias : Tensor K
  decWeight : Tensor K
  decBias : Tensor K

namespace VAE

/-- Initial values of the parameters of an `nn.Linear`. -/
structure LinearDraw (K : Type) where
  weight : ℕ → ℕ → K
  bias : ℕ → K

/-- `VanillaVAE.__init__`, networks.py:788-812: `outSize` is `encoder.output_size`, `inChannels` is `decoder.in_channels`. The two logging calls are not modelled: their
arguments do not match their format, which `logging` reports without raising. -/
def init (latentDim : ℕ) (encoder : Fwd K) (outSize : ℕ) (decoder : Fwd K) (inChannels : ℕ) (mu var dec : LinearDraw K) : VAE K where
  latentDim := latentDim
  encoder := encoder
  decoder := decoder
  inChannels := inChannels
  muWeight := Tensor.tab2 latentDim outSize mu.weight
  muBias := Tensor.tab1 latentDim mu.bias
  varWeight := Tensor.tab2 latentDim outSize var.weight
  varBias := Tensor.tab1 latentDim var.bias
  decWeight := Tensor.tab2 inChannels latentDim dec.weight
  decBias := Tensor.tab1 inChannels dec.bias

/-- `encode`, networks.py:814-831. -/
def encode (V : VAE K) (input : Tensor K) : Py (Tensor K × Tensor K) := do
  let result ← V.encoder input
  let result ← flatten1 result
  let mu ← linearForward V.muWeight V.muBias result
  let logVar ← linearForward V.varWeight V.varBias result
  .ok (mu, logVar)

/-- `decode`, networks.py:833-849. -/
def decode (V : VAE K) (z : Tensor K) : Py (Tensor K) := do
  let result ← linearForward V.decWeight V.decBias z
  let result ← viewFirst [V.inChannels, 1, 1] result
  V.decoder result

/-- `reparameterize`, networks.py:851-861, with the draw `eps` of `torch.randn_like`. -/
def reparameterize (mu logvar eps : Tensor K) : Py (Tensor K) := do
  let std := logvar.map fun v => TorchScalar.exp ((((1 : ℕ) : K) / ((2 : ℕ) : K)) * v)
  let t ← zipB (· * ·) eps std
  zipB (· + ·) t mu

/-- `forward`, networks.py:863-866. -/
def forward (V : VAE K) (input : Tensor K) (eps : Tensor K) : Py (Tensor K × Tensor K × Tensor K × Tensor K) := do
  let r ← V.encode input
  let z ← reparameterize r.1 r.2 eps
  let out ← V.decode z
  .ok (out, input, r.1, r.2)

/-- `F.mse_loss` (shapes that differ are broadcast, with a warning). -/
def mseLoss (a b : Tensor K) : Py K := do
  let d ← zipB (fun u v => (u - v) * (u - v)) a b
  .ok (meanAll d)

/-- One entry of `1 + log_var - mu**2 - log_var.exp()`. -/
def kldEntry (m l : K) : K := 1 + l - m * m - TorchScalar.exp l

/-- `kld_loss`, networks.py:885-887. -/
def kldLoss (mu logVar : Tensor K) : Py K := do
  let t ← zipB kldEntry mu logVar
  match t.shape with
  | [b, d] =>
    .ok (sumL ((List.range b).map fun s => -(((1 : ℕ) : K) / ((2 : ℕ) : K)) * sumL ((List.range d).map fun j => t.get [s, j])) / ((b : ℕ) : K))
  | _ => .error .indexError

/-- The returned dictionary. -/
structure Loss (K : Type) where
  loss : K
  reconstruction : K
  kld : K

/-- `loss_function`, networks.py:868-894; `M_N` is a keyword argument without default. -/
def lossFunction (recons input mu logVar : Tensor K) (mN : Option K) : Py (Loss K) :=
  match mN with
  | none => .error .keyError
  | some weight => do
    let recon ← mseLoss recons input
    let kld ← kldLoss mu logVar
    .ok { loss := recon + weight * kld, reconstruction := recon, kld := -kld }

/-- `sample`, networks.py:896-909, with the draw `z` of shape `[num_samples, latent_dim]`. -/
def sample (V : VAE K) (z : Tensor K) : Py (Tensor K) := V.decode z

/-- `generate`, networks.py:911-920. -/
def generate (V : VAE K) (x eps : Tensor K) : Py (Tensor K) := do
  let r ← V.forward x eps
  .ok r.1

end VAE

/-! ## evaluation steps -/

/-- Entry-wise difference of two vectors of integers, with broadcasting. -/
def subInts (a b : List ℤ) : Py (List ℤ) := do
  let n ← bcast a.length b.length
  .ok ((List.range n).map fun i => a.getD (bidx a.length i) 0 - b.getD (bidx b.length i) 0)

/-- `torch.argmax(y_hat, dim=1)`: one index per row; `argmax` is the choice of PyTorch among the positions of the largest entry. -/
def argmaxRows (argmax : List K → ℕ) (y : Tensor K) : Py (List ℤ) :=
  match y.shape with
  | [b, c] => if c = 0 then .error .indexError else .ok ((List.range b).map fun s => ((argmax ((List.range c).map fun j => y.get [s, j]) : ℕ) : ℤ))
  | _ => .error .runtimeError

/-- `ClassificationMixin.eval_step`, modules.py:17-28: the returned loss and the logged accuracy. `loss` is `self.loss` (the cross entropy of PyTorch). Outputs with
more than two axes are not modelled (RuntimeError). -/
def classificationStep (model : Fwd K) (loss : Tensor K → List ℤ → Py K) (argmax : List K → ℕ) (x : Tensor K) (y : Tensor ℤ) : Py (K × K) := do
  let yHat ← model x
  let l ← loss yHat y.data
  let best ← argmaxRows argmax yHat
  let diff ← subInts best y.data
  let hits := (diff.map fun d => if d = 0 then 1 else 0 : List ℕ).sum
  .ok (l, ((hits : ℕ) : K) / ((diff.length : ℕ) : K))

/-- `RegressionMixin.eval_step`, modules.py:31-38. -/
def regressionStep (model : Fwd K) (loss : Tensor K → Tensor K → Py K) (x y : Tensor K) : Py K := do
  let yHat ← model x
  loss (yHat.reshape [numel yHat.shape]) (y.reshape [numel y.shape])

end HOL
