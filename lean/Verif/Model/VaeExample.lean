import Verif.Model.BatchNorm2d
import Verif.Model.Autoencoder

/-!
# Model: the network of examples/variational_autoencoder.py

`Net.__init__` (lines 26-75) with config/variational_autoencoder.yaml, `eval_step` (129-149), and what `ImageSampler` shows (194-219). `n`, `segments` and `periodicity` are arguments (the search of the
configuration varies `n` and `segments`). Optimizers, data loading and logging are not modelled.
-/

namespace HOL
open TorchScalar
variable {K : Type} [TorchScalar K]

/-- `BatchNorm2d.forward`: `training` is set by Lightning (`train()` while fitting, `eval()` for validation and test). -/
def BatchNorm.call2 (training : Bool) (N : BatchNorm K) : Fwd K := if training then N.train2 else N.eval2

/-- A new `torch.nn.BatchNorm2d(channels)` per layer. -/
def newBatchNorm2d (training : Bool) : ℕ → ℕ → Fwd K := fun _ _ => (BatchNorm.new defaultEps).call2 training

/-- Arguments of the encoder, variational_autoencoder.py:47-57 and the section `encoder` of the configuration. -/
def vaeEncoderArgs (training : Bool) (n segments : ℕ) (periodicity : Option K) : ConvNetArgs K where
  layerType := .one "continuous2d"
  n := .one n
  channels := [3, 32, 64, 128]
  segments := .one segments
  kernelSize := [3, 3, 3]
  rescaleOutput := false
  periodicity := periodicity
  normalization := some (newBatchNorm2d training)
  pooling := "2d"
  stride := some (.one 2)
  padding := 1
  focus := none

/-- Arguments of the decoder, variational_autoencoder.py:58-68 and the section `decoder`. -/
def vaeDecoderArgs (training : Bool) (n segments : ℕ) (periodicity : Option K) : ConvNetArgs K where
  layerType := .one "continuous2d"
  n := .one n
  channels := [128, 64, 32, 16, 3]
  segments := .one segments
  kernelSize := [3, 3, 3, 4]
  rescaleOutput := false
  periodicity := periodicity
  normalization := some (newBatchNorm2d training)
  pooling := "2d"
  stride := some (.one 2)
  padding := 0
  focus := none

/-- `Net.__init__`, variational_autoencoder.py:47-75; `latent_dim` is 128. -/
def vaeNet (enc : FCN K) (dec : Deconv K) (mu var dw : VAE.LinearDraw K) : Py (VAE K) := do
  let outSize ← enc.outputSize
  .ok (VAE.init 128 enc.forward outSize dec.forward dec.inChannels mu var dw)

/-- `M_N: 0.0000256`. -/
def vaeKldWeight : K := ((256 : ℕ) : K) / ((10000000 : ℕ) : K)

/-- `eval_step`, variational_autoencoder.py:129-149: the returned dictionary, with the noise `eps` of the forward pass. -/
def vaeEvalStep (V : VAE K) (x eps : Tensor K) : Py (VAE.Loss K) := do
  let r ← V.forward x eps
  VAE.lossFunction r.1 r.2.1 r.2.2.1 r.2.2.2 (some vaeKldWeight)

/-- `transforms.Normalize((0.5, …), (0.5, …))` on a pixel of `ToTensor` (between 0 and 1), variational_autoencoder.py:21-23. -/
def vaeNormalize (p : K) : K := (p - 1 / ((2 : ℕ) : K)) / (1 / ((2 : ℕ) : K))

/-- "UNDO DATA NORMALIZATION", variational_autoencoder.py:207-214: `v * std + mean` with the constants of channel `c`. -/
def vaeShown (c : Fin 3) (v : K) : K :=
  let mean : Fin 3 → ℕ := ![1293, 1241, 1124]
  let std : Fin 3 → ℕ := ![682, 654, 704]
  v * ((((std c : ℕ) : K) / ((10 : ℕ) : K)) / ((255 : ℕ) : K)) + (((mean c : ℕ) : K) / ((10 : ℕ) : K)) / ((255 : ℕ) : K)

end HOL
