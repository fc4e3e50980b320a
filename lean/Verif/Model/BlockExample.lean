import Verif.Model.Network
import Verif.Model.NormLayers

/-! # examples/block_mnist.py

A network that sees an image as a set of pixels with colour and position. Left out: training loop, optimizers, data sets. -/

namespace HOL
open TorchScalar
variable {K : Type} [TorchScalar K]

/-- `(torch.arange(28) - 13.5) / 13.5`, examples/block_mnist.py:31-33. -/
def blockGrid (i : ℕ) : K := ((i : K) - ((27 : ℕ) : K) / ((2 : ℕ) : K)) / (((27 : ℕ) : K) / ((2 : ℕ) : K))

/-- One element of the loop of `collate_fn`, examples/block_mnist.py:42: `torch.cat([element[0], grid]).permute(1, 2, 0).view(-1, 3)` for images of one channel; `cat` rejects
other heights and widths. Images with more channels are not modelled. -/
def collateImage (img : Tensor K) : Py (Tensor K) :=
  match img.shape with
  | [1, 28, 28] => .ok (Tensor.tab2 (28 * 28) 3 fun p d =>
      if d = 0 then img.get [0, p / 28, p % 28] else if d = 1 then blockGrid (p / 28) else blockGrid (p % 28))
  | _ => .error .runtimeError

/-- `collate_fn` (inputs only), examples/block_mnist.py:37-51: `torch.stack` rejects an empty batch. -/
def collate (batch : List (Tensor K)) : Py (Tensor K) := do
  let rows ← batch.mapM collateImage
  if rows = [] then .error .runtimeError
  else .ok (Tensor.tab3 rows.length (28 * 28) 3 fun b p d => (rows.getD b ⟨[], []⟩).get [p, d])

/-- Attributes of `Net`, examples/block_mnist.py:54-86: the layer is module `layer` of `heap`. -/
structure BlockNet (K : Type) where
  heap : Heap K
  layer : ℕ
  normalize : Fwd K

/-- The table `normalization`, examples/block_mnist.py:26-29. -/
def blockNormalization (key : String) : Py (Fwd K) :=
  if key = "max_abs" then .ok fun x => maxAbsNormalization x moduleEps 1
  else if key = "max_center" then .ok fun x => maxCenterNormalization x moduleEps 1
  else .error .keyError

/-- Arguments of the layer, examples/block_mnist.py:74-82. -/
def blockArgs (n segments : ℕ) : FcArgs K :=
  { n := .list [3, n, n], inFeatures := 1, outFeatures := 10, segments := some (.int segments), periodicity := none, numInputLayers := 2, scale := ((2 : ℕ) : K)
    rescaleOutput := false, initialization := "constant_random" }

/-- `Net.__init__`, examples/block_mnist.py:55-86. -/
def BlockNet.init (rng : Rng K) (n segments : ℕ) (layerType normalization : String) : Py (BlockNet K) := do
  let l ← fcLayer rng layerType (blockArgs n segments) []
  let norm ← blockNormalization normalization
  .ok { heap := l.2, layer := l.1, normalize := norm }

/-- `forward`, examples/block_mnist.py:88-98. `view(-1, 1, 3)` and `reshape(batch_size, inputs, -1)` raise if the entries do not fit, the latter also if there are no rows. -/
def BlockNet.forward (N : BlockNet K) (x : Tensor K) : Py (Tensor K) :=
  match x.shape with
  | b :: p :: _ =>
    if numel x.shape % 3 ≠ 0 then .error .runtimeError
    else do
      let xin := x.reshape [numel x.shape / 3, 1, 3]
      let res ← N.heap.forward N.layer xin
      let res ← N.normalize res
      if b * p = 0 ∨ numel res.shape % (b * p) ≠ 0 then .error .runtimeError
      else
        let m := numel res.shape / (b * p)
        let res := res.reshape [b, p, m]
        .ok (Tensor.tab2 b m fun s o => sumL ((List.range p).map fun q => res.get [s, q, o]))
  | _ => .error .valueError

end HOL
