import Verif.Model.ConvNet
import Verif.Model.NormLayers

/-! # The image classifiers of the example programs

`examples/mnist.py` and `examples/cifar10.py`: the networks and their forward passes. Left out: data sets, training loop, logging. Images have a batch axis and
random initial weights are arbitrary functions of their positions. -/

namespace HOL
open TorchScalar
variable {K : Type} [TorchScalar K]

/-- `nn.AvgPool2d(2, 2)` and `nn.MaxPool2d(2, 2)`: `f` of every 2 × 2 window; a last odd row or column is dropped, and a result without pixels raises. Inputs without batch axis are
not modelled. -/
def pool22 (f : List K → K) (x : Tensor K) : Py (Tensor K) :=
  match x.shape with
  | [b, c, h, w] =>
    if h / 2 = 0 ∨ w / 2 = 0 then .error .runtimeError
    else .ok (Tensor.tab4 b c (h / 2) (w / 2) fun s q i j =>
      f [x.get [s, q, 2 * i, 2 * j], x.get [s, q, 2 * i, 2 * j + 1], x.get [s, q, 2 * i + 1, 2 * j], x.get [s, q, 2 * i + 1, 2 * j + 1]])
  | _ => .error .runtimeError

/-- The mean of a window. -/
def windowMean (l : List K) : K := sumL l / ((4 : ℕ) : K)

/-- `torch.nn.Conv2d(in_channels, out_channels, kernel_size)`, which has a bias: `nn.Conv2d.forward`. -/
def conv2dBias (g : Geometry) (w b x : Tensor K) : Py (Tensor K) := do
  let y ← conv2d g w x
  match y.shape with
  | [n, o, h, v] => .ok (Tensor.tab4 n o h v fun s r i j => y.get [s, r, i, j] + b.get [r])
  | _ => .error .runtimeError

/-- `self.conv1`, `self.conv2`, ...: a high order convolution or `torch.nn.Conv2d`. -/
inductive ExampleConv (K : Type) where
  | high (L : ConvLayer K)
  | plain (g : Geometry) (w b : Tensor K)

def ExampleConv.call : ExampleConv K → Fwd K
  | .high L, x => L.forward x
  | .plain g w b, x => conv2dBias g w b x

/-- Kernel size `k`, everything else by default. -/
def kernelOnly (k : ℕ) : Geometry := ⟨k, 1, 0, 1, 0⟩

/-- `torch.nn.Conv2d(in_channels, out_channels, kernel_size)` -/
def ExampleConv.new (inC outC k : ℕ) (rand : ConvRng K) : ExampleConv K :=
  .plain (kernelOnly k) (Tensor.tab4 outC inC k k rand) (Tensor.tab1 outC fun o => rand o inC 0 0)

/-- The arguments the examples pass to high order convolutions; the others keep their defaults (`length=2.0`, `rescale_output=False`, `periodicity=None`, `weight_magnitude=1.0`). -/
def exampleConvArgs (n segments inC outC k : ℕ) : ConvArgs K :=
  { n := n, segments := segments, inChannels := inC, outChannels := outC, length := ((2 : ℕ) : K), rescaleOutput := false, periodicity := none
    weightMagnitude := 1, geometry := kernelOnly k }

/-! ## examples/mnist.py -/

/-- The entries of the configuration that the network reads (config/mnist_config.yaml). `double` is a boolean. -/
structure MnistCfg where
  n : ℕ
  layerType : String
  segments : ℕ
  channels : List ℕ
  kernelSize : ℕ
  normalization : String
  double : Bool
  outputLayerType : String

/-- Attributes of `Net`, examples/mnist.py:30-127. `conv15` and `conv25` do not always exist. -/
structure MnistNet (K : Type) where
  standard : Bool
  double : Bool
  conv1 : ExampleConv K
  conv15 : Option (ExampleConv K)
  conv2 : ExampleConv K
  conv25 : Option (ExampleConv K)
  normalize : Fwd K
  /-- `self.fc1`, a module of `heap` -/
  fc1 : ℕ
  heap : Heap K

/-- The table `normalization`, examples/mnist.py:24-27, and the call `normalization[cfg.normalization]()` (`eps` is `1e-6`). -/
def mnistNormalization (key : String) : Py (Fwd K) :=
  if key = "max_abs" then .ok fun x => maxAbsNormalizationND x moduleEps
  else if key = "max_center" then .ok fun x => maxCenterNormalizationND x moduleEps
  else .error .keyError

/-- `s[:-2]` -/
def dropLastTwo (s : String) : String := String.ofList s.toList.dropLast.dropLast

/-- `last_layer_size`, examples/mnist.py:99-106. -/
def lastLayerSize (double : Bool) (kernelSize outChannels : ℕ) : ℕ :=
  if double then (if kernelSize = 3 then 4 * 4 * outChannels else 2 * 2 * outChannels)
  else if kernelSize = 3 then 5 * 5 * outChannels else 4 * 4 * outChannels

/-- Arguments of the output layer, examples/mnist.py:118-126. The size of the length is the default 2. -/
def mnistOutputArgs (c : MnistCfg) (lastLayer : ℕ) : FcArgs K :=
  { n := .int c.n, inFeatures := lastLayer, outFeatures := 10, segments := some (.int c.segments), periodicity := none, numInputLayers := 2, scale := ((2 : ℕ) : K)
    rescaleOutput := false, initialization := "constant_random" }

/-- `self.fc1`, examples/mnist.py:108-126: `nn.Linear`, or the layer type of the configuration, or for `auto` the convolution type without its last two characters. -/
def mnistOutput (rng : Rng K) (c : MnistCfg) (lastLayer : ℕ) : Py (ℕ × Heap K) :=
  if c.outputLayerType = "linear" then do
    let ms ← leafMods rng .linear (mnistOutputArgs c lastLayer) 0
    .ok (0, ms)
  else fcLayer rng (if c.outputLayerType ≠ "auto" then c.outputLayerType else dropLastTwo c.layerType) (mnistOutputArgs c lastLayer) []

/-- `high_order_convolution_layers(...)` as called in examples/mnist.py:63-92. -/
def mnistConv (c : MnistCfg) (inC outC : ℕ) (rand : ConvRng K) : Py (ExampleConv K) := do
  let L ← convLayer c.layerType (exampleConvArgs c.n c.segments inC outC c.kernelSize) rand
  .ok (.high L)

/-- `if self._cfg.double is True: self.conv15 = ...`, examples/mnist.py:71-79, 84-92. -/
def mnistDouble (c : MnistCfg) (ch : ℕ) (rand : ConvRng K) : Py (Option (ExampleConv K)) :=
  if c.double then do
    let v ← mnistConv c ch ch rand
    .ok (some v)
  else .ok none

/-- `Net.__init__`, examples/mnist.py:31-127, with the draws `rand i` of convolution `i`. -/
def MnistNet.init (c : MnistCfg) (rand : ℕ → ConvRng K) (rng : Rng K) : Py (MnistNet K) := do
  let inC ← pyIndex c.channels 0
  let outC ← pyIndex c.channels 1
  let convs : ExampleConv K × Option (ExampleConv K) × ExampleConv K × Option (ExampleConv K) ←
    if c.layerType = "standard" then
      .ok (ExampleConv.new 1 inC 5 (rand 0), none, ExampleConv.new inC outC 5 (rand 2), none)
    else do
      let c1 ← mnistConv c 1 inC (rand 0)
      let c15 ← mnistDouble c inC (rand 1)
      let c2 ← mnistConv c inC outC (rand 2)
      let c25 ← mnistDouble c outC (rand 3)
      .ok (c1, c15, c2, c25)
  let normalize ← mnistNormalization c.normalization
  let fc ← mnistOutput rng c (lastLayerSize c.double c.kernelSize outC)
  .ok { standard := c.layerType = "standard", double := c.double, conv1 := convs.1, conv15 := convs.2.1, conv2 := convs.2.2.1, conv25 := convs.2.2.2
        normalize := normalize, fc1 := fc.1, heap := fc.2 }

/-- A module attribute that may not exist. -/
def callAttr (m : Option (ExampleConv K)) (x : Tensor K) : Py (Tensor K) :=
  match m with
  | some c => c.call x
  | none => .error .attributeError

/-- `forward`, examples/mnist.py:129-159. -/
def MnistNet.forward (N : MnistNet K) (x : Tensor K) : Py (Tensor K) :=
  if N.double = false then
    if N.standard then do
      let x ← N.conv1.call x
      let x ← pool22 windowMean (reluT x)
      let x ← N.conv2.call x
      let x ← pool22 windowMean (reluT x)
      let x ← flattenRows x
      N.heap.forward N.fc1 x
    else do
      let x ← N.conv1.call x
      let x ← pool22 windowMean x
      let x ← N.normalize x
      let x ← N.conv2.call x
      let x ← pool22 windowMean x
      let x ← N.normalize x
      let x ← flattenRows x
      N.heap.forward N.fc1 x
  else do
    let x ← N.conv1.call x
    let x ← N.normalize x
    let x ← callAttr N.conv15 x
    let x ← pool22 windowMean x
    let x ← N.normalize x
    let x ← N.conv2.call x
    let x ← N.normalize x
    let x ← callAttr N.conv25 x
    let x ← pool22 windowMean x
    let x ← N.normalize x
    let x ← flattenRows x
    N.heap.forward N.fc1 x

/-! ## examples/cifar10.py -/

/-- Attributes of `Net`, examples/cifar10.py:56-91. With an unknown `layer_type` the convolutions do not exist. -/
structure CifarNet (K : Type) where
  standard : Bool
  conv1 : Option (ExampleConv K)
  conv2 : Option (ExampleConv K)
  weight : Tensor K
  bias : Tensor K

/-- The convolution classes, examples/cifar10.py:64-81. -/
def cifarClass (layerType : String) : Option ConvClass :=
  if layerType = "continuous" then some (.polynomial .two)
  else if layerType = "piecewise" then some (.piecewise true .two)
  else if layerType = "discontinuous" then some (.piecewise false .two)
  else none

/-- `Net.__init__`, examples/cifar10.py:57-91. `fc` holds the draws of the linear layer. -/
def CifarNet.init (n segments : ℕ) (layerType : String) (rand : ℕ → ConvRng K) (fc : ℕ → ℕ → K) : Py (CifarNet K) := do
  let hidden := 6 * ((n - 1) * segments + 1)
  let convs : Option (ExampleConv K) × Option (ExampleConv K) ←
    match cifarClass layerType with
    | some cls => do
      let c1 ← convInit cls (exampleConvArgs n segments 3 6 5) (rand 0)
      let c2 ← convInit cls (exampleConvArgs n segments 6 16 5) (rand 1)
      .ok (some (.high c1), some (.high c2))
    | none =>
      if layerType = "standard" then .ok (some (ExampleConv.new 3 hidden 5 (rand 0)), some (ExampleConv.new hidden 16 5 (rand 1)))
      else .ok (none, none)
  .ok { standard := layerType = "standard", conv1 := convs.1, conv2 := convs.2
        weight := Tensor.tab2 10 (16 * 5 * 5) fc, bias := Tensor.tab1 10 fun o => fc o (16 * 5 * 5) }

/-- `x.reshape(-1, a)` -/
def reshapeRows (a : ℕ) (x : Tensor K) : Py (Tensor K) :=
  if a = 0 ∨ numel x.shape % a ≠ 0 then .error .runtimeError else .ok (x.reshape [numel x.shape / a, a])

/-- `forward`, examples/cifar10.py:93-104. -/
def CifarNet.forward (N : CifarNet K) (x : Tensor K) : Py (Tensor K) :=
  if N.standard then do
    let x ← callAttr N.conv1 x
    let x ← pool22 maxL (reluT x)
    let x ← callAttr N.conv2 x
    let x ← pool22 maxL (reluT x)
    let x ← reshapeRows (16 * 5 * 5) x
    linearForward N.weight N.bias x
  else do
    let x ← callAttr N.conv1 x
    let x ← pool22 maxL x
    let x ← callAttr N.conv2 x
    let x ← pool22 maxL x
    let x ← reshapeRows (16 * 5 * 5) x
    linearForward N.weight N.bias x

end HOL
