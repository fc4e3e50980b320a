import Verif.Model.ConvNet
import Verif.Model.Autoencoder

/-!
# Model: configured networks and optimizers

modules.py:41-191: `select_network`, `PredictionNetMixin.configure_optimizers` and the batch normalization of PyTorch they use. Configurations are trees as read by
OmegaConf, with interpolations resolved. Logging is left out.
-/

namespace HOL
open TorchScalar
variable {K : Type} [TorchScalar K]

/-! ## batch normalization -/

/-- The values of channel `c` of a `[b, C, l]` tensor, accessed by `get`. -/
def channelValues (get : ℕ → ℕ → ℕ → K) (b l c : ℕ) : List K :=
  (List.range b).flatMap fun s => (List.range l).map fun i => get s c i

/-- Mean of a list. -/
def meanL (v : List K) : K := sumL v / ((v.length : ℕ) : K)

/-- Biased variance of a list. -/
def varL (v : List K) : K := meanL (v.map fun a => (a - meanL v) * (a - meanL v))

/-- State of a `BatchNorm1d`: the parameters `weight`, `bias` and the buffers `running_mean`, `running_var`, per channel. -/
structure BatchNorm (K : Type) where
  eps : K
  weight : ℕ → K
  bias : ℕ → K
  runningMean : ℕ → K
  runningVar : ℕ → K

/-- A new `LazyBatchNorm1d(eps)`. The first positional parameter is `eps`, default `1e-5`. The number of channels is that of the first input; other numbers
later on are not modelled. -/
def BatchNorm.new (eps : K) : BatchNorm K :=
  { eps := eps, weight := fun _ => 1, bias := fun _ => 0, runningMean := fun _ => 0, runningVar := fun _ => 1 }

def defaultEps : K := 1 / ((100000 : ℕ) : K)

/-- Normalized entry. -/
def BatchNorm.entry (N : BatchNorm K) (c : ℕ) (mean var v : K) : K :=
  (v - mean) / sqrt (var + N.eps) * N.weight c + N.bias c

/-- `BatchNorm1d.forward` in training mode: statistics of the batch; inputs need two or three axes and more than one value per channel. (The update of the
running statistics is not modelled.) -/
def BatchNorm.train (N : BatchNorm K) (x : Tensor K) : Py (Tensor K) :=
  match x.shape with
  | [b, c] =>
    if b = 1 then .error .valueError
    else .ok (Tensor.tab2 b c fun s r =>
      let v := channelValues (fun s c _ => x.get [s, c]) b 1 r
      N.entry r (meanL v) (varL v) (x.get [s, r]))
  | [b, c, l] =>
    if b * l = 1 then .error .valueError
    else .ok (Tensor.tab3 b c l fun s r i =>
      let v := channelValues (fun s c i => x.get [s, c, i]) b l r
      N.entry r (meanL v) (varL v) (x.get [s, r, i]))
  | _ => .error .valueError

/-- `BatchNorm1d.forward` in evaluation mode. -/
def BatchNorm.eval (N : BatchNorm K) (x : Tensor K) : Py (Tensor K) :=
  match x.shape with
  | [b, c] => .ok (Tensor.tab2 b c fun s r => N.entry r (N.runningMean r) (N.runningVar r) (x.get [s, r]))
  | [b, c, l] => .ok (Tensor.tab3 b c l fun s r i => N.entry r (N.runningMean r) (N.runningVar r) (x.get [s, r, i]))
  | _ => .error .valueError

/-! ## configurations -/

/-- Values of a configuration. -/
inductive Cfg (K : Type) where
  | null
  | bool (b : Bool)
  | int (z : ℤ)
  | num (v : K)
  | str (s : String)
  | list (l : List (Cfg K))
  | dict (entries : List (String × Cfg K))

namespace Cfg

/-- `cfg.key`: a missing key, and a value that is not a dictionary, raise `AttributeError`. -/
def attr (c : Cfg K) (key : String) : Py (Cfg K) :=
  match c with
  | .dict kvs => match kvs.lookup key with
    | some v => .ok v
    | none => .error .attributeError
  | _ => .error .attributeError

/-- `cfg.k1.k2...` -/
def path (c : Cfg K) : List String → Py (Cfg K)
  | [] => .ok c
  | k :: ks => do
    let d ← c.attr k
    d.path ks

/-! Values as arguments. A value of another kind raises `TypeError` (where and how Python would fail is not modelled). -/

def toNat : Cfg K → Py ℕ
  | .int z => if 0 ≤ z then .ok z.toNat else .error .typeError
  | _ => .error .typeError

def toStr : Cfg K → Py String
  | .str s => .ok s
  | _ => .error .typeError

def toNats (l : List (Cfg K)) : Py (List ℕ) := l.mapM toNat

def toNatList : Cfg K → Py (List ℕ)
  | .list l => toNats l
  | _ => .error .typeError

def toIntOrList : Cfg K → Py IntOrList
  | .int z => if 0 ≤ z then .ok (.int z.toNat) else .error .typeError
  | .list l => do
    let l ← toNats l
    .ok (.list l)
  | _ => .error .typeError

def toOption {α : Type} (f : Cfg K → Py α) : Cfg K → Py (Option α)
  | .null => .ok none
  | c => do
    let a ← f c
    .ok (some a)

def toScalar : Cfg K → Py K
  | .num v => .ok v
  | .int z => .ok (z : K)
  | _ => .error .typeError

def toNatOrNats : Cfg K → Py (OneOrMany ℕ)
  | .int z => if 0 ≤ z then .ok (.one z.toNat) else .error .typeError
  | .list l => do
    let l ← toNats l
    .ok (.many l)
  | _ => .error .typeError

def toStrOrStrs : Cfg K → Py (OneOrMany String)
  | .str s => .ok (.one s)
  | .list l => do
    let l ← l.mapM toStr
    .ok (.many l)
  | _ => .error .typeError

end Cfg

/-! ## select_network -/

/-- The convolutional part of a selected network. -/
inductive ConvBody (K : Type) where
  | fcn (N : FCN K)
  | tail (N : TailFocus K)

def ConvBody.forward : ConvBody K → Fwd K
  | .fcn N => N.forward
  | .tail N => N.forward

/-- `Sequential(body, LazyLinear(out_features))`. The linear layer has weights `weight o i`, `bias o`; `inFeatures` is `None` until the first call decides it. -/
structure ConvModel (K : Type) where
  body : ConvBody K
  outFeatures : ℕ
  weight : ℕ → ℕ → K
  bias : ℕ → K
  inFeatures : Option ℕ

/-- A call: the output and the network afterwards. -/
def ConvModel.forward (M : ConvModel K) (x : Tensor K) : Py (Tensor K × ConvModel K) := do
  let y ← M.body.forward x
  match y.shape with
  | [_, i] => do
    let M := { M with inFeatures := some (M.inFeatures.getD i) }
    let I := M.inFeatures.getD i
    let z ← linearForward (Tensor.tab2 M.outFeatures I M.weight) (Tensor.tab1 M.outFeatures M.bias) y
    .ok (z, M)
  | _ => .error .runtimeError

/-- What `select_network` returns: a module in the heap, or a convolutional network. -/
inductive Selected (K : Type) where
  | module (net : ℕ) (h : Heap K)
  | conv (M : ConvModel K)

/-- What the constructors draw or create: fully connected weights, convolution weights, the weights of the last linear layer; `bn eps` is what a
`LazyBatchNorm1d(eps)` computes, `bnAt i eps` that of layer `i`. -/
structure World (K : Type) where
  rng : Rng K
  conv : ℕ → ConvRng K
  weight : ℕ → ℕ → K
  bias : ℕ → K
  bn : K → Fwd K
  bnAt : ℕ → K → Fwd K

/-- `normalization`, modules.py:97-99, used by the fully connected cases only; called as `normalization()`. -/
def selectNormalization (W : World K) (cfg : Cfg K) : Py (Option (Fwd K)) := do
  let v ← cfg.path ["net", "normalize"]
  match v with
  | .bool true => .ok (some (W.bn defaultEps))
  | _ => .ok none

/-- `model_type == "high_order_input"`, modules.py:101-129. `hidden.layers - 1 = -1` gives an empty loop in `LowOrderMLP`, as `0` does. -/
def selectHighOrderInput (W : World K) (cfg : Cfg K) (normalization : Option (Fwd K)) (h : Heap K) : Py (ℕ × Heap K) := do
  let layerType ← cfg.path ["net", "layer_type"]
  let n ← cfg.path ["net", "n"]
  let inWidth ← cfg.path ["net", "input", "width"]
  let hiddenWidth ← cfg.path ["net", "hidden", "width"]
  let segments ← cfg.path ["net", "input", "segments"]
  let layerType ← layerType.toStr
  let n ← n.toIntOrList
  let inWidth ← inWidth.toNat
  let hiddenWidth ← hiddenWidth.toNat
  let segments ← segments.toOption Cfg.toIntOrList
  let inp ← fcLayer W.rng layerType
    { n := n, inFeatures := inWidth, outFeatures := hiddenWidth, segments := segments, periodicity := none, numInputLayers := 2
      scale := ((2 : ℕ) : K), rescaleOutput := false, initialization := "constant_random" } h
  let s : List ℕ × Heap K := match normalization with
    | some f => ([inp.1, inp.2.length], inp.2 ++ [.other f])
    | none => ([inp.1], inp.2)
  let outWidth ← cfg.path ["output", "width"]
  let layers ← cfg.path ["net", "hidden", "layers"]
  let outWidth ← outWidth.toNat
  let layers ← layers.toNat
  let relu := s.2.length
  let low := lowMlpInit W.rng hiddenWidth outWidth (layers - 1) hiddenWidth (some relu) normalization
    (s.2 ++ [.other fun x => .ok (reluT x)])
  .ok (low.2.length, low.2 ++ [.seq (s.1 ++ [low.1])])

/-- `model_type == "high_order"`, modules.py:131-149. The other parameters of `HighOrderMLP` have their defaults. -/
def selectHighOrder (W : World K) (cfg : Cfg K) (normalization : Option (Fwd K)) (h : Heap K) : Py (ℕ × Heap K) := do
  let layerType ← cfg.path ["net", "layer_type"]
  let n ← cfg.path ["net", "n"]
  let nIn ← cfg.path ["net", "n_in"]
  let nHidden ← cfg.path ["net", "n_in"]
  let nOut ← cfg.path ["net", "n_out"]
  let inWidth ← cfg.path ["net", "input", "width"]
  let inSegments ← cfg.path ["net", "input", "segments"]
  let outWidth ← cfg.path ["net", "output", "width"]
  let outSegments ← cfg.path ["net", "output", "segments"]
  let hiddenWidth ← cfg.path ["net", "hidden", "width"]
  let hiddenLayers ← cfg.path ["net", "hidden", "layers"]
  let hiddenSegments ← cfg.path ["net", "hidden", "segments"]
  let layerType ← layerType.toStr
  let n ← n.toIntOrList
  let nIn ← nIn.toOption Cfg.toIntOrList
  let nHidden ← nHidden.toOption Cfg.toIntOrList
  let nOut ← nOut.toOption Cfg.toIntOrList
  let inWidth ← inWidth.toNat
  let inSegments ← inSegments.toOption Cfg.toIntOrList
  let outWidth ← outWidth.toNat
  let outSegments ← outSegments.toOption Cfg.toIntOrList
  let hiddenWidth ← hiddenWidth.toNat
  let hiddenLayers ← hiddenLayers.toNat
  let hiddenSegments ← hiddenSegments.toOption Cfg.toIntOrList
  mlpInit W.rng
    { layerType := layerType, layerTypeIn := none, n := n, nIn := nIn, nOut := nOut, nHidden := nHidden, inWidth := inWidth, outWidth := outWidth
      hiddenLayers := hiddenLayers, hiddenWidth := hiddenWidth, inSegments := inSegments, outSegments := outSegments
      hiddenSegments := hiddenSegments, periodicity := none, normalization := normalization, nonLinearity := none, resnet := false, dropout := 0
      dropoutFn := fun x => .ok x, scale := ((2 : ℕ) : K), rescaleOutput := false, initialization := "constant_random" } h

/-- The arguments read by both convolutional cases, modules.py:151-162, 167-178: `LazyBatchNorm1d` whatever `normalize` says, called with the number of
channels, which is its parameter `eps`; `pooling=None` (here the empty string, which also means no pooling). All attributes are read before the values are used. -/
def selectConvArgs (W : World K) (cfg : Cfg K) (focus : Cfg K) : Py (ConvNetArgs K) := do
  let layerType ← cfg.path ["net", "layer_type"]
  let n ← cfg.path ["net", "n"]
  let channels ← cfg.path ["net", "channels"]
  let segments ← cfg.path ["net", "segments"]
  let kernelSize ← cfg.path ["net", "kernel_size"]
  let periodicity ← cfg.path ["net", "periodicity"]
  let stride ← cfg.path ["net", "stride"]
  let layerType ← layerType.toStrOrStrs
  let n ← n.toNatOrNats
  let channels ← channels.toNatList
  let segments ← segments.toNatOrNats
  let kernelSize ← kernelSize.toNatList
  let periodicity ← periodicity.toOption Cfg.toScalar
  let stride ← stride.toOption Cfg.toNatOrNats
  let focus ← focus.toOption Cfg.toNatOrNats
  .ok { layerType := layerType, n := n, channels := channels, segments := segments, kernelSize := kernelSize, rescaleOutput := false
        periodicity := periodicity, normalization := some fun i c => W.bnAt i ((c : ℕ) : K), pooling := "", stride := stride, padding := 0, focus := focus }

/-- The last linear layer, modules.py:164-165, 180-181. -/
def selectHead (W : World K) (cfg : Cfg K) (body : ConvBody K) : Py (ConvModel K) := do
  let out ← cfg.path ["net", "out_features"]
  let out ← out.toNat
  .ok { body := body, outFeatures := out, weight := W.weight, bias := W.bias, inFeatures := none }

/-- `model_type == "high_order_conv"`, modules.py:150-165. -/
def selectConv (W : World K) (cfg : Cfg K) : Py (ConvModel K) := do
  let a ← selectConvArgs W cfg .null
  let N ← FCN.init a W.conv
  selectHead W cfg (.fcn N)

/-- `model_type == "high_order_tail_focus"`, modules.py:166-184: at the end `compute_sizes(cfg.net.features)` for the log. -/
def selectTailFocus (W : World K) (cfg : Cfg K) : Py (ConvModel K) := do
  let focus ← cfg.path ["net", "focus"]
  let a ← selectConvArgs W cfg focus
  let N ← TailFocus.init a W.conv
  let M ← selectHead W cfg (.tail N)
  let features ← cfg.path ["net", "features"]
  let features ← features.toNat
  let _ ← N.computeSizes features
  .ok M

/-- A module of the heap as result. -/
def asModule (r : Py (ℕ × Heap K)) : Py (Selected K) := do
  let r ← r
  .ok (.module r.1 r.2)

def asConv (r : Py (ConvModel K)) : Py (Selected K) := do
  let r ← r
  .ok (.conv r)

/-- The message of the last `raise` reads `cfg.model_type`, not `cfg.net.model_type`, modules.py:186-189. -/
def unknownModelType (cfg : Cfg K) : Py (Selected K) := do
  let _ ← cfg.attr "model_type"
  .error .valueError

/-- `select_network(cfg)`, modules.py:96-191. -/
def selectNetwork (W : World K) (cfg : Cfg K) (h : Heap K) : Py (Selected K) := do
  let normalization ← selectNormalization W cfg
  let t ← cfg.path ["net", "model_type"]
  match t with
  | .str "high_order_input" => asModule (selectHighOrderInput W cfg normalization h)
  | .str "high_order" => asModule (selectHighOrder W cfg normalization h)
  | .str "high_order_conv" => asConv (selectConv W cfg)
  | .str "high_order_tail_focus" => asConv (selectTailFocus W cfg)
  | _ => unknownModelType cfg

/-! ## configure_optimizers -/

inductive OptimizerKind where
  | adam | lion
  deriving DecidableEq

/-- An optimizer: what it updates and its learning rate; the other settings are defaults. -/
structure Optimizer (K : Type) where
  kind : OptimizerKind
  params : List ℕ
  lr : K

inductive Scheduler (K : Type) where
  | plateau (patience : ℕ) (factor : K)
  | exponential (gamma : K)

/-- What `configure_optimizers` returns: an optimizer, or `[optimizer], [{"scheduler", "reduce_on_plateau", "monitor"}]`. -/
inductive OptimizerSetup (K : Type) where
  | plain (o : Optimizer K)
  | scheduled (o : Optimizer K) (s : Scheduler K) (reduceOnPlateau : Bool) (monitor : String)

/-- `optim.Adam(params, lr)`: an empty list of parameters and a negative learning rate are `ValueError`s. -/
def adamInit (params : List ℕ) (lr : K) : Py (Optimizer K) :=
  if ltB lr 0 then .error .valueError
  else if params = [] then .error .valueError
  else .ok ⟨.adam, params, lr⟩

/-- `Lion(params, lr)` of lion_pytorch: `assert lr > 0.` comes first. -/
def lionInit (params : List ℕ) (lr : K) : Py (Optimizer K) :=
  if ltB 0 lr then if params = [] then .error .valueError else .ok ⟨.lion, params, lr⟩
  else .error .assertionError

/-- `optim.lr_scheduler.ReduceLROnPlateau(optimizer, patience, factor, verbose=True)`: a factor of at least 1 is a `ValueError`. (Releases of PyTorch without the parameter
`verbose` are not modelled.) -/
def plateauInit (patience : ℕ) (factor : K) : Py (Scheduler K) :=
  if ltB factor 1 then .ok (.plateau patience factor) else .error .valueError

/-- The optimizer, modules.py:56-68. -/
def chooseOptimizer (params : List ℕ) (cfg : Cfg K) : Py (Optimizer K) := do
  let name ← cfg.path ["optimizer", "name"]
  match name with
  | .str "adam" => do
    let lr ← cfg.path ["optimizer", "lr"]
    let lr ← lr.toScalar
    adamInit params lr
  | .str "lion" => do
    let lr ← cfg.path ["optimizer", "lr"]
    let lr ← lr.toScalar
    lionInit params lr
  | _ => .error .valueError

/-- `PredictionNetMixin.configure_optimizers`, modules.py:54-92. -/
def configureOptimizers (params : List ℕ) (cfg : Cfg K) : Py (OptimizerSetup K) := do
  let o ← chooseOptimizer params cfg
  let s ← cfg.path ["optimizer", "scheduler"]
  match s with
  | .str "plateau" => do
    let patience ← cfg.path ["optimizer", "patience"]
    let factor ← cfg.path ["optimizer", "factor"]
    let patience ← patience.toNat
    let factor ← factor.toScalar
    let s ← plateauInit patience factor
    .ok (.scheduled o s true "train_loss")
  | .str "exponential" => do
    let gamma ← cfg.path ["optimizer", "gamma"]
    let gamma ← gamma.toScalar
    .ok (.scheduled o (.exponential gamma) false "train_loss")
  | _ => .ok (.plain o)

/-! ## names of the logged values -/

/-- What `ClassificationMixin.eval_step` logs, modules.py:26-27. -/
def classificationLogs (name : String) : List String := [name ++ "_loss", name ++ "_acc"]

/-- What `RegressionMixin.eval_step` logs, modules.py:37. -/
def regressionLogs (name : String) : List String := [name ++ "_loss"]

/-- The names passed by `training_step`, `validation_step`, `test_step`, modules.py:45-52. -/
def trainingName : String := "train"
def validationName : String := "val"
def testName : String := "test"

end HOL
