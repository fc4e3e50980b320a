import Verif.Model.Network

/-!
# The training schedule of examples/invariant_mnist.py

Model of `Net.__init__` (examples/invariant_mnist.py:24-59) and of `invariant_mnist` (173-216). What `trainer.fit` does to the weights is
left open (`fit`), `trainer.test` changes nothing. Simplifications: datasets, printing and the learning rate monitor are left out, and
`fit` returns (a trainer with `max_epochs=-1` would not).
-/

namespace HOL
open TorchScalar
variable {K : Type} [TorchScalar K]

/-- The entries of the configuration that `Net` and `invariant_mnist` read. `normalization` is what `normalization_layers` has under
`cfg.mlp.normalize` (none if that is `False`), `dropoutFn` what the dropout module does. -/
structure RefineCfg (K : Type) where
  layerType : String
  n : ℕ
  targetN : ℕ
  pRefine : Bool
  maxEpochs : ℤ
  inWidth : ℕ
  outWidth : ℕ
  hiddenLayers : ℕ
  hiddenWidth : ℕ
  inSegments : ℕ
  outSegments : ℕ
  hiddenSegments : ℕ
  periodicity : Option K
  normalization : Option (Fwd K)
  dropout : K
  dropoutFn : Fwd K

/-- The arguments of `HighOrderMLP` in `Net.__init__`, invariant_mnist.py:46-59, when `cfg.mlp.n` is `order`; the others have their
defaults (networks.py:161-185). -/
def RefineCfg.args (c : RefineCfg K) (order : ℕ) : MLPArgs K :=
  { layerType := c.layerType, layerTypeIn := none, n := .int order, nIn := none, nOut := none, nHidden := none
    inWidth := c.inWidth, outWidth := c.outWidth, hiddenLayers := c.hiddenLayers, hiddenWidth := c.hiddenWidth
    inSegments := some (.int c.inSegments), outSegments := some (.int c.outSegments), hiddenSegments := some (.int c.hiddenSegments)
    periodicity := c.periodicity, normalization := c.normalization, nonLinearity := none, resnet := false
    dropout := c.dropout, dropoutFn := c.dropoutFn, scale := ((2 : ℕ) : K), rescaleOutput := false
    initialization := "constant_random" }

/-- `Trainer(max_epochs=e)`: a number below -1 is rejected (`MisconfigurationException`). -/
def newTrainer (e : ℤ) : Py ℤ := if e < -1 then .error .exception else .ok e

/-- Python's `a // b` for integers. -/
def floorDiv (a b : ℤ) : Py ℤ := if b = 0 then .error .zeroDivisionError else .ok (a.fdiv b)

/-- One call of `trainer.fit(model)`: value of `cfg.mlp.n` (or `order`), network, number of epochs, all modules before and after. -/
structure FitRun (K : Type) where
  order : ℕ
  net : ℕ
  epochs : ℤ
  before : Heap K
  after : Heap K

/-- The calls of `fit` made, the network of the last `trainer.test(model)` and all modules at that time. -/
structure ScheduleOutcome (K : Type) where
  runs : List (FitRun K)
  net : ℕ
  heap : Heap K

/-- `for order in range(cfg.mlp.n, cfg.mlp.target_n)`, invariant_mnist.py:196-209, for the remaining values of `order`. `rng m` are the
random numbers `Net(cfg)` draws when `cfg.mlp.n` is `m`. -/
def refineLoop (c : RefineCfg K) (rng : ℕ → Rng K) (fit : ℕ → ℕ → ℤ → Heap K → Heap K) (diff : ℤ) :
    List ℕ → ℕ → Heap K → Py (ScheduleOutcome K)
  | [], net, h => .ok ⟨[], net, h⟩
  | order :: rest, net, h => do
    let e ← floorDiv c.maxEpochs diff
    let e ← newTrainer e
    let h1 := fit order net e h
    let next ← mlpInit (rng (order + 1)) (c.args (order + 1)) h1
    match interpolateNetwork net next.1 next.2 with
    | (.error e, _) => .error e
    | (.ok _, h2) => do
      let out ← refineLoop c rng fit diff rest next.1 h2
      .ok { out with runs := ⟨order, net, e, h, h1⟩ :: out.runs }

/-- `invariant_mnist(cfg)`, invariant_mnist.py:173-216. -/
def invariantMnist (c : RefineCfg K) (rng : ℕ → Rng K) (fit : ℕ → ℕ → ℤ → Heap K → Heap K) : Py (ScheduleOutcome K) :=
  if c.pRefine = false then do
    let e ← newTrainer c.maxEpochs
    let model ← mlpInit (rng c.n) (c.args c.n) []
    let h := fit c.n model.1 e model.2
    .ok ⟨[⟨c.n, model.1, e, model.2, h⟩], model.1, h⟩
  else do
    let diff : ℤ := c.targetN - c.n
    let model ← mlpInit (rng c.n) (c.args c.n) []
    let out ← refineLoop c rng fit diff (List.range' c.n (c.targetN - c.n)) model.1 model.2
    let e ← floorDiv c.maxEpochs diff
    let _ ← newTrainer e
    .ok out

end HOL
