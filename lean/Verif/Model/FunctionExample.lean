import Verif.Model.Network
import Verif.Model.Norm

/-! # Model of the function example, examples/function_example.py

Networks with one input and one output are trained on samples of one function. -/

namespace HOL
open TorchScalar
variable {K : Type} [TorchScalar K]

/-- `simple_func.__call__`, examples/function_example.py:24-30, for one entry: `factor = 1.5 * 3.14159`, `offset = 0.25`. -/
def simpleFunc (x : K) : K :=
  let factor : K := ((3 : ℕ) : K) / ((2 : ℕ) : K) * (((314159 : ℕ) : K) / ((100000 : ℕ) : K))
  let offset : K := 1 / ((4 : ℕ) : K)
  1 / ((2 : ℕ) : K) * cos (factor * 1 / (TorchScalar.abs x + offset))

/-- `xTest`, examples/function_example.py:33-36: `arange(1000) / 500 - 1` as a column. -/
def funcTest : Tensor K := Tensor.tab2 1000 1 fun k _ => (k : K) / ((500 : ℕ) : K) - 1

/-- `yTest`, examples/function_example.py:37-38. -/
def funcTestValues : Tensor K := (funcTest : Tensor K).map simpleFunc

/-- An object of class `PolynomialFunctionApproximation`, examples/function_example.py:61-107: the modules, `self.layer`, `self.optimizer`. -/
structure FuncNet (K : Type) where
  heap : Heap K
  layer : ℕ
  optimizer : String

/-- Arguments of `high_order_fc_layers`, examples/function_example.py:86-107. `length=2.0` and `alpha=1.0` are the defaults; the products get no
`n`, `segments` and `periodicity`, of which they use the last one only. -/
def funcArgs (n segments : ℕ) (periodicity : Option K) (inFeatures outFeatures : ℕ) : FcArgs K :=
  { n := .int n, inFeatures := inFeatures, outFeatures := outFeatures, segments := some (.int segments), periodicity := periodicity
    numInputLayers := 2, scale := 1, rescaleOutput := false, initialization := "constant_random" }

/-- `nn.Linear(in_features, out_features)` with random weights. -/
def linearMod (rng : Rng K) (base inFeatures outFeatures : ℕ) : Mod K :=
  .linear (Tensor.tab2 outFeatures inFeatures (rng base)) (Tensor.tab1 outFeatures fun o => rng base o inFeatures)

/-- `PolynomialFunctionApproximation.__init__`, examples/function_example.py:67-107, for `function` a string. -/
def funcInit (rng : Rng K) (n segments : ℕ) (function : String) (periodicity : Option K) (opt : String) : Py (FuncNet K) :=
  if function = "standard" then
    .ok { heap := [linearMod rng 0 1 n, .other fun x => .ok (reluT x), linearMod rng 2 n n, .other fun x => .ok (reluT x), linearMod rng 4 n 1,
                   .seq [0, 1, 2, 3, 4]]
          layer := 5, optimizer := opt }
  else if function = "product" then do
    let r1 ← fcLayer rng function (funcArgs n segments none 1 n) []
    let r2 ← fcLayer rng function (funcArgs n segments none n 1) r1.2
    .ok { heap := r2.2 ++ [.seq [r1.1, r2.1]], layer := r2.2.length, optimizer := opt }
  else do
    let r ← fcLayer rng function (funcArgs n segments periodicity 1 1) []
    .ok { heap := r.2, layer := r.1, optimizer := opt }

/-- `forward`, examples/function_example.py:109-110: `self.layer(x.view(x.size(0), -1))`. -/
def FuncNet.forward (N : FuncNet K) (x : Tensor K) : Py (Tensor K) := do
  let y ← flattenRows x
  N.heap.forward N.layer y

/-- The optimizers with their arguments. -/
inductive FuncOptimizer (K : Type) where
  | adam (lr : K) | lion (lr : K) | sophia (lr rho : K) | sparseLion (lr : K) | lbfgs (lr : K) (maxIter historySize : ℕ)

/-- `configure_optimizers`, examples/function_example.py:132-147. -/
def FuncNet.configureOptimizers (N : FuncNet K) : Py (FuncOptimizer K) :=
  if N.optimizer = "adam" then .ok (.adam (1 / ((1000 : ℕ) : K)))
  else if N.optimizer = "lion" then .ok (.lion (1 / ((1000 : ℕ) : K)))
  else if N.optimizer = "sophia" then .ok (.sophia (1 / ((100 : ℕ) : K)) (((35 : ℕ) : K) / ((1000 : ℕ) : K)))
  else if N.optimizer = "sparse_lion" then .ok (.sparseLion (1 / ((1000 : ℕ) : K)))
  else if N.optimizer = "lbfgs" then .ok (.lbfgs 1 20 100)
  else .error .valueError

/-- Whether `training_step` keeps the graph of the gradient, examples/function_example.py:120-123. -/
def FuncNet.createGraph (N : FuncNet K) : Bool := N.optimizer ∈ ["adahessian"]

/-- One network trained by `plot_approximation`, examples/function_example.py:217-226. -/
structure FuncRun where
  function : String
  n : ℕ
  segments : ℕ
  periodicity : Option ℕ
  opt : String
  deriving DecidableEq

/-- `plot_approximation`, examples/function_example.py:200-226: the networks it trains. With `first_only` the loop stops before its second round. -/
def plotApproximation (function : String) (modelSet : List ℕ) (segments : ℕ) (periodicity : Option ℕ) (opt : String) (firstOnly : Bool) : List FuncRun :=
  (if firstOnly then modelSet.take 1 else modelSet).map fun n => { function, n, segments, periodicity, opt }

/-- `data` of `plot_results` with the sets of examples/function_example.py:162-194, 265-286. -/
def funcData : List (String × List ℕ) :=
  [("discontinuous", [1, 2, 4, 6]), ("continuous", [1, 2, 4, 6]), ("polynomial", [10, 20, 30]), ("fourier", [10, 20, 30])]

/-- `plot_results`, examples/function_example.py:247-306: the networks it trains, in order. The argument `optimizer` is not used. -/
def plotResults (segments : ℕ) (firstOnly : Bool) (_optimizer : String) (periodicity : Option ℕ) : List FuncRun :=
  funcData.flatMap fun e => plotApproximation e.1 e.2 segments periodicity "sophia" firstOnly

end HOL
