import Verif.Model.Modules

/-!
# Model: classification and regression networks

modules.py:194-217, with `torch.nn.CrossEntropyLoss()` written out.
-/

namespace HOL
open TorchScalar
variable {K : Type} [TorchScalar K]

/-- `-log_softmax(row)[t]`, computed with the largest score subtracted. -/
def nllRow (row : List K) (t : ℕ) : K :=
  let m := maxL row
  TorchScalar.log (sumL (row.map fun v => TorchScalar.exp (v - m))) - (row.getD t 0 - m)

/-- One row of `CrossEntropyLoss()`: `ignore_index` is `-100`, other targets out of bounds raise `IndexError`. -/
def crossEntropyRow (row : List K) (t : ℤ) : Py (Option K) :=
  if t = -100 then .ok none
  else if t < 0 ∨ (row.length : ℤ) ≤ t then .error .indexError
  else .ok (some (nllRow row t.toNat))

/-- `torch.nn.CrossEntropyLoss()` (mean) for scores `[batch, classes]` and class numbers; other numbers of axes are not modelled. -/
def crossEntropy (s : Tensor K) (t : List ℤ) : Py K :=
  match s.shape with
  | [b, c] =>
    if t.length = b then do
      let rows ← (List.range b).mapM fun i => crossEntropyRow ((List.range c).map fun j => s.get [i, j]) (t.getD i 0)
      let kept := rows.filterMap id
      .ok (sumL kept / ((kept.length : ℕ) : K))
    else .error .valueError
  | _ => .error .runtimeError

/-- `Accuracy(top_k=1, task="multiclass", num_classes=...)` of torchmetrics: at least two classes. -/
def checkClasses : Cfg K → Py Unit
  | .int z => if z < 2 then .error .valueError else .ok ()
  | _ => .error .valueError

/-- `ClassificationNet.__init__`, modules.py:195-206: the network. -/
def classificationNet (W : World K) (cfg : Cfg K) (h : Heap K) : Py (Selected K) := do
  let model ← selectNetwork W cfg h
  let classes ← cfg.path ["data", "classes"]
  checkClasses classes
  .ok model

/-- `RegressionNet.__init__`, modules.py:210-217: the network. -/
def regressionNet (W : World K) (cfg : Cfg K) (h : Heap K) : Py (Selected K) := selectNetwork W cfg h

/-- `eval_step` of a `ClassificationNet` whose network computes `model`: returned loss and logged accuracy. -/
def ClassificationNet.step (model : Fwd K) (argmax : List K → ℕ) (x : Tensor K) (y : Tensor ℤ) : Py (K × K) :=
  classificationStep model crossEntropy argmax x y

/-- `eval_step` of a `RegressionNet`: `self.loss` is `F.mse_loss`. -/
def RegressionNet.step (model : Fwd K) (x y : Tensor K) : Py K := regressionStep model VAE.mseLoss x y

end HOL
