import Verif.Model.Norm
import Verif.Model.Modules

/-!
# Model: the normalization modules

layers.py:21-145: the modules wrapping the functions of utils.py, the lazy layer normalization and the table `normalization_layers`.
-/

namespace HOL
open TorchScalar
variable {K : Type} [TorchScalar K]

/-- State of `LazyLayerNormLastDim`: `weight` is `None` before the first call, and `bias` holds the argument of the constructor until then. -/
structure LazyLayerNorm (K : Type) where
  weight : Option (Tensor K)
  useBias : Bool
  bias : Option (Tensor K)

/-- `__init__`, layers.py:27-30. -/
def LazyLayerNorm.new (bias : Bool) : LazyLayerNorm K := { weight := none, useBias := bias, bias := none }

/-- `F.layer_norm(input, weight.shape, weight, bias, eps)` for a weight with one axis: the last axis of the input must have the size of the weight. -/
def layerNorm (x weight : Tensor K) (bias : Option (Tensor K)) (eps : K) : Py (Tensor K) :=
  match x.shape.getLast? with
  | none => .error .runtimeError
  | some n =>
    if weight.shape = [n] then
      let d := x.shape.length - 1
      .ok (Tensor.tabulate x.shape fun idx =>
        let v := slice x d idx
        let c := idx.getD d 0
        let scaled := (x.get idx - meanL v) / sqrt (varL v + eps) * weight.get [c]
        match bias with
        | none => scaled
        | some b => scaled + b.get [c])
    else .error .runtimeError

/-- `forward`, layers.py:32-40: the output and the new state. -/
def LazyLayerNorm.forward (N : LazyLayerNorm K) (x : Tensor K) : Py (Tensor K × LazyLayerNorm K) := do
  let N ← match N.weight with
    | some _ => .ok N
    | none =>
      match x.shape.getLast? with
      | none => .error .indexError
      | some n => .ok { N with weight := some (Tensor.tab1 n fun _ => 1), bias := if N.useBias then some (Tensor.tab1 n fun _ => 0) else none }
  match N.weight with
  | none => .error .attributeError
  | some w => do
    let y ← layerNorm x w N.bias defaultEps
    .ok (y, N)

/-- `parameters()` on the CPU, where `.to(device)` returns the parameter itself, so that the assignments in `forward` register it. -/
def LazyLayerNorm.parameters (N : LazyLayerNorm K) : List (Tensor K) := N.weight.toList ++ N.bias.toList

/-- The normalization modules, layers.py:43-137. -/
inductive NormModule (K : Type) where
  | maxAbsLast (eps : K)
  | maxCenterLast (eps : K)
  | maxAbs (eps : K) (dim : ℕ)
  | maxCenter (eps : K)
  | maxCenterND (eps : K)
  | maxAbsND (eps : K)
  | l2 (eps : K)
  | layerNorm (N : LazyLayerNorm K)

/-- `forward`, layers.py:52-53, 66-67, 80-81, 94-95, 109-110, 123-124, 136-137 and 32-40: the output and the module afterwards. -/
def NormModule.forward (N : NormModule K) (x : Tensor K) : Py (Tensor K × NormModule K) :=
  match N with
  | .maxAbsLast eps => do .ok (← maxAbsNormalizationLast x eps, N)
  | .maxCenterLast eps => do .ok (← maxCenterNormalizationLast x eps, N)
  | .maxAbs eps dim => do .ok (← maxAbsNormalization x eps dim, N)
  | .maxCenter eps => do .ok (← maxCenterNormalization x eps 1, N)
  | .maxCenterND eps => do .ok (← maxCenterNormalizationND x eps, N)
  | .maxAbsND eps => do .ok (← maxAbsNormalizationND x eps, N)
  | .l2 eps => do .ok (← l2Normalization x eps, N)
  | .layerNorm M => do
    let (y, M) ← M.forward x
    .ok (y, .layerNorm M)

/-- The default `eps=1e-6` of the modules. -/
def moduleEps : K := 1 / ((1000000 : ℕ) : K)

/-- `normalization_layers[key]()`, layers.py:140-145. -/
def normalizationLayer (key : String) : Py (NormModule K) :=
  match key with
  | "max_abs" => .ok (.maxAbs moduleEps 1)
  | "max_center" => .ok (.maxCenter moduleEps)
  | "l2" => .ok (.l2 moduleEps)
  | "layer_norm" => .ok (.layerNorm (LazyLayerNorm.new true))
  | _ => .error .keyError

end HOL
