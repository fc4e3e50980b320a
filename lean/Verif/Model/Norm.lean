import Verif.Tensor

/-!
# Normalizations

Model of utils.py:8-71, for tensors of any rank. `torch.max(x, dim, keepdim=True)[0]` keeps an axis of size
one, so dividing by it broadcasts along that axis.
-/

namespace HOL
open TorchScalar
variable {K : Type} [TorchScalar K]

/-- The entries of `x` that differ from position `idx` only in axis `dim`. -/
def slice (x : Tensor K) (dim : ℕ) (idx : List ℕ) : List K :=
  (List.range (x.shape.getD dim 0)).map fun q => x.get (idx.set dim q)

/-- A reduction with `keepdim=True` along `dim`: a missing or empty axis raises `IndexError`. -/
def reduceDim (f : List K → K) (x : Tensor K) (dim : ℕ) : Py (Tensor K) :=
  if dim < x.shape.length ∧ 0 < x.shape.getD dim 0 then
    .ok (Tensor.tabulate (x.shape.set dim 1) fun idx => f (slice x dim idx))
  else .error .indexError

/-- Elementwise operation of `x` with a tensor whose axis `dim` has size one. -/
def zipDim (f : K → K → K) (x m : Tensor K) (dim : ℕ) : Tensor K :=
  Tensor.tabulate x.shape fun idx => f (x.get idx) (m.get (idx.set dim 0))

/-- `max_abs`, utils.py:8-9. -/
def maxAbs (x : Tensor K) (dim : ℕ) : Py (Tensor K) := reduceDim maxL (x.map abs) dim

/-- `max_abs_normalization`, utils.py:12-13 (default `dim=1`). -/
def maxAbsNormalization (x : Tensor K) (eps : K) (dim : ℕ) : Py (Tensor K) := do
  let m ← maxAbs x dim
  .ok (zipDim (fun a c => a / (c + eps)) x m dim)

/-- `max_abs_normalization_last`, utils.py:16-17. `dim = len(x.shape) - 1`: a tensor without axes would
use `dim=-1`, excluded here by the error of `reduceDim`. -/
def maxAbsNormalizationLast (x : Tensor K) (eps : K) : Py (Tensor K) :=
  maxAbsNormalization x eps (x.shape.length - 1)

/-- `max_center_normalization`, utils.py:20-28 (default `dim=1`). -/
def maxCenterNormalization (x : Tensor K) (eps : K) (dim : ℕ) : Py (Tensor K) := do
  let maxX ← reduceDim maxL x dim
  let minX ← reduceDim minL x dim
  let midrange := zipDim (fun a c => 1 / ((2 : ℕ) : K) * (a + c)) maxX minX dim
  let mag := zipDim (fun a c => a - c) maxX midrange dim
  let centered := zipDim (fun a c => a - c) x midrange dim
  .ok (zipDim (fun a c => a / (c + eps)) centered mag dim)

/-- `max_center_normalization_last`, utils.py:31-39. -/
def maxCenterNormalizationLast (x : Tensor K) (eps : K) : Py (Tensor K) :=
  maxCenterNormalization x eps (x.shape.length - 1)

/-- `x.reshape(shape[0], -1)`: raises without axes or when the first axis is empty. -/
def flattenRows (x : Tensor K) : Py (Tensor K) :=
  match x.shape with
  | [] => .error .indexError
  | s0 :: ss => if s0 = 0 then .error .runtimeError else .ok (x.reshape [s0, numel ss])

/-- `max_center_normalization_nd`, utils.py:42-54: the body repeats `max_center_normalization` with `dim=1`. -/
def maxCenterNormalizationND (x : Tensor K) (eps : K) : Py (Tensor K) := do
  let xn ← flattenRows x
  let norm ← maxCenterNormalization xn eps 1
  .ok (norm.reshape x.shape)

/-- `l2_normalization`, utils.py:57-58: `x.norm(2, 1, keepdim=True)`. The norm of an empty slice is 0 and does
not raise; modelled for non-empty slices. -/
def l2Normalization (x : Tensor K) (eps : K) : Py (Tensor K) := do
  let m ← reduceDim (fun l => sqrt (sumL (l.map fun a => a * a))) x 1
  .ok (zipDim (fun a c => a / (c + eps)) x m 1)

/-- `max_abs_normalization_nd`, utils.py:61-65. -/
def maxAbsNormalizationND (x : Tensor K) (eps : K) : Py (Tensor K) := do
  let xn ← flattenRows x
  let m ← maxAbs xn 1
  .ok ((zipDim (fun a c => a / (c + eps)) xn m 1).reshape x.shape)

end HOL
