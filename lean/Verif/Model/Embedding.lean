import Verif.Model.Piecewise

/-! # `positional_embeddings.py` -/

namespace HOL
open TorchScalar

variable {K : Type} [TorchScalar K]

/-- `ClassicSinusoidalEmbedding.__init__`, positional_embeddings.py:14-24: returns the attribute `dim`. -/
def sinusoidalInit (dim : ℕ) : Py ℕ := if dim % 2 ≠ 0 then .error .valueError else .ok dim

/-- `ClassicSinusoidalEmbedding.forward`, positional_embeddings.py:26-32. The division of the two Python numbers in
line 28 raises for `half_dim = 1`. `x.unsqueeze(-1) * emb.unsqueeze(0)` broadcasts `[..., 1]` with `[1, half_dim]`
(a scalar `x` becomes one row). -/
def sinusoidalForward (dim : ℕ) (x : Tensor K) : Py (Tensor K) :=
  let halfDim := dim / 2
  if halfDim = 1 then .error .zeroDivisionError
  else
    let emb : K := log ((10000 : ℕ) : K) / (((halfDim : ℤ) - 1 : ℤ) : K)
    let freq : Tensor K := Tensor.tab1 halfDim fun i => exp ((i : K) * -emb)
    let rows := if x.shape = [] then [1] else x.shape
    let arg : Tensor K := Tensor.tabulate (rows ++ [halfDim]) fun idx =>
      (x.reshape rows).get idx.dropLast * freq.get [idx.getLastD 0]
    .ok (Tensor.tabulate (rows ++ [halfDim + halfDim]) fun idx =>
      if idx.getLastD 0 < halfDim then sin (arg.get (idx.dropLast ++ [idx.getLastD 0]))
      else cos (arg.get (idx.dropLast ++ [idx.getLastD 0 - halfDim])))

/-- `FourierSeriesEmbedding`, positional_embeddings.py:41-49: the layer is built and dropped, the function has no
`return` and so returns `None`. -/
def fourierSeriesEmbedding (n inF outF : ℕ) (length : K) (rand : ℕ → ℕ → K) : Py (Option (FnLayer K)) := do
  let _ ← fourierSeriesInit n inF outF length rand 1 none
  return none

/-- `PiecewisePolynomialEmbedding`, positional_embeddings.py:52-73. -/
def piecewisePolynomialEmbedding (n inF outF segments : ℕ) (length : K) (rand : ℕ → ℕ → K) (wm : K)
    (periodicity : Option K) : PwLayer K :=
  PwLayer.init .continuous n inF outF segments length rand wm periodicity

/-- `PiecewiseDiscontinuousPolynomialEmbedding`, positional_embeddings.py:76-97. -/
def piecewiseDiscontinuousPolynomialEmbedding (n inF outF segments : ℕ) (length : K) (rand : ℕ → ℕ → K)
    (wm : K) (periodicity : Option K) : PwLayer K :=
  PwLayer.init .discontinuous n inF outF segments length rand wm periodicity

end HOL
