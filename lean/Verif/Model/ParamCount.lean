import Verif.Model.Network

/-!
# Number of parameters

Model of `sum(p.numel() for p in network.parameters())`, the number of trainable numbers. `nn.Module.parameters()` yields the parameters registered in the modules that
`modules()` enumerates, each once (modules that occur several times are enumerated once; no two modules of the package share a parameter).
-/

namespace HOL
variable {K : Type}

/-- Shapes of the parameters a module registers itself, in the order of registration.

* `Piecewise`, `PiecewiseDiscontinuous`: `w`, PolynomialLayers.py:241-246, 607-610.
* `Function` (`Polynomial`, `FourierSeries`, `PolynomialND`): `w` and `result`, which has `out_features` entries and is never read, PolynomialLayers.py:42-58.
* `PiecewiseND`: `w`, PolynomialLayers.py:404-411, with the shape its `data` is given (422-424).
* `Product`: `weight` and, if asked for, `bias`, ProductLayer.py:24-30.
* `torch.nn.Linear`: `weight` and `bias`. -/
def Mod.paramShapes : Mod K → List (List ℕ)
  | .pw L => [L.w.shape]
  | .fn L => [L.w.shape, [L.outFeatures]]
  | .polyND L => [L.w.shape, [L.w.shape.headD 0]]
  | .pwND L => [L.w.shape]
  | .product L => L.weight.shape :: (L.bias.map fun b => b.shape).toList
  | .linear w b => [w.shape, b.shape]
  | _ => []

/-- `sum(p.numel() for p in module.parameters(recurse=False))` -/
def Mod.numParams (m : Mod K) : ℕ := (m.paramShapes.map numel).sum

/-- `sum(p.numel() for p in module.parameters())` -/
def Heap.countParameters (h : Heap K) (i : ℕ) : ℕ :=
  ((h.parameters i).map fun j => ((h[j]?).map Mod.numParams).getD 0).sum

end HOL
