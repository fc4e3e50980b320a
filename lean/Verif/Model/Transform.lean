import Verif.Model.Rotation
import Verif.Model.Network

/-!
# Model: networks behind a fixed rotation

networks.py:928-1003: `transform_mlp`, `transform_low_mlp`. The rotation layer is a module `.other`: its weight is a parameter with
`requires_grad=False`, which no optimizer changes. `device` is not modelled.
-/

namespace HOL
open TorchScalar
variable {K : Type} [TorchScalar K]

/-- Arguments of `transform_mlp`, networks.py:928-947. -/
structure TransformArgs (K : Type) where
  layerType : String
  inWidth : ℕ
  hiddenWidth : ℕ
  outWidth : ℕ
  n : IntOrList
  nIn : Option IntOrList
  nHidden : Option IntOrList
  nOut : Option IntOrList
  inSegments : Option IntOrList
  hiddenSegments : Option IntOrList
  outSegments : Option IntOrList
  hiddenLayers : ℕ
  rotations : ℤ
  scale : K
  periodicity : Option K
  normalization : Option (Fwd K)
  resnet : Bool

/-- The keyword arguments handed to `HighOrderMLP`, networks.py:952-970; the others keep their defaults (networks.py:160-185): no nonlinearity,
`rescale_output=False`, `dropout=0`, whose layer is the identity. -/
def TransformArgs.mlpArgs (a : TransformArgs K) (width : ℕ) : MLPArgs K :=
  { layerType := a.layerType, layerTypeIn := none, n := a.n, nIn := a.nIn, nOut := a.nOut, nHidden := a.nHidden
    inWidth := width, outWidth := a.outWidth, hiddenLayers := a.hiddenLayers, hiddenWidth := a.hiddenWidth
    inSegments := a.inSegments, outSegments := a.outSegments, hiddenSegments := a.hiddenSegments
    periodicity := a.periodicity, normalization := a.normalization, nonLinearity := none, resnet := a.resnet
    dropout := 0, dropoutFn := fun x => .ok x, scale := a.scale, rescaleOutput := false, initialization := "constant_random" }

/-- `transform_mlp`, networks.py:928-973: `Sequential(fixed_input, mlp)`. -/
def transformMlp (rng : Rng K) (a : TransformArgs K) (h : Heap K) : Py (ℕ × Heap K) := do
  let fixed ← fixedRotationLayer a.inWidth a.rotations true
  let r ← mlpInit rng (a.mlpArgs fixed.2) (h ++ [.other (linearNoBias fixed.1)])
  .ok (r.2.length, r.2 ++ [.seq [h.length, r.1]])

/-- `transform_low_mlp`, networks.py:976-1003. -/
def transformLowMlp (rng : Rng K) (inWidth hiddenWidth outWidth hiddenLayers : ℕ) (nonLinearity : Option ℕ)
    (normalization : Option (Fwd K)) (rotations : ℤ) (h : Heap K) : Py (ℕ × Heap K) := do
  let fixed ← fixedRotationLayer inWidth rotations true
  let r := lowMlpInit rng fixed.2 outWidth hiddenLayers hiddenWidth nonLinearity normalization
    (h ++ [.other (linearNoBias fixed.1)])
  .ok (r.2.length, r.2 ++ [.seq [h.length, r.1]])

end HOL
