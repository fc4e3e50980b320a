import Verif.Model.Utils

/-!
# The `Product` layer

Model of ProductLayer.py. The random initial parameters are fields of the record.
-/

namespace HOL
open TorchScalar
variable {K : Type} [TorchScalar K]

/-- Attributes of `Product`, ProductLayer.py:12-34. `bias` is `None` when the layer is built with
`bias=False`. -/
structure ProductLayer (K : Type) where
  inFeatures : ℕ
  outFeatures : ℕ
  alpha : K
  periodicity : Option K
  weight : Tensor K
  bias : Option (Tensor K)

/-- `torch.einsum("ij,kj->ijk", x, weight)`, ProductLayer.py:49. -/
def einsumOuter (x w : Tensor K) : Py (Tensor K) :=
  match x.shape, w.shape with
  | [i, j], [k, j'] => do
    let jj ← bcast j j'
    .ok (Tensor.tab3 i jj k fun b q o => x.get [b, bidx j q] * w.get [o, bidx j' q])
  | _, _ => .error .runtimeError

/-- `Product.forward`, ProductLayer.py:44-55. Adding `None` raises `TypeError`; a bias of another length
than the number of outputs is not modelled. -/
def ProductLayer.forward (L : ProductLayer K) (x : Tensor K) : Py (Tensor K) := do
  let x := x.map (periodize L.periodicity)
  let assemble ← einsumOuter x L.weight
  match assemble.shape with
  | [b, j, k] =>
    let thisSum := Tensor.tab2 b k fun p o => sumL ((List.range j).map fun q => assemble.get [p, q, o])
    let assemble := assemble.map (· + 1)
    let assemble := Tensor.tab2 b k fun p o =>
      prodL ((List.range j).map fun q => assemble.get [p, q, o]) - (1 - L.alpha) * thisSum.get [p, o]
    match L.bias with
    | none => .error .typeError
    | some bias => .ok (Tensor.tab2 b k fun p o => assemble.get [p, o] - 1 + bias.get [o])
  | _ => .error .runtimeError

end HOL
