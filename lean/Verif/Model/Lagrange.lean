import Verif.Tensor

/-!
# Bases and interpolation

Model of `LagrangePolynomial.py` (one dimensional part) and of the interpolation classes of `Basis.py`.
All definitions are over an arbitrary scalar type. Devices and dtypes are not modelled.
-/

namespace HOL
open TorchScalar

variable {K : Type} [TorchScalar K]

/-- `chebyshevLobatto(n)`, LagrangePolynomial.py:9-22. -/
def chebyshevLobatto (n : ℕ) : Tensor K :=
  if n = 1 then Tensor.tab1 1 fun _ => 0
  else Tensor.tab1 n fun i => -cos (pi * (i : K) / ((n - 1 : ℕ) : K))

/-- Attributes of `LagrangeBasis`, LagrangePolynomial.py:190-195. -/
structure LagrangeBasis (K : Type) where
  n : ℕ
  X : Tensor K
  denominators : Tensor K

/-- `LagrangeBasis.__init__` and `_compute_denominators`, LagrangePolynomial.py:191-203.
The two nested loops write every off-diagonal entry of a tensor of ones exactly once. -/
def LagrangeBasis.init (n : ℕ) (length : K) : LagrangeBasis K :=
  let X : Tensor K := (chebyshevLobatto n).map fun c => (length / ((2 : ℕ) : K)) * c
  { n := n
    X := X
    denominators := Tensor.tab2 n n fun j m => if m ≠ j then X.get [j] - X.get [m] else 1 }

/-- `LagrangeBasis.__call__` on one entry of `x`, LagrangePolynomial.py:205-211. -/
def LagrangeBasis.call (b : LagrangeBasis K) (x : K) (j : ℕ) : K :=
  prodL ((List.range b.n).map fun m =>
    if m ≠ j then (x - b.X.get [m]) / b.denominators.get [j, m] else 1)

/-- The basis objects handed to the interpolation classes: `LagrangeBasis`,
`LagrangeBasis1` (LagrangePolynomial.py:214-227) and `FourierBasis`
(LagrangePolynomial.py:161-187). -/
inductive BasisFn (K : Type) where
  | lagrange (b : LagrangeBasis K)
  | lagrange1
  | fourier (length : K)

/-- `FourierBasis.__call__` on one entry of `x`, LagrangePolynomial.py:172-187. -/
def fourierCall (length x : K) (j : ℕ) : K :=
  if j = 0 then (1 / ((2 : ℕ) : K)) + 0 * x
  else
    let i := (j + 1) / 2
    if j % 2 = 0 then cos (((2 : ℕ) : K) * pi * (i : K) * x / length)
    else sin (((2 : ℕ) : K) * pi * (i : K) * x / length)

/-- `__call__` of the three basis classes, applied entry by entry:
LagrangePolynomial.py:205-211, 225-227, 172-187. -/
def BasisFn.call (b : BasisFn K) (x : K) (j : ℕ) : K :=
  match b with
  | .lagrange b => b.call x j
  | .lagrange1 => 1
  | .fourier length => fourierCall length x j

/-- Attribute `num_basis` (`None` for Fourier), LagrangePolynomial.py:195, 223, 170. -/
def BasisFn.numBasis : BasisFn K → Option ℕ
  | .lagrange b => some b.n
  | .lagrange1 => some 1
  | .fourier _ => none

/-- Attribute `X` (absent for Fourier), LagrangePolynomial.py:193, 222. -/
def BasisFn.X : BasisFn K → Py (Tensor K)
  | .lagrange b => .ok b.X
  | .lagrange1 => .ok (Tensor.tab1 1 fun _ => 0)
  | .fourier _ => .error .attributeError

/-- `get_lagrange_basis(n, length)`, LagrangePolynomial.py:230-234. -/
def getLagrangeBasis (n : ℕ) (length : K) : BasisFn K :=
  if n = 1 then .lagrange1 else .lagrange (LagrangeBasis.init n length)

/-- `torch.stack([basis(x, j) for j in range(n)])`, Basis.py:30-35, 400-405, 470-474, 504-508,
533-537. Stacking an empty list raises. -/
def stackBasis (n : ℕ) (basis : BasisFn K) (x : Tensor K) : Py (Tensor K) :=
  if n = 0 then .error .runtimeError
  else .ok (Tensor.tabulate (n :: x.shape) fun idx =>
    match idx with
    | [] => 0
    | j :: rest => basis.call (x.get rest) j)

/-- `torch.einsum("ijk,lki->jl", a, w)`, Basis.py:406. Size-1 axes broadcast. -/
def einsumFlat (a w : Tensor K) : Py (Tensor K) :=
  match a.shape, w.shape with
  | [i, j, k], [l, k', i'] => do
    let kk ← bcast k k'
    let ii ← bcast i i'
    .ok (Tensor.tab2 j l fun b o =>
      sumL ((List.range ii).flatMap fun p => (List.range kk).map fun q =>
        a.get [bidx i p, b, bidx k q] * w.get [o, bidx k' q, bidx i' p]))
  | _, _ => .error .runtimeError

/-- `torch.einsum("ijk,lki->jlk", a, w)`, Basis.py:475. -/
def einsumFlatProd (a w : Tensor K) : Py (Tensor K) :=
  match a.shape, w.shape with
  | [i, j, k], [l, k', i'] => do
    let kk ← bcast k k'
    let ii ← bcast i i'
    .ok (Tensor.tab3 j l kk fun b o q =>
      sumL ((List.range ii).map fun p =>
        a.get [bidx i p, b, bidx k q] * w.get [o, bidx k' q, bidx i' p]))
  | _, _ => .error .runtimeError

/-- `torch.einsum("ijk,jkli->jl", a, w)`, Basis.py:510. -/
def einsumBatch (a w : Tensor K) : Py (Tensor K) :=
  match a.shape, w.shape with
  | [i, j, k], [j', k', l, i'] => do
    let jj ← bcast j j'
    let kk ← bcast k k'
    let ii ← bcast i i'
    .ok (Tensor.tab2 jj l fun b o =>
      sumL ((List.range ii).flatMap fun p => (List.range kk).map fun q =>
        a.get [bidx i p, bidx j b, bidx k q] * w.get [bidx j' b, bidx k' q, o, bidx i' p]))
  | _, _ => .error .runtimeError

/-- `torch.einsum("ijk,jkli->jlk", a, w)`, Basis.py:541. -/
def einsumBatchProd (a w : Tensor K) : Py (Tensor K) :=
  match a.shape, w.shape with
  | [i, j, k], [j', k', l, i'] => do
    let jj ← bcast j j'
    let kk ← bcast k k'
    let ii ← bcast i i'
    .ok (Tensor.tab3 jj l kk fun b o q =>
      sumL ((List.range ii).map fun p =>
        a.get [bidx i p, bidx j b, bidx k q] * w.get [bidx j' b, bidx k' q, o, bidx i' p]))
  | _, _ => .error .runtimeError

/-- `torch.prod(1 + assemble, dim=2) - 1 + (1 - alpha) * torch.sum(assemble, dim=2)`,
Basis.py:476-481 and 542-546. -/
def prodOut (alpha : K) (assemble : Tensor K) : Py (Tensor K) :=
  match assemble.shape with
  | [j, l, k] => .ok (Tensor.tab2 j l fun b o =>
      prodL ((List.range k).map fun q => 1 + assemble.get [b, o, q]) - 1
        + (1 - alpha) * sumL ((List.range k).map fun q => assemble.get [b, o, q]))
  | _ => .error .runtimeError

/-- The classes `BasisFlat`, `BasisFlatProd`, `Basis`, `BasisProd` of Basis.py:381-548. -/
inductive PolyKind (K : Type) where
  | flat
  | flatProd (alpha : K)
  | batch
  | batchProd (alpha : K)

/-- An interpolation object: class, `n` and `basis`. -/
structure Poly (K : Type) where
  kind : PolyKind K
  n : ℕ
  basis : BasisFn K

/-- Attribute `num_basis`: `basis.num_basis or n` for `BasisFlat` (Basis.py:389, a count of 0 is
falsy), not defined by `BasisFlatProd`, `Basis` and `BasisProd` (Basis.py:454-459, 488-490, 517-522). -/
def Poly.numBasis (p : Poly K) : Py ℕ :=
  match p.kind with
  | .flat => match p.basis.numBasis with
    | some 0 => .ok p.n
    | some m => .ok m
    | none => .ok p.n
  | _ => .error .attributeError

/-- `interpolate` of the four classes: Basis.py:391-408, 461-483, 492-512, 524-548. -/
def Poly.interpolate (p : Poly K) (x w : Tensor K) : Py (Tensor K) := do
  let mat ← stackBasis p.n p.basis x
  match p.kind with
  | .flat => einsumFlat mat w
  | .flatProd alpha => prodOut alpha (← einsumFlatProd mat w)
  | .batch => einsumBatch mat w
  | .batchProd alpha => prodOut alpha (← einsumBatchProd mat w)

/-- `LagrangePolyFlat(n, length)`, LagrangePolynomial.py:275-277. -/
def lagrangePolyFlat (n : ℕ) (length : K) : Poly K := ⟨.flat, n, getLagrangeBasis n length⟩
/-- `LagrangePolyFlatProd(n, length)` with the default `alpha=1.0`, LagrangePolynomial.py:300-302. -/
def lagrangePolyFlatProd (n : ℕ) (length : K) (alpha : K := 1) : Poly K :=
  ⟨.flatProd alpha, n, getLagrangeBasis n length⟩
/-- `LagrangePoly(n, length)`, LagrangePolynomial.py:305-307. -/
def lagrangePoly (n : ℕ) (length : K) : Poly K := ⟨.batch, n, getLagrangeBasis n length⟩
/-- `LagrangePolyProd(n, length)`, default `alpha=1.0`, LagrangePolynomial.py:310-312. -/
def lagrangePolyProd (n : ℕ) (length : K) (alpha : K := 1) : Poly K :=
  ⟨.batchProd alpha, n, getLagrangeBasis n length⟩
/-- `FourierSeriesFlat(n, length)`, LagrangePolynomial.py:315-317. -/
def fourierSeriesFlat (n : ℕ) (length : K) : Poly K := ⟨.flat, n, .fourier length⟩

end HOL
