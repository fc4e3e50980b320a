import Verif.Model.Piecewise

/-!
# N dimensional elements

Model of `LagrangeBasisND`, `LagrangeBasisPiecewiseND` (LagrangePolynomial.py:82-158), `PolynomialND`
(PolynomialLayers.py:79-171) and `PiecewiseND` (PolynomialLayers.py:359-529).
-/

namespace HOL
open TorchScalar
variable {K : Type} [TorchScalar K]

/-- A Python argument that is an integer or a list of integers. -/
inductive IntOrList where
  | int (n : ℕ)
  | list (l : List ℕ)

/-- Attributes of `LagrangeBasisND`, LagrangePolynomial.py:87-97. -/
structure BasisND (K : Type) where
  n : List ℕ
  X : List (Tensor K)
  denominators : List (Tensor K)
  indexes : Tensor ℕ

/-- `_compute_denominators` for one axis, LagrangePolynomial.py:99-103: entry `[r, c]` is `X[c] - X[r]`, or one where
that vanishes. -/
def denomND (ni : ℕ) (X : Tensor K) : Tensor K :=
  Tensor.tab2 ni ni fun r c =>
    let d := X.get [c] - X.get [r]
    if eqB d 0 then 1 else d

/-- `LagrangeBasisND.__init__`, LagrangePolynomial.py:87-108. `len(n)` of an integer raises `TypeError`,
`torch.meshgrid([])` raises `RuntimeError`. Row `r` of `indexes` is the `r`-th multi index in row-major order
(`meshgrid(indexing="ij")`, `reshape(dimensions, -1).T`). `LagrangePolyFlatND.__init__`
(LagrangePolynomial.py:291-297) passes its arguments on to it. -/
def BasisND.init (n : IntOrList) (length : K) : Py (BasisND K) :=
  match n with
  | .int _ => .error .typeError
  | .list ns =>
    if ns = [] then .error .runtimeError
    else
      let X : List (Tensor K) :=
        ns.map fun ni => (chebyshevLobatto ni).map fun c => (length / ((2 : ℕ) : K)) * c
      .ok { n := ns
            X := X
            denominators := List.zipWith denomND ns X
            indexes := Tensor.tab2 (numel ns) ns.length fun r d => (unravel ns r).getD d 0 }

/-- The factor of axis `d` in basis function `r` at the coordinate `x`, LagrangePolynomial.py:118-131. -/
def BasisND.factor (b : BasisND K) (r d : ℕ) (x : K) : K :=
  let X := b.X.getD d ⟨[], []⟩
  let den := b.denominators.getD d ⟨[], []⟩
  let j := b.indexes.get [r, d]
  prodL ((List.range (b.n.getD d 0)).map fun c =>
    if j ≠ c then (x - X.get [c]) / den.get [j, c] else 1)

/-- `_compute_basis(x, self.indexes)`, LagrangePolynomial.py:110-133, for `x` of shape `[batch, inputs, dimensions]` (tensors
of another rank are not modelled). `x[..., d]` raises `IndexError` when `x` has too few coordinates. -/
def BasisND.computeBasis (b : BasisND K) (x : Tensor K) : Py (Tensor K) :=
  match x.shape with
  | [bsz, inp, dx] =>
    if dx < b.n.length then .error .indexError
    else .ok (Tensor.tab3 (numel b.n) bsz inp fun r p k =>
      prodL ((List.range b.n.length).map fun d => b.factor r d (x.get [p, k, d])))
  | _ => .error .runtimeError

/-- `torch.einsum("ibk,oki->bo", basis, w)`, LagrangePolynomial.py:143. -/
def einsumND (a w : Tensor K) : Py (Tensor K) :=
  match a.shape, w.shape with
  | [i, j, k], [o, k', i'] => do
    let kk ← bcast k k'
    let ii ← bcast i i'
    .ok (Tensor.tab2 j o fun b l =>
      sumL ((List.range ii).flatMap fun p => (List.range kk).map fun q =>
        a.get [bidx i p, b, bidx k q] * w.get [l, bidx k' q, bidx i' p]))
  | _, _ => .error .runtimeError

/-- `LagrangeBasisND.interpolate`, LagrangePolynomial.py:135-145. -/
def BasisND.interpolate (b : BasisND K) (x w : Tensor K) : Py (Tensor K) := do
  einsumND (← b.computeBasis x) w

/-- `torch.einsum("ibk,bkoi->bo", basis, w)`, LagrangePolynomial.py:156. -/
def einsumPwND (a w : Tensor K) : Py (Tensor K) :=
  match a.shape, w.shape with
  | [i, j, k], [j', k', o, i'] => do
    let jj ← bcast j j'
    let kk ← bcast k k'
    let ii ← bcast i i'
    .ok (Tensor.tab2 jj o fun b l =>
      sumL ((List.range ii).flatMap fun p => (List.range kk).map fun q =>
        a.get [bidx i p, bidx j b, bidx k q] * w.get [bidx j' b, bidx k' q, l, bidx i' p]))
  | _, _ => .error .runtimeError

/-- `LagrangeBasisPiecewiseND.interpolate`, LagrangePolynomial.py:147-158. -/
def BasisND.interpolatePw (b : BasisND K) (x w : Tensor K) : Py (Tensor K) := do
  einsumPwND (← b.computeBasis x) w

/-- Attributes of a `PolynomialND` layer, PolynomialLayers.py:79-96 with `Function.__init__` (26-58). -/
structure PolyNDLayer (K : Type) where
  basis : BasisND K
  periodicity : Option K
  w : Tensor K

/-- `PolynomialND.__init__` (also `Polynomial2D` ... `Polynomial5D`, whose `dimensions` argument is swallowed by the
`**kwargs` of `LagrangeBasisND`), PolynomialLayers.py:79-171, with `initialize="constant_random"`. -/
def PolyNDLayer.init (n : IntOrList) (inF outF : ℕ) (length : K) (rand : ℕ → ℕ → K) (wm : K)
    (periodicity : Option K) : Py (PolyNDLayer K) := do
  let b ← BasisND.init n length
  .ok { basis := b, periodicity := periodicity, w := constantRandomInit rand outF inF (numel b.n) wm }

/-- `Function.forward` of a `PolynomialND`, PolynomialLayers.py:60-67. -/
def PolyNDLayer.forward (L : PolyNDLayer K) (x : Tensor K) : Py (Tensor K) :=
  L.basis.interpolate (x.map (periodize L.periodicity)) L.w

/-- Attributes of `PiecewiseND`, PolynomialLayers.py:360-423. -/
structure PwNDLayer (K : Type) where
  dimensions : ℕ
  n : List ℕ
  segments : List ℕ
  inFeatures : ℕ
  outFeatures : ℕ
  length : K
  basis : BasisND K
  w : Tensor K

/-- `self.weights_per_segment`, PolynomialLayers.py:404. -/
def PwNDLayer.wps (L : PwNDLayer K) : ℕ := numel L.n
/-- `self.total_segments`, PolynomialLayers.py:405. -/
def PwNDLayer.totalSegments (L : PwNDLayer K) : ℕ := numel L.segments
/-- `self._half`, PolynomialLayers.py:397. -/
def PwNDLayer.half (L : PwNDLayer K) : K := 1 / ((2 : ℕ) : K) * L.length

/-- `dimensions or len(n)`, PolynomialLayers.py:379: zero counts as missing. -/
def pwNDDims (n : IntOrList) (dimensions : Option ℕ) : Py ℕ :=
  match dimensions, n with
  | some (d + 1), _ => .ok (d + 1)
  | _, .list l => .ok l.length
  | _, .int _ => .error .typeError

/-- `[n] * dimensions if isinstance(n, int) else n`, PolynomialLayers.py:381-384. -/
def IntOrList.toList (n : IntOrList) (dims : ℕ) : List ℕ :=
  match n with
  | .int k => List.replicate dims k
  | .list l => l

/-- `PiecewiseND.__init__` with the default `initialize="constant_random"`, PolynomialLayers.py:360-436.
`_constant_random_initialization` replaces the three dimensional weight by a one dimensional one
(`repeat_interleave` without axis flattens). -/
def PwNDLayer.init (n : IntOrList) (inF outF : ℕ) (segments : IntOrList) (dimensions : Option ℕ) (length : K)
    (rand : ℕ → ℕ → K) (wm : K) : Py (PwNDLayer K) :=
  match dimensions, n with
  | none, .int _ => .error .valueError
  | _, _ => do
    let dims ← pwNDDims n dimensions
    let ns := n.toList dims
    let segs := segments.toList dims
    if ns.length ≠ segs.length then .error .valueError
    else
      let basis ← BasisND.init (.list ns) length
      let per := numel segs * numel ns
      .ok { dimensions := dims, n := ns, segments := segs, inFeatures := inF, outFeatures := outF
            length := length, basis := basis
            w := Tensor.tab1 (inF * outF * per) fun q =>
              let io := q / per
              (rand (io / outF) (io % outF) * ((2 : ℕ) : K) * wm - wm) / (inF : K) }

/-- `_eta`, PolynomialLayers.py:463-467, on axis `d`. -/
def PwNDLayer.eta (L : PwNDLayer K) (d : ℕ) (index : ℤ) : K :=
  (index : K) / ((L.segments.getD d 0 : ℕ) : K) * ((2 : ℕ) : K) - 1

/-- `which_segment` on axis `d`, PolynomialLayers.py:438-451. -/
def PwNDLayer.segIndex (L : PwNDLayer K) (d : ℕ) (x : K) : ℤ :=
  clampInt (toLong ((x + L.half) / L.length * ((L.segments.getD d 0 : ℕ) : K))) 0
    ((L.segments.getD d 0 : ℤ) - 1)

/-- `which_segment`, PolynomialLayers.py:438-451: the `print` statement reads `x[:, :, 0]` and `x[:, :, 1]` and reduces
them, so one coordinate raises `IndexError` and an empty batch raises `RuntimeError`. The coordinates of `x` must
agree with the segments (broadcasting of a single axis is not modelled). -/
def PwNDLayer.whichSegment (L : PwNDLayer K) (x : Tensor K) : Py (Tensor ℤ) :=
  match x.shape with
  | [bsz, inp, dx] =>
    if dx = 0 then .error .indexError
    else if bsz * inp = 0 then .error .runtimeError
    else if dx = 1 then .error .indexError
    else if dx ≠ L.segments.length then .error .runtimeError
    else .ok (Tensor.tab3 bsz inp dx fun b k d => L.segIndex d (x.get [b, k, d]))
  | _ => .error .indexError

/-- `x_local`, PolynomialLayers.py:453-456. -/
def PwNDLayer.xLocal (L : PwNDLayer K) (x : Tensor K) (index : Tensor ℤ) : Tensor K :=
  Tensor.tabulate x.shape fun idx =>
    let d := idx.getD 2 0
    let xMin := L.eta d (index.get idx)
    let xMax := L.eta d (index.get idx + 1)
    L.length * ((x.get idx - xMin) / (xMax - xMin)) - L.half

/-- `_get_weight_indices`, PolynomialLayers.py:488-511: `segment_indices[..., dim]` raises when there are fewer axes
than `dimensions`. -/
def PwNDLayer.weightIndices (L : PwNDLayer K) (seg : Tensor ℤ) : Py (Tensor ℤ) :=
  match seg.shape with
  | [bsz, inp, dx] =>
    if dx < L.dimensions then .error .indexError
    else
      let flat : Tensor ℤ := Tensor.tab2 bsz inp fun b k =>
        ((List.range L.dimensions).map fun d =>
          seg.get [b, k, d] * (numel (L.segments.drop (d + 1)) : ℤ)).sum
      .ok (Tensor.tab3 bsz inp L.wps fun b k j => flat.get [b, k] * (L.wps : ℤ) + (j : ℤ))
  | _ => .error .indexError

/-- `_reshape_weights`, PolynomialLayers.py:513-529, for the one dimensional weight left by the default initialization: the
index tensor is repeated for every output, so all outputs receive the same entries. A weight of another rank (only with
`initialize` different from the default) is not modelled. -/
def PwNDLayer.reshapeWeights (L : PwNDLayer K) (wi : Tensor ℤ) : Py (Tensor K) :=
  match wi.shape, L.w.shape with
  | [bsz, inp, wps], [m] =>
    if ∀ b < bsz, ∀ k < inp, ∀ j < wps, (PwLayer.normIndex m (wi.get [b, k, j])).isSome then
      .ok (Tensor.tab4 bsz inp L.outFeatures wps fun b k _ j =>
        L.w.get [(PwLayer.normIndex m (wi.get [b, k, j])).getD 0])
    else .error .indexError
  | _, _ => .error .runtimeError

/-- `PiecewiseND.forward`, PolynomialLayers.py:469-486. -/
def PwNDLayer.forward (L : PwNDLayer K) (x : Tensor K) : Py (Tensor K) := do
  let seg ← L.whichSegment x
  let xl := L.xLocal x seg
  let wi ← L.weightIndices seg
  let w ← L.reshapeWeights wi
  L.basis.interpolatePw xl w

end HOL
