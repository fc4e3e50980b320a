import Verif.Model.Lagrange
import Verif.Model.Utils

/-!
# Polynomial and piecewise polynomial layers

Model of `Function` and of `Piecewise`, `PiecewiseDiscontinuous` and their subclasses
(PolynomialLayers.py:26-76, 187-356, 532-754), without `PiecewiseND`.

`Piecewise` and `PiecewiseDiscontinuous` contain the same code up to the number of weights
a segment advances (`n - 1` resp. `n`), so both are one record with a class tag. The
weight tensor and constructor arguments are fields. The input of `forward` must be two dimensional,
as the einsum `"ijk,..."` requires.
-/

namespace HOL
open TorchScalar

variable {K : Type} [TorchScalar K]

/-- `torch.clamp(v, lo, hi)` on integers (`hi` wins if `lo > hi`). -/
def clampInt (v lo hi : ℤ) : ℤ := min (max v lo) hi

/-- The four concrete classes: `PiecewisePolynomial` (PolynomialLayers.py:532),
`PiecewisePolynomialProd` (558), `PiecewiseDiscontinuousPolynomial` (706),
`PiecewiseDiscontinuousPolynomialProd` (732). -/
inductive PwClass where
  | continuous
  | continuousProd
  | discontinuous
  | discontinuousProd
  deriving DecidableEq, Repr

/-- `isinstance(layer, Piecewise)`: neighbouring segments share a weight. -/
def PwClass.shared : PwClass → Bool
  | .continuous | .continuousProd => true
  | .discontinuous | .discontinuousProd => false

/-- Constructor arguments and parameters of a piecewise layer, PolynomialLayers.py:233-257 and
599-619. -/
structure PwLayer (K : Type) where
  cls : PwClass
  n : ℕ
  segments : ℕ
  inFeatures : ℕ
  outFeatures : ℕ
  length : K
  periodicity : Option K
  w : Tensor K

namespace PwLayer

/-- `self._half = 0.5 * length`, PolynomialLayers.py:257, 619. -/
def half (L : PwLayer K) : K := 1 / ((2 : ℕ) : K) * L.length

/-- `self._poly = poly(n)`, PolynomialLayers.py:234, 602: the basis is built with its default
length 2, whatever the `length` of the layer. -/
def poly (L : PwLayer K) : Poly K :=
  match L.cls with
  | .continuous | .discontinuous => lagrangePoly L.n ((2 : ℕ) : K)
  | .continuousProd | .discontinuousProd => lagrangePolyProd L.n ((2 : ℕ) : K)

/-- Number of weights a segment advances: `n - 1` (PolynomialLayers.py:307) or `n` (650). -/
def stride (L : PwLayer K) : ℕ := if L.cls.shared then L.n - 1 else L.n

/-- Last axis of the weight tensor: `(n - 1) * segments + 1` (PolynomialLayers.py:243) or
`n * segments` (608). -/
def wSize (cls : PwClass) (n segments : ℕ) : ℕ :=
  if cls.shared then (n - 1) * segments + 1 else n * segments

/-- `((x + half) / length * segments).long().clamp(0, segments - 1)`,
PolynomialLayers.py:273-274, 299-303, 632-636, 643-647 (after the periodic wrap). -/
def segIndex (L : PwLayer K) (x : K) : ℤ :=
  clampInt (toLong (((x + L.half) / L.length) * ((L.segments : ℕ) : K))) 0 ((L.segments : ℤ) - 1)

/-- `which_segment`, PolynomialLayers.py:259-275, 628-637, on one entry. -/
def whichSegment (L : PwLayer K) (x : K) : ℤ := L.segIndex (periodize L.periodicity x)

/-- `_eta`, PolynomialLayers.py:338-344, 695-697. -/
def eta (L : PwLayer K) (index : ℤ) : K :=
  (index : K) / ((L.segments : ℕ) : K) * ((2 : ℕ) : K) - 1

/-- `x_local`, PolynomialLayers.py:277-284, 678-685, on one entry. -/
def xLocal (L : PwLayer K) (xGlobal : K) (index : ℤ) : K :=
  let xMin := L.eta index
  let xMax := L.eta (index + 1)
  L.length * ((xGlobal - xMin) / (xMax - xMin)) - L.half

/-- `x_global`, PolynomialLayers.py:286-292, 687-693, on one entry. -/
def xGlobal (L : PwLayer K) (xLocal : K) (index : ℤ) : K :=
  let xMin := L.eta index
  let xMax := L.eta (index + 1)
  ((xLocal + L.half) / L.length) * (xMax - xMin) + xMin

/-- Python index on an axis of the given size: negative indices wrap, others raise. -/
def normIndex (size : ℕ) (i : ℤ) : Option ℕ :=
  if 0 ≤ i ∧ i < size then some i.toNat
  else if i < 0 ∧ -(size : ℤ) ≤ i then some (i + size).toNat
  else none

/-- `self.w[:, windex, wrange]`, PolynomialLayers.py:323, 666: raises `IndexError` if any index is
outside. -/
def gather (w : Tensor K) (windex wrange : Tensor ℤ) : Py (Tensor K) :=
  match w.shape, windex.shape, wrange.shape with
  | [o, a, b], [q], [q'] =>
    if q = q' ∧ ∀ p < q, (normIndex a (windex.get [p])).isSome ∧ (normIndex b (wrange.get [p])).isSome
    then .ok (Tensor.tab2 o q fun l p =>
      w.get [l, (normIndex a (windex.get [p])).getD 0, (normIndex b (wrange.get [p])).getD 0])
    else .error .indexError
  | _, _, _ => .error .indexError

/-- `t.view(a, -1, b, c)`: the free axis is inferred, raises if it is not determined. -/
def viewInfer (t : Tensor K) (a b c : ℕ) : Py (Tensor K) :=
  let known := a * b * c
  let total := numel t.shape
  if known = 0 ∨ total % known ≠ 0 then .error .runtimeError
  else .ok (t.reshape [a, total / known, b, c])

/-- `t.permute(1, 2, 0, 3)`. -/
def permute1203 (t : Tensor K) : Py (Tensor K) :=
  match t.shape with
  | [a, b, c, d] => .ok (Tensor.tab4 b c a d fun i j k l => t.get [k, i, j, l])
  | _ => .error .runtimeError

/-- Weight positions `wrange` before flattening: entry `(b, i, k)` is
`id_min[b, i] * stride + k`, PolynomialLayers.py:299-312, 643-655. -/
def wrange3 (L : PwLayer K) (bsz inp : ℕ) (idMin : Tensor ℤ) : Tensor ℤ :=
  Tensor.tab3 bsz inp L.n fun b i k => idMin.get [b, i] * (L.stride : ℤ) + (k : ℤ)

/-- Input feature of each flattened position: `arange(numel) // n % in_features`,
PolynomialLayers.py:313-320, 656-663. -/
def windex (L : PwLayer K) (total : ℕ) : Tensor ℤ :=
  Tensor.tab1 total fun q => ((q / L.n % L.inFeatures : ℕ) : ℤ)

/-- `Piecewise.forward` (PolynomialLayers.py:294-336) and `PiecewiseDiscontinuous.forward`
(639-676). -/
def forward (L : PwLayer K) (x : Tensor K) : Py (Tensor K) :=
  match x.shape with
  | [bsz, inp] => do
    let x := x.map (periodize L.periodicity)
    let idMin : Tensor ℤ := x.map L.segIndex
    let idMax : Tensor ℤ := idMin.map (· + 1)
    let wr3 := L.wrange3 bsz inp idMin
    let total := numel wr3.shape
    let wrange := wr3.reshape [total]
    let g ← gather L.w (L.windex total) wrange
    let v ← viewInfer g L.outFeatures L.inFeatures L.n
    let w ← permute1203 v
    let xIn := Tensor.tab2 bsz inp fun b i =>
      let xMin := L.eta (idMin.get [b, i])
      let xMax := L.eta (idMax.get [b, i])
      L.length * ((x.get [b, i] - xMin) / (xMax - xMin)) - L.half
    L.poly.interpolate xIn w
  | _ => .error .runtimeError

/-- The layer is as the constructor leaves it: positive sizes and a weight tensor of the
allocated shape (PolynomialLayers.py:241-246, 607-610). -/
structure WF (L : PwLayer K) : Prop where
  n_pos : 0 < L.n
  seg_pos : 0 < L.segments
  in_pos : 0 < L.inFeatures
  out_pos : 0 < L.outFeatures
  w_shape : L.w.shape = [L.outFeatures, L.inFeatures, wSize L.cls L.n L.segments]
  w_wf : L.w.WF

end PwLayer

/-- A `Function` layer (PolynomialLayers.py:26-58): `Polynomial` (70-76), `FourierSeries` (187-193). -/
structure FnLayer (K : Type) where
  poly : Poly K
  inFeatures : ℕ
  outFeatures : ℕ
  periodicity : Option K
  w : Tensor K

/-- `Function.forward`, PolynomialLayers.py:60-67. -/
def FnLayer.forward (L : FnLayer K) (x : Tensor K) : Py (Tensor K) :=
  L.poly.interpolate (x.map (periodize L.periodicity)) L.w

/-- `constant_random_initialization`, PolynomialLayers.py:12-23: `rand` holds the draws of
`torch.rand(out_features, in_features)`. -/
def constantRandomInit (rand : ℕ → ℕ → K) (outF inF size : ℕ) (wm : K) : Tensor K :=
  Tensor.tab3 outF inF size fun o i _ => rand o i * wm / ((inF : ℕ) : K)

/-- `Function.__init__` with `initialize="constant_random"`, PolynomialLayers.py:27-58: asks the basis
object for `num_basis`. -/
def FnLayer.init (poly : Poly K) (inF outF : ℕ) (rand : ℕ → ℕ → K) (wm : K)
    (periodicity : Option K) : Py (FnLayer K) := do
  let nb ← poly.numBasis
  .ok { poly := poly, inFeatures := inF, outFeatures := outF, periodicity := periodicity
        w := constantRandomInit rand outF inF nb wm }

/-- `Polynomial.__init__`, PolynomialLayers.py:70-76. -/
def polynomialInit (n inF outF : ℕ) (length : K) (rand : ℕ → ℕ → K) (wm : K)
    (periodicity : Option K) : Py (FnLayer K) :=
  FnLayer.init (lagrangePolyFlat n length) inF outF rand wm periodicity

/-- `PolynomialProd.__init__`, PolynomialLayers.py:174-184. -/
def polynomialProdInit (n inF outF : ℕ) (length : K) (rand : ℕ → ℕ → K) (wm : K)
    (periodicity : Option K) : Py (FnLayer K) :=
  FnLayer.init (lagrangePolyFlatProd n length) inF outF rand wm periodicity

/-- `FourierSeries.__init__`, PolynomialLayers.py:187-193: the keyword arguments
(`weight_magnitude`, `periodicity`) are not passed on, so the defaults 1 and `None` are used. -/
def fourierSeriesInit (n inF outF : ℕ) (length : K) (rand : ℕ → ℕ → K) (_wm : K)
    (_periodicity : Option K) : Py (FnLayer K) :=
  FnLayer.init (fourierSeriesFlat n length) inF outF rand 1 none

/-- `Piecewise.__init__`/`PiecewiseDiscontinuous.__init__` as called by the four concrete classes
(which always leave `initialize="constant_random"`), PolynomialLayers.py:197-257, 532-619, 706-754. -/
def PwLayer.init (cls : PwClass) (n inF outF segments : ℕ) (length : K) (rand : ℕ → ℕ → K) (wm : K)
    (periodicity : Option K) : PwLayer K :=
  { cls := cls, n := n, segments := segments, inFeatures := inF, outFeatures := outF
    length := length, periodicity := periodicity
    w := constantRandomInit rand outF inF (PwLayer.wSize cls n segments) wm }

end HOL
