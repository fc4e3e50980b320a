import Verif.Model.Piecewise

/-!
# Refinement, smoothing and line initialization of layers

Model of PolynomialLayers.py:757-1023. These functions change a layer in place and may
raise halfway, so each is modelled by the outcome together with the layer as it is left.
Simplification: `layer_in` and `layer_out` are different objects.
-/

namespace HOL
open TorchScalar

variable {K : Type} [TorchScalar K]

/-- Outcome of a call that changes an object: result or exception, and the final state. -/
abbrev Eff (σ : Type) := Py Unit × σ

/-- `for k in range(n): body(k)` on a mutable state; an exception ends the loop. -/
def forLoop {σ : Type} (n : ℕ) (body : ℕ → σ → Eff σ) (s : σ) : Eff σ :=
  match n with
  | 0 => (.ok (), s)
  | n + 1 => match forLoop n body s with
    | (.ok _, s') => body n s'
    | (.error e, s') => (.error e, s')

/-- `w[a, b, start:stop].reshape(1, 1, 1, -1)` with Python slice clamping. -/
def sliceRow (w : Tensor K) (a b start stop : ℕ) : Py (Tensor K) :=
  match w.shape with
  | [d0, d1, d2] =>
    if a < d0 ∧ b < d1 then
      .ok (Tensor.tab4 1 1 1 (min stop d2 - start) fun _ _ _ k => w.get [a, b, start + k])
    else .error .indexError
  | _ => .error .indexError

/-- `w[a, b, start:stop] = v` for a flat `v`; a single value is broadcast, other sizes must match. -/
def sliceAssign (w : Tensor K) (a b start stop : ℕ) (v : Tensor K) : Py (Tensor K) :=
  match w.shape with
  | [d0, d1, d2] =>
    if a < d0 ∧ b < d1 then
      let len := min stop d2 - start
      let m := numel v.shape
      if m = len ∨ m = 1 then
        .ok (Tensor.tab3 d0 d1 d2 fun p q r =>
          if p = a ∧ q = b ∧ start ≤ r ∧ r < stop then (v.reshape [m]).get [bidx m (r - start)]
          else w.get [p, q, r])
      else .error .runtimeError
    else .error .indexError
  | _ => .error .indexError

/-- `w[a, b, c] = v` for a `v` with one element. -/
def entryAssign (w : Tensor K) (a b c : ℕ) (v : Tensor K) : Py (Tensor K) :=
  match w.shape with
  | [d0, d1, d2] =>
    if a < d0 ∧ b < d1 ∧ c < d2 then
      if numel v.shape = 1 then .ok (w.set [a, b, c] ((v.reshape [1]).get [0]))
      else .error .runtimeError
    else .error .indexError
  | _ => .error .indexError

/-- Assign the computed weights or keep the layer if computing or assigning raised. -/
def PwLayer.assign (L : PwLayer K) (w : Py (Tensor K)) : Eff (PwLayer K) :=
  match w with
  | .ok w => (.ok (), { L with w := w })
  | .error e => (.error e, L)

/-- Attribute `n` of the basis object, LagrangePolynomial.py:192, 221 (absent for Fourier). -/
def BasisFn.nAttr : BasisFn K → Py ℕ
  | .lagrange b => .ok b.n
  | .lagrange1 => .ok 1
  | .fourier _ => .error .attributeError

/-- `basis.X.reshape(-1, 1)`. -/
def columnX (b : BasisFn K) : Py (Tensor K) := do
  let X ← b.X
  .ok (X.reshape [numel X.shape, 1])

/-- Number of inputs/outputs iterated over: `w.shape[0]`, `w.shape[1]`. -/
def dim (w : Tensor K) (k : ℕ) : ℕ := w.shape.getD k 0

/-- `offset` and `end` of PolynomialLayers.py:787-792: unbound when `layer_in` is one of the product
classes, which are neither `PiecewisePolynomial` nor `PiecewiseDiscontinuousPolynomial`. The result is
(weights a segment advances, extra weight at the end). -/
def interpolateOffsets (cls : PwClass) (n : ℕ) : Py (ℕ × ℕ) :=
  match cls with
  | .continuous => .ok (n - 1, 1)
  | .discontinuous => .ok (n, 0)
  | .continuousProd | .discontinuousProd => .error .unboundLocalError

/-- Body of the innermost loop, PolynomialLayers.py:799-812. -/
def interpolateStep (Lin : PwLayer K) (xOut : Tensor K) (nIn nOut a b i : ℕ)
    (Lout : PwLayer K) : Eff (PwLayer K) :=
  Lout.assign do
    let (stIn, extra) ← interpolateOffsets Lin.cls nIn
    let w ← sliceRow Lin.w a b (i * stIn) ((i + 1) * stIn + extra)
    let wb ← Lin.poly.interpolate xOut w
    let (stOut, extra) ← interpolateOffsets Lin.cls nOut
    sliceAssign Lout.w a b (i * stOut) ((i + 1) * stOut + extra) wb

/-- `interpolate_polynomial_layer(layer_in, layer_out)`, PolynomialLayers.py:757-812. -/
def interpolateLayer (Lin Lout : PwLayer K) : Eff (PwLayer K) :=
  if Lin.segments ≠ Lout.segments then (.error .valueError, Lout)
  else
    match columnX Lin.poly.basis, columnX Lout.poly.basis, Lin.poly.basis.nAttr,
        Lout.poly.basis.nAttr with
    | .ok _, .ok xOut, .ok nIn, .ok nOut =>
      forLoop (dim Lin.w 0) (fun a => forLoop (dim Lin.w 1) fun b =>
        forLoop Lin.segments fun i => interpolateStep Lin xOut nIn nOut a b i) Lout
    | _, _, _, _ => (.error .attributeError, Lout)

/-- Body of the innermost loop of `refine_polynomial_layer`, PolynomialLayers.py:932-948: node `k` of output
segment `j`. -/
def refineStep (Lin Lout0 : PwLayer K) (xOut : Tensor K) (nIn nOut a b j k : ℕ)
    (Lout : PwLayer K) : Eff (PwLayer K) :=
  Lout.assign do
    let xg := Lout0.xGlobal (xOut.get [k, 0]) (j : ℤ)
    let i := Lin.whichSegment xg
    let xl := Lin.xLocal xg i
    let w ← sliceRow Lin.w a b (i.toNat * (nIn - 1)) ((i.toNat + 1) * (nIn - 1) + 1)
    let wb ← Lin.poly.interpolate (Tensor.tab2 1 1 fun _ _ => xl) w
    entryAssign Lout.w a b (j * (nOut - 1) + k) wb

/-- `refine_polynomial_layer(layer_in, layer_out)`, PolynomialLayers.py:884-948. The positions are
computed from the attributes of `layer_out`, which the loop does not change. -/
def refineLayer (Lin Lout : PwLayer K) : Eff (PwLayer K) :=
  match columnX Lin.poly.basis, columnX Lout.poly.basis, Lin.poly.basis.nAttr,
      Lout.poly.basis.nAttr with
  | .ok _, .ok xOut, .ok nIn, .ok nOut =>
    forLoop (dim Lin.w 0) (fun a => forLoop (dim Lin.w 1) fun b =>
      forLoop Lout.segments fun j => forLoop (numel xOut.shape) fun k =>
        refineStep Lin Lout xOut nIn nOut a b j k) Lout
  | _, _, _, _ => (.error .attributeError, Lout)

/-- `refine_discontinuous_polynomial_layer(layer_in, layer_out)`, PolynomialLayers.py:815-881: raises in the
first pass of the innermost loop (line 866). -/
def refineDiscontinuousLayer (Lin Lout : PwLayer K) : Eff (PwLayer K) :=
  match columnX Lin.poly.basis, columnX Lout.poly.basis, Lin.poly.basis.nAttr,
      Lout.poly.basis.nAttr with
  | .ok _, .ok _, .ok _, .ok _ =>
    forLoop (dim Lin.w 0) (fun _ => forLoop (dim Lin.w 1) fun _ =>
      forLoop Lout.segments fun _ Lout => (.error .valueError, Lout)) Lout
  | _, _, _, _ => (.error .attributeError, Lout)

/-- Method `refine`: `Piecewise.refine` (PolynomialLayers.py:352-356),
`PiecewiseDiscontinuous.refine` (702-703). -/
def PwLayer.refine (Lin Lout : PwLayer K) : Eff (PwLayer K) :=
  if Lin.cls.shared then refineLayer Lin Lout else refineDiscontinuousLayer Lin Lout

/-- Number of positions of the slice `start:-1:step` on an axis of the given size. -/
def stridedCount (start step size : ℕ) : ℕ := (size - 1 - start + (step - 1)) / step

/-- `w[:, :, start:-1:step]`; a zero step raises `ValueError`. -/
def stridedGet (w : Tensor K) (start step : ℕ) : Py (Tensor K) :=
  match w.shape with
  | [d0, d1, d2] =>
    if step = 0 then .error .valueError
    else .ok (Tensor.tab3 d0 d1 (stridedCount start step d2) fun p q r => w.get [p, q, start + r * step])
  | _ => .error .indexError

/-- `w[:, :, start:-1:step] = v`. -/
def stridedSet (w : Tensor K) (start step : ℕ) (v : Tensor K) : Py (Tensor K) :=
  match w.shape, v.shape with
  | [d0, d1, d2], [e0, e1, e2] =>
    let c := stridedCount start step d2
    if step = 0 then .error .valueError
    else if e0 = d0 ∧ e1 = d1 ∧ (e2 = c ∨ e2 = 1) then
      .ok (Tensor.tab3 d0 d1 d2 fun p q r =>
        if start ≤ r ∧ (r - start) % step = 0 ∧ (r - start) / step < c
        then v.get [p, q, bidx e2 ((r - start) / step)] else w.get [p, q, r])
    else .error .runtimeError
  | _, _ => .error .indexError

/-- Elementwise operation on two tensors with three axes that may broadcast on the last one. -/
def zip3 (f : K → K → K) (s t : Tensor K) : Py (Tensor K) :=
  match s.shape, t.shape with
  | [a, b, c], [a', b', c'] => do
    let cc ← bcast c c'
    if a = a' ∧ b = b' then
      .ok (Tensor.tab3 a b cc fun p q r => f (s.get [p, q, bidx c r]) (t.get [p, q, bidx c' r]))
    else .error .runtimeError
  | _, _ => .error .runtimeError

/-- `smooth_discontinuous_layer(layer, factor)`, PolynomialLayers.py:951-969. `left` and `right` are
views of the weights: `right` is read again after the first assignment. -/
def smoothLayer (L : PwLayer K) (factor : K) : Eff (PwLayer K) :=
  let n := L.n
  let first : Py (Tensor K × Tensor K) := do
    let left ← stridedGet L.w (n - 1) n
    let right ← stridedGet L.w n n
    let diff ← zip3 (fun u v => u - v) left right
    let upd ← zip3 (fun u d => u - 1 / ((2 : ℕ) : K) * factor * d) left diff
    let w1 ← stridedSet L.w (n - 1) n upd
    .ok (diff, w1)
  match first with
  | .error e => (.error e, L)
  | .ok (diff, w1) =>
    PwLayer.assign { L with w := w1 } do
      let right ← stridedGet w1 n n
      let upd ← zip3 (fun u d => u + 1 / ((2 : ℕ) : K) * factor * d) right diff
      stridedSet w1 n n upd

/-- Body of the loop over segments, PolynomialLayers.py:1012-1023. -/
def initializeStep (st extra : ℕ) (xIn : Tensor K) (slope offset : K) (a b j : ℕ)
    (L : PwLayer K) : Eff (PwLayer K) :=
  L.assign do
    let y := xIn.map fun t => slope * L.xGlobal t (j : ℤ) + offset
    sliceAssign L.w a b (j * st) ((j + 1) * st + extra) y

/-- `initialize_polynomial_layer(layer_in, max_slope, max_offset)`, PolynomialLayers.py:972-1023:
`r1 a b` and `r2 a b` are the two `random.random()` draws for link `(a, b)`. The check
`isinstance(layer_in, (PiecewisePolynomial, PiecewiseDiscontinuous))` excludes
`PiecewisePolynomialProd`. -/
def initializePolynomialLayer (L : PwLayer K) (maxSlope maxOffset : K) (r1 r2 : ℕ → ℕ → K) :
    Eff (PwLayer K) :=
  match L.cls with
  | .continuousProd => (.ok (), L)
  | _ =>
    match columnX L.poly.basis, L.poly.basis.nAttr with
    | .ok xIn, .ok nIn =>
      let st := if L.cls = .continuous then nIn - 1 else nIn
      let extra := if L.cls = .continuous then 1 else 0
      forLoop (dim L.w 0) (fun a => forLoop (dim L.w 1) fun b =>
        let slope := maxSlope * (r1 a b * ((2 : ℕ) : K) - 1)
        let offset := maxOffset * (r2 a b * ((2 : ℕ) : K) - 1)
        forLoop L.segments fun j => initializeStep st extra xIn slope offset a b j) L
    | _, _ => (.error .attributeError, L)

end HOL
